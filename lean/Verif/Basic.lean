/-
Strings, dictionaries and exceptions used by the model of datalad/metadata-model.
-/
import Lean.Elab.Term

namespace MM

/-- Python `str`: a list of unicode characters.  Lone surrogates, which a Python
string may hold, are not modelled. -/
abbrev Str := List Char

open Lean in
/-- `c!"abc"` is the list of characters `['a', 'b', 'c']`. -/
macro:max "c!" s:str : term => do
  let cs := s.getString.toList.map (fun c => Syntax.mkCharLit c)
  `(([$(cs.toArray),*] : Str))

/-- The Python exceptions that the modelled code raises. -/
inductive PyErr
  | runtime | value | key | assertion | attribute | index | type | recursion | os
  deriving DecidableEq, Repr

/-! ### Python dictionaries in insertion order -/

section Dict
variable {α β γ : Type} [DecidableEq α]

/-- `d.get(k)` -/
def dget (d : List (α × β)) (k : α) : Option β :=
  match d with
  | [] => none
  | (k', v) :: d => if k' = k then some v else dget d k

/-- `d[k] = v`: an existing key keeps its position, a new key goes to the end. -/
def dset (d : List (α × β)) (k : α) (v : β) : List (α × β) :=
  match d with
  | [] => [(k, v)]
  | (k', v') :: d => if k' = k then (k', v) :: d else (k', v') :: dset d k v

/-- `del d[k]` for a present key (an absent key is a `KeyError`, see the callers). -/
def ddel (d : List (α × β)) (k : α) : List (α × β) :=
  match d with
  | [] => []
  | (k', v') :: d => if k' = k then d else (k', v') :: ddel d k

/-- `d.keys()` -/
def dkeys (d : List (α × β)) : List α := d.map Prod.fst

@[simp] theorem dget_nil (k : α) : dget ([] : List (α × β)) k = none := rfl

theorem dget_cons (k' : α) (v : β) (d : List (α × β)) (k : α) :
    dget ((k', v) :: d) k = if k' = k then some v else dget d k := rfl

theorem dget_dset (d : List (α × β)) (k : α) (v : β) (k' : α) :
    dget (dset d k v) k' = if k = k' then some v else dget d k' := by
  induction d with
  | nil => simp [dset, dget]
  | cons p d ih =>
    obtain ⟨a, b⟩ := p
    by_cases h : a = k
    · subst h; by_cases h' : a = k' <;> simp [dset, dget, h']
    · by_cases h' : a = k'
      · subst h'
        have : ¬ k = a := fun e => h e.symm
        simp [dset, dget, h, this]
      · simp [dset, dget, h, h', ih]

@[simp] theorem dget_dset_self (d : List (α × β)) (k : α) (v : β) :
    dget (dset d k v) k = some v := by simp [dget_dset]

theorem dget_dset_ne (d : List (α × β)) {k k' : α} (v : β) (h : k ≠ k') :
    dget (dset d k v) k' = dget d k' := by simp [dget_dset, h]

theorem mem_of_dget {d : List (α × β)} {k : α} {v : β} (h : dget d k = some v) :
    (k, v) ∈ d := by
  induction d with
  | nil => simp at h
  | cons p d ih =>
    obtain ⟨a, b⟩ := p
    by_cases e : a = k
    · subst e; simp [dget] at h; subst h; simp
    · simp [dget, e] at h; exact List.mem_cons_of_mem _ (ih h)

theorem dget_eq_none {d : List (α × β)} {k : α} : dget d k = none ↔ k ∉ dkeys d := by
  induction d with
  | nil => simp [dkeys]
  | cons p d ih =>
    obtain ⟨a, b⟩ := p
    by_cases e : a = k
    · subst e; simp [dget, dkeys]
    · simp [dget, e, ih, dkeys]
      intro _ h
      exact e h.symm

theorem dget_isSome {d : List (α × β)} {k : α} : (dget d k).isSome ↔ k ∈ dkeys d := by
  cases h : dget d k with
  | none => simp [dget_eq_none.mp h]
  | some v =>
    have := mem_of_dget h
    simp only [Option.isSome_some, true_iff]
    exact List.mem_map_of_mem (f := Prod.fst) this

theorem dget_of_mem {d : List (α × β)} (hn : (dkeys d).Nodup) {k : α} {v : β}
    (h : (k, v) ∈ d) : dget d k = some v := by
  induction d with
  | nil => simp at h
  | cons p d ih =>
    obtain ⟨a, b⟩ := p
    simp [dkeys] at hn
    rcases List.mem_cons.mp h with e | e
    · cases e; simp [dget]
    · have : a ≠ k := by
        rintro rfl
        exact hn.1 v e
      simp [dget, this]
      exact ih (by simpa [dkeys] using hn.2) e

theorem dkeys_dset (d : List (α × β)) (k : α) (v : β) :
    dkeys (dset d k v) = if k ∈ dkeys d then dkeys d else dkeys d ++ [k] := by
  induction d with
  | nil => simp [dset, dkeys]
  | cons p d ih =>
    obtain ⟨a, b⟩ := p
    by_cases e : a = k
    · subst e; simp [dset, dkeys]
    · have e' : ¬ k = a := fun h => e h.symm
      simp only [dkeys] at ih
      simp only [dset, e, if_false, dkeys, List.map_cons, ih, List.mem_cons, e', false_or]
      by_cases hk : k ∈ List.map Prod.fst d <;> simp [hk]

theorem nodup_dset {d : List (α × β)} (h : (dkeys d).Nodup) (k : α) (v : β) :
    (dkeys (dset d k v)).Nodup := by
  rw [dkeys_dset]
  split
  · exact h
  · rename_i hk
    rw [List.nodup_append]
    refine ⟨h, by simp, ?_⟩
    intro a ha b hb
    simp at hb; subst hb
    rintro rfl; exact hk ha

theorem dset_of_not_mem {d : List (α × β)} {k : α} (h : k ∉ dkeys d) (v : β) :
    dset d k v = d ++ [(k, v)] := by
  induction d with
  | nil => rfl
  | cons p d ih =>
    obtain ⟨a, b⟩ := p
    simp [dkeys] at h
    have e : a ≠ k := fun e => h.1 e.symm
    simp only [dset, e, if_false, List.cons_append]
    rw [ih (by simpa [dkeys] using h.2)]

theorem dget_append (d e : List (α × β)) (k : α) :
    dget (d ++ e) k = (dget d k).or (dget e k) := by
  induction d with
  | nil => simp
  | cons p d ih =>
    obtain ⟨a, b⟩ := p
    by_cases h : a = k <;> simp [dget, h, ih]

theorem dget_ddel {d : List (α × β)} (hn : (dkeys d).Nodup) (k k' : α) :
    dget (ddel d k) k' = if k = k' then none else dget d k' := by
  induction d with
  | nil => simp [ddel]
  | cons p d ih =>
    obtain ⟨a, b⟩ := p
    have hn' : a ∉ dkeys d ∧ (dkeys d).Nodup := by
      simpa [dkeys] using hn
    by_cases e : a = k
    · subst e
      by_cases e' : a = k'
      · subst e'; simp [ddel]; exact dget_eq_none.mpr hn'.1
      · simp [ddel, e', dget]
    · by_cases e' : a = k'
      · subst e'
        have : ¬ k = a := fun h => e h.symm
        simp [ddel, e, dget, this]
      · simp [ddel, e, dget, e', ih hn'.2]

theorem dget_ddel_ne (d : List (α × β)) (k : α) {k' : α} (h : k' ≠ k) :
    dget (ddel d k) k' = dget d k' := by
  induction d with
  | nil => rfl
  | cons p d ih =>
    obtain ⟨a, b⟩ := p
    simp only [ddel]
    split
    · rename_i ha; subst ha; simp [dget, Ne.symm h]
    · simp only [dget]; split
      · rfl
      · exact ih

theorem dkeys_ddel_sublist (d : List (α × β)) (k : α) :
    (dkeys (ddel d k)).Sublist (dkeys d) := by
  induction d with
  | nil => simp [ddel]
  | cons p d ih =>
    obtain ⟨a, b⟩ := p
    by_cases e : a = k
    · simp [ddel, e, dkeys]
    · simp only [ddel, e, if_false, dkeys, List.map_cons]
      exact List.Sublist.cons_cons _ ih

theorem nodup_ddel {d : List (α × β)} (h : (dkeys d).Nodup) (k : α) :
    (dkeys (ddel d k)).Nodup := (dkeys_ddel_sublist d k).nodup h

/-- Map over the values of a dictionary. -/
def dmap (f : β → γ) (d : List (α × β)) : List (α × γ) := d.map (fun p => (p.1, f p.2))

omit [DecidableEq α] in
@[simp] theorem dkeys_dmap (f : β → γ) (d : List (α × β)) : dkeys (dmap f d) = dkeys d := by
  simp [dkeys, dmap, Function.comp_def]

theorem dget_dmap (f : β → γ) (d : List (α × β)) (k : α) :
    dget (dmap f d) k = (dget d k).map f := by
  induction d with
  | nil => rfl
  | cons p d ih =>
    obtain ⟨a, b⟩ := p
    have ih' : dget (List.map (fun p => (p.1, f p.2)) d) k = (dget d k).map f := ih
    by_cases e : a = k <;> simp [dmap, dget, e, ih']

end Dict

/-! ### Prefixes -/

/-- `s.startswith(p)` -/
def startsWith (s p : Str) : Bool := p.isPrefixOf s

/-- `sep.join(parts)` for a one-character separator -/
def joinWith (sep : Char) : List Str → Str
  | [] => []
  | [p] => p
  | p :: q :: ps => p ++ sep :: joinWith sep (q :: ps)

/-- `s.split(sep)` for a one-character separator -/
def splitOn (sep : Char) : Str → List Str
  | [] => [[]]
  | c :: cs =>
    if c = sep then [] :: splitOn sep cs
    else match splitOn sep cs with
      | [] => [[c]]
      | p :: ps => (c :: p) :: ps

theorem splitOn_ne_nil (sep : Char) (s : Str) : splitOn sep s ≠ [] := by
  cases s with
  | nil => simp [splitOn]
  | cons c cs =>
    simp only [splitOn]
    split
    · simp
    · split <;> simp

theorem not_mem_of_mem_splitOn (sep : Char) (s : Str) :
    ∀ p ∈ splitOn sep s, sep ∉ p := by
  induction s with
  | nil => simp [splitOn]
  | cons c cs ih =>
    simp only [splitOn]
    split
    · intro p hp
      rcases List.mem_cons.mp hp with e | e
      · subst e; simp
      · exact ih p e
    · rename_i hc
      split
      · intro p hp
        simp at hp; subst hp
        simp; exact fun h => hc h.symm
      · rename_i q qs hq
        intro p hp
        rcases List.mem_cons.mp hp with e | e
        · subst e
          intro h
          rcases List.mem_cons.mp h with h | h
          · exact hc h.symm
          · exact ih q (by rw [hq]; simp) h
        · exact ih p (by rw [hq]; simp [e])

theorem splitOn_of_not_mem {sep : Char} {s : Str} (h : sep ∉ s) : splitOn sep s = [s] := by
  induction s with
  | nil => rfl
  | cons c cs ih =>
    simp only [List.mem_cons, not_or] at h
    have e : c ≠ sep := fun e => h.1 e.symm
    simp [splitOn, e, ih h.2]

theorem splitOn_append {sep : Char} {s : Str} (h : sep ∉ s) (t : Str) :
    splitOn sep (s ++ sep :: t) = s :: splitOn sep t := by
  induction s with
  | nil => simp [splitOn]
  | cons c cs ih =>
    simp only [List.mem_cons, not_or] at h
    have e : c ≠ sep := fun e => h.1 e.symm
    simp [splitOn, e, ih h.2]

/-- Splitting undoes joining, when no part holds the separator. -/
theorem splitOn_joinWith {sep : Char} {ps : List Str} (hne : ps ≠ [])
    (h : ∀ p ∈ ps, sep ∉ p) : splitOn sep (joinWith sep ps) = ps := by
  induction ps with
  | nil => exact absurd rfl hne
  | cons p ps ih =>
    cases ps with
    | nil => exact splitOn_of_not_mem (h p (by simp))
    | cons q qs =>
      simp only [joinWith]
      rw [splitOn_append (h p (by simp)), ih (by simp) (fun x hx => h x (by simp [hx]))]

/-- Joining undoes splitting. -/
theorem joinWith_splitOn (sep : Char) (s : Str) : joinWith sep (splitOn sep s) = s := by
  induction s with
  | nil => rfl
  | cons c cs ih =>
    simp only [splitOn]
    split
    · rename_i hc
      subst hc
      cases h : splitOn c cs with
      | nil => exact absurd h (splitOn_ne_nil _ _)
      | cons q qs => rw [h] at ih; simp [joinWith, ih]
    · split
      · rename_i h; exact absurd h (splitOn_ne_nil _ _)
      · rename_i q qs hq
        rw [hq] at ih
        cases qs with
        | nil => simp [joinWith] at ih ⊢; exact ih
        | cons r rs => simp [joinWith] at ih ⊢; exact ih

end MM
