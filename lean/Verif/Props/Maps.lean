/-
C32, C34 and C56: version lists, UUID sets and root records as dictionaries.

`look C L h (k :: ks) [] (.mem i)` in `Content.lean` says what is found under the key
`k` of the object `i`, and at the keys `ks` below it; `[]` gives the element itself with
its time stamp.
-/
import Verif.Parts
import Verif.TreeRemove
import Verif.Props.Listing

namespace MM

variable {C : Cfg}

/-! ### The nested dictionaries of version lists -/

/-- `version_set`: for each version a dictionary from prefix paths to records. -/
abbrev Nested (α : Type) := List (Str × List (PPath × α))

/-- `if v not in version_set: version_set[v] = dict()`, `version_set[v][p] = x` -/
def Nested.set {α : Type} (n : Nested α) (v : Str) (p : PPath) (x : α) : Nested α :=
  let n' := if (dget n v).isSome then n else dset n v []
  dset n' v (dset ((dget n' v).getD []) p x)

/-- The records in the order of iteration -/
def Nested.items {α : Type} (n : Nested α) : List (Key × α) :=
  n.flatMap fun e => e.2.map fun y => (.ver e.1 y.1, y.2)

theorem Nested.set_eq {α : Type} (n : Nested α) (v : Str) (p : PPath) (x : α) :
    n.set v p x = dset n v (dset ((dget n v).getD []) p x) := by
  unfold Nested.set
  cases h : dget n v with
  | some y => simp [h]
  | none =>
    simp only [Option.isSome_none, Bool.false_eq_true, if_false, dget_dset_self, Option.getD_some, Option.getD_none]
    have hdd : ∀ (n : Nested α) (a b : List (PPath × α)), dset (dset n v a) v b = dset n v b := by
      intro n a b
      induction n with
      | nil => simp [dset]
      | cons e n ih =>
        obtain ⟨k, y⟩ := e
        by_cases hk : k = v
        · simp [dset, hk]
        · simp [dset, hk, ih]
    exact hdd n _ _

/-- No version has an empty dictionary, and no version and no path comes twice. -/
structure Nested.Good {α : Type} (n : Nested α) : Prop where
  keys : (dkeys n).Nodup
  inner : ∀ e ∈ n, e.2 ≠ [] ∧ (dkeys e.2).Nodup

theorem dset_ne_nil {α β : Type} [DecidableEq α] (d : List (α × β)) (k : α) (x : β) : dset d k x ≠ [] := by
  cases d with
  | nil => simp [dset]
  | cons e d => obtain ⟨a, b⟩ := e; simp only [dset]; split <;> simp

theorem Nested.Good.set {α : Type} {n : Nested α} (h : n.Good) (v : Str) (p : PPath) (x : α) :
    (n.set v p x).Good := by
  rw [Nested.set_eq]
  refine ⟨nodup_dset h.keys _ _, fun e he => ?_⟩
  rcases mem_dset he with rfl | he
  · refine ⟨dset_ne_nil _ _ _, ?_⟩
    simp only
    cases hd : dget n v with
    | none => exact nodup_dset (show (dkeys ([] : List (PPath × α))).Nodup from List.nodup_nil) _ _
    | some y => exact nodup_dset (h.inner _ (mem_of_dget hd)).2 _ _
  · exact h.inner e he

theorem dget_append_left {α β : Type} [DecidableEq α] {a b : List (α × β)} {k : α} {y : β} (h : dget a k = some y) :
    dget (a ++ b) k = some y := by
  induction a with
  | nil => cases h
  | cons e a ih =>
    obtain ⟨k', y'⟩ := e
    simp only [List.cons_append, dget] at h ⊢
    split
    · rename_i hk; rw [if_pos hk] at h; exact h
    · rename_i hk; rw [if_neg hk] at h; exact ih h

theorem dget_append_right {α β : Type} [DecidableEq α] {a b : List (α × β)} {k : α} (h : dget a k = none) :
    dget (a ++ b) k = dget b k := by
  induction a with
  | nil => rfl
  | cons e a ih =>
    obtain ⟨k', y'⟩ := e
    simp only [List.cons_append, dget] at h ⊢
    split
    · rename_i hk; rw [if_pos hk] at h; cases h
    · rename_i hk; rw [if_neg hk] at h; exact ih h

theorem dset_append_left {α β : Type} [DecidableEq α] {a b : List (α × β)} {k : α} (x : β) (h : (dget a k).isSome) :
    dset (a ++ b) k x = dset a k x ++ b := by
  induction a with
  | nil => cases h
  | cons e a ih =>
    obtain ⟨k', y'⟩ := e
    simp only [List.cons_append, dget, dset] at h ⊢
    split
    · rfl
    · rename_i hk; rw [if_neg hk] at h; rw [ih h]; rfl

theorem dset_append_right {α β : Type} [DecidableEq α] {a b : List (α × β)} {k : α} (x : β) (h : dget a k = none) :
    dset (a ++ b) k x = a ++ dset b k x := by
  induction a with
  | nil => rfl
  | cons e a ih =>
    obtain ⟨k', y'⟩ := e
    simp only [List.cons_append, dget, dset] at h ⊢
    split
    · rename_i hk; rw [if_pos hk] at h; cases h
    · rename_i hk; rw [if_neg hk] at h; rw [ih h]

theorem dset_none {α β : Type} [DecidableEq α] {a : List (α × β)} {k : α} (x : β) (h : dget a k = none) :
    dset a k x = a ++ [(k, x)] := by
  have := dset_append_right (b := []) x h
  rw [List.append_nil] at this
  rw [this]; rfl

/-- The records of one version -/
def verItems {α : Type} (v : Str) (ps : List (PPath × α)) : List (Key × α) := ps.map fun y => (.ver v y.1, y.2)

theorem dget_verItems {α : Type} (v : Str) (p : PPath) (ps : List (PPath × α)) :
    dget (verItems v ps) (.ver v p) = dget ps p := by
  induction ps with
  | nil => rfl
  | cons y ps ih =>
    obtain ⟨q, z⟩ := y
    show dget ((Key.ver v q, z) :: verItems v ps) _ = _
    simp only [dget, ih]
    by_cases hq : q = p
    · simp [hq]
    · rw [if_neg hq, if_neg (by simpa using hq)]

theorem dset_verItems {α : Type} (v : Str) (p : PPath) (x : α) (ps : List (PPath × α)) :
    dset (verItems v ps) (.ver v p) x = verItems v (dset ps p x) := by
  induction ps with
  | nil => rfl
  | cons y ps ih =>
    obtain ⟨q, z⟩ := y
    show dset ((Key.ver v q, z) :: verItems v ps) _ _ = _
    simp only [dset, ih]
    by_cases hq : q = p
    · simp [hq, verItems]
    · rw [if_neg hq, if_neg (by simpa using hq)]; rfl

theorem dget_other {α : Type} {l : List (Key × α)} {v : Str} (p : PPath) (h : ∀ e ∈ l, sameVersion v e = false) :
    dget l (.ver v p) = none := by
  cases hd : dget l (.ver v p) with
  | none => rfl
  | some x =>
    have := h _ (mem_of_dget hd)
    simp [sameVersion] at this

/-- Setting an entry in the list of all records, split at the version -/
theorem vset_split {α : Type} {a b : List (Key × α)} {v : Str} (ps : List (PPath × α)) (p : PPath) (x : α)
    (hps : ps ≠ []) (ha : ∀ e ∈ a, sameVersion v e = false) (hb : ∀ e ∈ b, sameVersion v e = false) :
    vset (a ++ (verItems v ps ++ b)) v p x = a ++ (verItems v (dset ps p x) ++ b) := by
  rw [vset_eq]
  have hda := dget_other p ha
  by_cases hp : (dget ps p).isSome = true
  · rw [if_pos, dset_append_right x hda, dset_append_left x (by rw [dget_verItems]; exact hp), dset_verItems]
    rw [dget_append_right hda]
    obtain ⟨y, hy⟩ := Option.isSome_iff_exists.mp hp
    rw [dget_append_left (y := y) (by rw [dget_verItems]; exact hy)]
    rfl
  · have hpn : dget ps p = none := by simpa using hp
    have hnone : dget (a ++ (verItems v ps ++ b)) (.ver v p) = none := by
      rw [dget_append_right hda, dget_append_right (by rw [dget_verItems]; exact hpn)]
      exact dget_other p hb
    rw [hnone, dset_none x hpn]
    simp only [Option.isSome_none, Bool.false_eq_true, if_false]
    obtain ⟨ps0, y, rfl⟩ : ∃ ps0 y, ps = ps0 ++ [y] := by
      rcases List.eq_nil_or_concat ps with h | ⟨ps0, y, h⟩
      · exact absurd h hps
      · exact ⟨ps0, y, by rw [h, List.concat_eq_append]⟩
    have htake : ((a ++ (verItems v (ps0 ++ [y]) ++ b)).reverse.takeWhile fun e => !sameVersion v e) = b.reverse := by
      rw [List.reverse_append, List.reverse_append, List.append_assoc, List.takeWhile_append_of_pos]
      · have : (verItems v (ps0 ++ [y])).reverse = (.ver v y.1, y.2) :: (verItems v ps0).reverse := by
          unfold verItems; simp
        rw [this, List.cons_append, List.takeWhile_cons, if_neg (by simp [sameVersion])]
        simp
      · intro e he
        rw [hb e (List.mem_reverse.mp he)]; rfl
    rw [htake, List.reverse_reverse, if_neg]
    · have hlen : (a ++ (verItems v (ps0 ++ [y]) ++ b)).length - b.length = (a ++ verItems v (ps0 ++ [y])).length := by
        simp only [List.length_append]; omega
      rw [hlen, ← List.append_assoc, List.take_left]
      simp [verItems]
    · simp [verItems]
      omega

theorem items_other {α : Type} {n : Nested α} {v : Str} (h : v ∉ dkeys n) :
    ∀ e ∈ n.items, sameVersion v e = false := by
  intro e he
  obtain ⟨x, hx, hy⟩ := List.mem_flatMap.mp he
  obtain ⟨y, _, rfl⟩ := List.mem_map.mp hy
  simp only [sameVersion, decide_eq_false_iff_not]
  rintro rfl
  exact h (List.mem_map_of_mem hx)

/-- The one list of records of the model stands for the nested dictionaries. -/
theorem Nested.items_set {α : Type} {n : Nested α} (h : n.Good) (v : Str) (p : PPath) (x : α) :
    (n.set v p x).items = vset n.items v p x := by
  rw [Nested.set_eq]
  cases hd : dget n v with
  | none =>
    have hv : v ∉ dkeys n := by
      intro hm
      have := dget_isSome.mpr hm
      rw [hd] at this; cases this
    rw [dset_none _ hd, vset_eq, dget_other p (items_other hv)]
    simp only [Option.isSome_none, Bool.false_eq_true, if_false, Option.getD_none]
    rw [takeWhile_all (by
      intro e he
      rw [items_other hv e (List.mem_reverse.mp he)]; rfl)]
    rw [if_pos (by simp)]
    unfold Nested.items
    rw [List.flatMap_append]
    rfl
  | some ps =>
    obtain ⟨n1, n2, rfl⟩ := List.append_of_mem (mem_of_dget hd)
    have hk := h.keys
    have hk' : ∀ e ∈ n1, e.1 ≠ v := by
      intro e he e'
      simp only [dkeys, List.map_append, List.map_cons] at hk
      exact (List.nodup_append.mp hk).2.2 e.1 (List.mem_map_of_mem he) v (List.mem_cons_self ..) e'
    have hk2 : v ∉ dkeys n2 := by
      simp only [dkeys, List.map_append, List.map_cons] at hk
      exact (List.nodup_cons.mp (List.nodup_append.mp hk).2.1).1
    have hn1 : v ∉ dkeys n1 := by
      intro hm
      obtain ⟨e, he, e'⟩ := List.mem_map.mp hm
      exact hk' e he e'
    have hd1 : dget n1 v = none := by
      cases hx : dget n1 v with
      | none => rfl
      | some y => exact absurd (List.mem_map_of_mem (f := Prod.fst) (mem_of_dget hx)) hn1
    have hset : dset (n1 ++ (v, ps) :: n2) v (dset ps p x) = n1 ++ (v, dset ps p x) :: n2 := by
      rw [dset_append_right _ hd1]
      simp [dset]
    simp only [Option.getD_some]
    rw [hset]
    have hitems : ∀ q : List (PPath × α), Nested.items (n1 ++ (v, q) :: n2) =
        Nested.items n1 ++ (verItems v q ++ Nested.items n2) := by
      intro q
      unfold Nested.items
      rw [List.flatMap_append, List.flatMap_cons]
      rfl
    rw [hitems, hitems]
    refine (vset_split ps p x ?_ (items_other hn1) (items_other hk2)).symm
    exact (h.inner (v, ps) (List.mem_append_right _ (List.mem_cons_self ..))).1

/-- C32: whatever is set in the nested dictionaries of a version list, iterating them
gives the list of records that the model keeps. -/
theorem C32_nested {α : Type} (sets : List (Str × PPath × α)) :
    Nested.items (sets.foldl (fun n e => Nested.set n e.1 e.2.1 e.2.2) []) =
      sets.foldl (fun l e => vset l e.1 e.2.1 e.2.2) [] := by
  have key : ∀ (sets : List (Str × PPath × α)) (n : Nested α), n.Good →
      Nested.items (sets.foldl (fun n e => Nested.set n e.1 e.2.1 e.2.2) n) =
        sets.foldl (fun l e => vset l e.1 e.2.1 e.2.2) n.items := by
    intro sets
    induction sets with
    | nil => intro n _; rfl
    | cons e sets ih =>
      intro n hn
      simp only [List.foldl_cons]
      rw [ih _ (hn.set _ _ _), Nested.items_set hn]
  exact key sets [] ⟨List.nodup_nil, fun e he => by cases he⟩

/-! ### C32 -/

/-- The object is a version list or a tree version list. -/
def IsList (w : World) (i : ObjId) : Prop := (w.heap i).kind = .vlist ∨ (w.heap i).kind = .tvl

theorem setVersioned_ok {w w' : World} (hs : Fine C w) {i x : ObjId} (hi : i < w.next) (hk : IsList w i)
    (hx : x < w.next) (hxi : ¬ Reach w.heap x i) {v t : Str} {p : PPath}
    (h : setVersioned C i v t p x w = (.ok (), w')) : PartSet C i (.ver v p) t x w w' := by
  unfold setVersioned at h
  obtain ⟨b, w1, h1, h2⟩ := M.bind_ok h
  obtain ⟨hl, hm⟩ := hs.loaded hi h1
  rw [M.bind_of_ok (getObj_run i w1), change_run] at h2
  cases h2
  have hform := hl.fine.formed i hm
  have hk1 : (w1.heap i).body.data.kind = .vlist ∨ (w1.heap i).body.data.kind = .tvl := by
    have := hl.kind i hi
    unfold Obj.kind at this
    rw [this]; exact hk
  refine PartSet.of_edit hl hi hm hx hxi rfl (formed_vset hform hk1 v p (t, x)) ?_ ?_ ?_
  · rw [dget_vset hform.keys, if_pos rfl]
  · intro k' hk'
    simp only
    rw [dget_vset hform.keys, if_neg (fun e => hk' e.symm)]
  · unfold Body.blank
    rcases hk1 with e | e <;> simp only [e] <;> rfl

theorem setVersioned_any {w : World} (hs : Fine C w) {i : ObjId} (hi : i < w.next) (v t : Str) (p : PPath) (x : ObjId)
    {e : PyErr} {w' : World} (h : setVersioned C i v t p x w = (.error e, w')) : Loads C w w' ∧ e = .runtime := by
  unfold setVersioned at h
  have hst := hs.loadsStep hi
  cases h1 : ensureMapped C i w with
  | mk r w1 =>
    rw [h1] at hst
    cases r with
    | error e1 => rw [M.bind_of_error h1] at h; cases h; exact ⟨hst, hs.loadError h1⟩
    | ok b => rw [M.bind_of_ok h1, M.bind_of_ok (getObj_run i w1), change_run] at h; cases h

/-- C32: setting an entry of a version list, loaded or not, makes exactly this entry
return the new time stamp and element, and keeps the other entries, everything that is
stored, and all objects that do not contain the list. -/
theorem C32_set {w w' : World} (hs : Fine C w) {i x : ObjId} (hi : i < w.next) (hk : IsList w i)
    (hx : x < w.next) (hxi : ¬ Reach w.heap x i) {v t : Str} {p : PPath}
    (h : setVersioned C i v t p x w = (.ok (), w')) :
    (∀ ks, look C w'.repo.log w'.heap (.ver v p :: ks) [] (.mem i) = look C w.repo.log w.heap ks t (.mem x)) ∧
      (∀ v' p' ks, (v', p') ≠ (v, p) → look C w'.repo.log w'.heap (.ver v' p' :: ks) [] (.mem i) =
        look C w.repo.log w.heap (.ver v' p' :: ks) [] (.mem i)) ∧
      (∀ j, j < w.next → ¬ Reach w.heap j i →
        SameContent C w.repo.log w.heap (.mem j) w'.repo.log w'.heap (.mem j)) ∧
      (∀ j, Reach w'.heap j i → ∀ n r, isSavedOn n w'.heap r j ≠ .ok true) ∧
      w'.repo.log = w.repo.log ∧ Fine C w' := by
  have hp := setVersioned_ok hs hi hk hx hxi h
  refine ⟨fun ks => hp.set (by simp) ks [], fun v' p' ks hne => hp.kept _ ?_ ks [], fun j hj hr => (hp.others j hj hr).1,
    hp.noticed, hp.log, hp.fine⟩
  intro e
  injection e with e1 e2
  exact hne (by rw [e1, e2])

/-- C32: setting an entry only fails when git fails, and then changes nothing. -/
theorem C32_set_fails {w : World} (hs : Fine C w) {i : ObjId} (hi : i < w.next) (v t : Str) (p : PPath) (x : ObjId) :
    (w.repo.faults = [] → ∃ w', setVersioned C i v t p x w = (.ok (), w')) ∧
      ∀ e w', setVersioned C i v t p x w = (.error e, w') → e = .runtime ∧
        ∀ j, j < w.next → SameContent C w.repo.log w.heap (.mem j) w'.repo.log w'.heap (.mem j) := by
  refine ⟨fun hf => ?_, fun e w' h => ?_⟩
  · obtain ⟨b, w1, h1, _⟩ := hs.loads hf i
    unfold setVersioned
    rw [M.bind_of_ok h1, M.bind_of_ok (getObj_run i w1), change_run]
    exact ⟨_, rfl⟩
  · obtain ⟨hl, he⟩ := setVersioned_any hs hi v t p x h
    exact ⟨he, hl.content⟩

theorem getVersioned_part (C : Cfg) (i : ObjId) (v : Str) (p : PPath) (w : World) :
    getVersioned C i v p w = (part C .key i (.ver v p) >>= fun e => pure (e.1, p, e.2)) w := by
  unfold getVersioned
  cases h1 : ensureMapped C i w with
  | mk r w1 =>
    cases r with
    | error e =>
      have hp : part C .key i (.ver v p) w = (.error e, w1) := M.bind_of_error h1
      rw [M.bind_of_error h1, M.bind_of_error hp]
    | ok b =>
      rw [M.bind_of_ok h1, M.bind_of_ok (getObj_run i w1)]
      cases hd : dget (w1.heap i).body.kids (.ver v p) with
      | none =>
        have hp : part C .key i (.ver v p) w = (.error .key, w1) := by
          unfold part
          rw [M.bind_of_ok h1, M.bind_of_ok (getObj_run i w1), hd]
          rfl
        rw [M.bind_of_error hp]
        rfl
      | some x =>
        simp only
        cases h3 : readIn C x.2 w1 with
        | mk r2 w2 =>
          have hp : part C .key i (.ver v p) w = (do readIn C x.2; pure x : W (Str × ObjId)) w1 := by
            unfold part
            rw [M.bind_of_ok h1, M.bind_of_ok (getObj_run i w1), hd]
          cases r2 with
          | error e => rw [M.bind_of_error h3, M.bind_of_error (hp.trans (M.bind_of_error h3))]
          | ok u =>
            rw [M.bind_of_ok h3]
            have hp' : part C .key i (.ver v p) w = (.ok x, w2) := hp.trans (M.bind_of_ok h3)
            rw [M.bind_of_ok hp']

theorem getVersioned_any {w : World} (hs : Fine C w) {i : ObjId} (hi : i < w.next) (v : Str) (p : PPath) :
    Loads C w (getVersioned C i v p w).2 := by
  rw [getVersioned_part]
  have := part_any hs .key hi (.ver v p)
  cases h : part C .key i (.ver v p) w with
  | mk r w' =>
    rw [h] at this
    cases r with
    | error e => rw [M.bind_of_error h]; exact this
    | ok x => rw [M.bind_of_ok h]; exact this

/-- C32: looking up an entry changes nothing.  What it returns is the time stamp and the
element of this version and path.  It fails with a `KeyError` if there is no such entry,
and otherwise only when git fails. -/
theorem C32_get {w : World} (hs : Fine C w) {i : ObjId} (hi : i < w.next) (v : Str) (p : PPath) :
    (∀ j, j < w.next → SameContent C w.repo.log w.heap (.mem j)
        (getVersioned C i v p w).2.repo.log (getVersioned C i v p w).2.heap (.mem j)) ∧
      (∀ t p' x, (getVersioned C i v p w).1 = .ok (t, p', x) → p' = p ∧
        ∀ ks, look C w.repo.log w.heap (.ver v p :: ks) [] (.mem i) =
          look C (getVersioned C i v p w).2.repo.log (getVersioned C i v p w).2.heap ks t (.mem x)) ∧
      (∀ e, (getVersioned C i v p w).1 = .error e → e = .runtime ∨
        (e = .key ∧ look C w.repo.log w.heap [.ver v p] [] (.mem i) = .absent)) ∧
      (w.repo.faults = [] → look C w.repo.log w.heap [.ver v p] [] (.mem i) ≠ .absent →
        ∃ y, (getVersioned C i v p w).1 = .ok y) := by
  have hany := getVersioned_any hs hi v p
  refine ⟨hany.content, ?_, ?_, ?_⟩
  · intro t p' x h
    have h' : getVersioned C i v p w = (.ok (t, p', x), (getVersioned C i v p w).2) := Prod.ext h rfl
    generalize (getVersioned C i v p w).2 = w' at h' hany
    rw [getVersioned_part] at h'
    obtain ⟨y, w1, h1, h2⟩ := M.bind_ok h'
    cases h2
    obtain ⟨_, hm, hd⟩ := part_ok hs hi h1
    refine ⟨rfl, fun ks => ?_⟩
    rw [hany.content i hi, look_part hm hd (by simp)]
  · intro e h
    have h' : getVersioned C i v p w = (.error e, (getVersioned C i v p w).2) := Prod.ext h rfl
    rw [getVersioned_part] at h'
    cases h1 : part C .key i (.ver v p) w with
    | mk r w1 =>
      cases r with
      | ok x => rw [M.bind_of_ok h1] at h'; cases h'
      | error e1 =>
        rw [M.bind_of_error h1] at h'
        cases h'
        rcases part_error hs hi h1 with h2 | ⟨h2, h3⟩
        · exact Or.inl h2
        · exact Or.inr ⟨h2, h3 []⟩
  · intro hf hne
    rcases part_total hs hf .key hi (.ver v p) with ⟨x, hx⟩ | ⟨_, h2⟩
    · rw [getVersioned_part, M.bind_of_ok (Prod.ext hx rfl)]
      exact ⟨_, rfl⟩
    · exact absurd (h2 []) hne

/-! #### Listings -/

theorem mem_verPaths {kids : List (Key × (Str × ObjId))} {v : Str} {p : PPath} :
    (v, p) ∈ (kids.filterMap fun e => e.1.verPath) ↔ ∃ x, (Key.ver v p, x) ∈ kids := by
  rw [List.mem_filterMap]
  constructor
  · rintro ⟨⟨k, x⟩, he, h⟩
    cases k <;> simp only [Key.verPath, reduceCtorEq, Option.some.injEq, Prod.mk.injEq] at h
    obtain ⟨rfl, rfl⟩ := h
    exact ⟨x, he⟩
  · rintro ⟨x, hx⟩
    exact ⟨_, hx, rfl⟩

theorem nodup_verPaths {kids : List (Key × (Str × ObjId))} (hn : (dkeys kids).Nodup) :
    (kids.filterMap fun e => e.1.verPath).Nodup := by
  induction kids with
  | nil => exact List.nodup_nil
  | cons e kids ih =>
    obtain ⟨k, x⟩ := e
    have hn' := List.nodup_cons.mp hn
    rw [List.filterMap_cons]
    cases k with
    | ver v p =>
      refine List.nodup_cons.mpr ⟨?_, ih hn'.2⟩
      intro hm
      obtain ⟨y, hy⟩ := mem_verPaths.mp hm
      exact hn'.1 (List.mem_map.mpr ⟨_, hy, rfl⟩)
    | _ => exact ih hn'.2

theorem look_entry {w : World} (hs : Fine C w) {i : ObjId} (hm : (w.heap i).mapped = true) {k : Key} (hk : k ≠ .ft) :
    look C w.repo.log w.heap [k] [] (.mem i) ≠ .absent ↔ ∃ x, (k, x) ∈ (w.heap i).body.kids := by
  constructor
  · intro h
    cases hd : dget (w.heap i).body.kids k with
    | some x => exact ⟨x, mem_of_dget hd⟩
    | none =>
      exact absurd (look_cons_none (view_mapped hm) (by rw [Body.dget_map, hd]; rfl)) h
  · rintro ⟨x, hx⟩
    have hd := dget_of_mem (hs.formed i hm).keys hx
    rw [look_part hm hd hk]
    obtain ⟨b, hb⟩ := view_ok_of_look (hs.all x.2 [] [])
    rw [look_nil _ hb]
    simp

/-- C32: the listing gives the version and path of every entry, each once, and changes
nothing. -/
theorem C32_list {w w' : World} (hs : Fine C w) {i : ObjId} (hi : i < w.next) {l : List (Str × PPath)}
    (h : versionsAndPaths C i w = (.ok l, w')) :
    l.Nodup ∧ (∀ v p, (v, p) ∈ l ↔ look C w.repo.log w.heap [.ver v p] [] (.mem i) ≠ .absent) ∧
      ∀ j, j < w.next → SameContent C w.repo.log w.heap (.mem j) w'.repo.log w'.heap (.mem j) := by
  unfold versionsAndPaths at h
  obtain ⟨b, w1, h1, h2⟩ := M.bind_ok h
  obtain ⟨hl, hm⟩ := hs.loaded hi h1
  rw [M.bind_of_ok (getObj_run i w1)] at h2
  cases h2
  refine ⟨nodup_verPaths (hl.fine.formed i hm).keys, fun v p => ?_, hl.content⟩
  rw [mem_verPaths, hl.content i hi, look_entry hl.fine hm (by simp)]

/-- C32: the elements that are listed are those of the entries. -/
theorem C32_elements {w w' : World} (hs : Fine C w) {i : ObjId} (hi : i < w.next)
    {l : List (Str × Str × PPath × ObjId)} (h : versionedElements C i w = (.ok l, w')) :
    (l.map fun e => (e.1, e.2.2.1)).Nodup ∧
      (∀ v p, (v, p) ∈ (l.map fun e => (e.1, e.2.2.1)) ↔
        look C w.repo.log w.heap [.ver v p] [] (.mem i) ≠ .absent) ∧
      (∀ v t p x, (v, t, p, x) ∈ l → ∀ ks, look C w.repo.log w.heap (.ver v p :: ks) [] (.mem i) =
        look C w'.repo.log w'.heap ks t (.mem x)) ∧
      ∀ j, j < w.next → SameContent C w.repo.log w.heap (.mem j) w'.repo.log w'.heap (.mem j) := by
  unfold versionedElements at h
  obtain ⟨b, w1, h1, h2⟩ := M.bind_ok h
  obtain ⟨hl, hm⟩ := hs.loaded hi h1
  rw [M.bind_of_ok (getObj_run i w1)] at h2
  cases h2
  have hmap : ∀ kids : List (Key × (Str × ObjId)),
      (kids.filterMap fun e => e.1.verPath.map fun x => (x.1, e.2.1, x.2, e.2.2)).map (fun e => (e.1, e.2.2.1)) =
        kids.filterMap fun e => e.1.verPath := by
    intro kids
    rw [List.map_filterMap]
    congr 1
    funext e
    cases e.1.verPath <;> rfl
  rw [hmap]
  refine ⟨nodup_verPaths (hl.fine.formed i hm).keys, fun v p => ?_, ?_, hl.content⟩
  · rw [mem_verPaths, hl.content i hi, look_entry hl.fine hm (by simp)]
  · intro v t p x hx ks
    obtain ⟨⟨k, t', c⟩, he, h⟩ := List.mem_filterMap.mp hx
    cases k <;> simp only [Key.verPath, Option.map_none, Option.map_some, reduceCtorEq, Option.some.injEq,
      Prod.mk.injEq] at h
    obtain ⟨rfl, rfl, rfl, rfl⟩ := h
    rw [hl.content i hi, look_part hm (dget_of_mem (hl.fine.formed i hm).keys he) (by simp)]

/-- C32: a version is listed if and only if it has an entry. -/
theorem C32_versions {w w' : World} (hs : Fine C w) {i : ObjId} (hi : i < w.next) {l : List Str}
    (h : versions C i w = (.ok l, w')) :
    (∀ v, v ∈ l ↔ ∃ p, look C w.repo.log w.heap [.ver v p] [] (.mem i) ≠ .absent) ∧
      ∀ j, j < w.next → SameContent C w.repo.log w.heap (.mem j) w'.repo.log w'.heap (.mem j) := by
  unfold versions at h
  obtain ⟨l0, w1, h1, h2⟩ := M.bind_ok h
  cases h2
  obtain ⟨_, g2, g3⟩ := C32_list hs hi h1
  refine ⟨fun v => ?_, g3⟩
  constructor
  · intro hv
    obtain ⟨⟨v', p⟩, he, rfl⟩ := List.mem_map.mp hv
    exact ⟨p, (g2 _ p).mp he⟩
  · rintro ⟨p, hp⟩
    exact List.mem_map.mpr ⟨(v, p), (g2 v p).mpr hp, rfl⟩

/-- C32: the versions are given in the order of the versions and paths, one for each entry: a
version occurs as often as there are paths with an entry for it. -/
theorem C32_versions_order {w w' w'' : World} {i : ObjId} {l : List Str} {l0 : List (Str × PPath)}
    (h : versions C i w = (.ok l, w')) (h0 : versionsAndPaths C i w = (.ok l0, w'')) :
    l.length = l0.length ∧ (∀ (n : Nat) v p, l0[n]? = some (v, p) → l[n]? = some v) ∧
      (∀ v, l.count v = (l0.filter fun e => e.1 = v).length) ∧ w' = w'' := by
  unfold versions at h
  obtain ⟨l1, w1, h1, h2⟩ := M.bind_ok h
  cases h2
  rw [h1] at h0
  cases h0
  refine ⟨by simp, fun n v p hn => by simp [hn], fun v => ?_, rfl⟩
  rw [List.count, List.countP_map, List.countP_eq_length_filter]
  congr 1
  refine List.filter_congr fun e _ => ?_
  by_cases q : e.1 = v <;> simp [q]

/-- Reading a list of objects -/
theorem readAll {α : Type} {f : α → ObjId} : ∀ {l : List α} {w : World}, Fine C w → (∀ a ∈ l, f a < w.next) →
    Loads C w (M.forEach (fun a => do readIn C (f a); pure a) l w).2 ∧
      ((M.forEach (fun a => do readIn C (f a); pure a) l w).1 = .ok l ∨
        (M.forEach (fun a => do readIn C (f a); pure a) l w).1 = .error .runtime) ∧
      (w.repo.faults = [] → (M.forEach (fun a => do readIn C (f a); pure a) l w).1 = .ok l) := by
  intro l
  induction l with
  | nil => intro w hs _; exact ⟨Loads.refl hs, Or.inl rfl, fun _ => rfl⟩
  | cons a l ih =>
    intro w hs hl
    have hr := hs.readStep (hl a (List.mem_cons_self ..))
    cases h : readIn C (f a) w with
    | mk r w1 =>
      rw [h] at hr
      cases r with
      | error e =>
        have he := hs.readError h
        subst he
        have : M.forEach (fun a => do readIn C (f a); pure a) (a :: l) w = (.error .runtime, w1) := by
          rw [M.forEach_cons]
          exact M.bind_of_error (M.bind_of_error h)
        rw [this]
        refine ⟨hr, Or.inr rfl, fun hf => ?_⟩
        obtain ⟨w2, h2, _⟩ := hs.readTotal hf (f a)
        rw [h] at h2; cases h2
      | ok u =>
        have h1 : (do readIn C (f a); pure a : W α) w = (.ok a, w1) := by
          rw [M.bind_of_ok h]; rfl
        obtain ⟨i1, i2, i3⟩ := ih hr.fine (fun b hb => Nat.lt_of_lt_of_le (hl b (List.mem_cons_of_mem _ hb)) hr.next)
        rw [M.forEach_cons, M.bind_of_ok h1]
        cases h2 : M.forEach (fun a => do readIn C (f a); pure a) l w1 with
        | mk r2 w2 =>
          rw [h2] at i1 i2 i3
          cases r2 with
          | error e =>
            rw [M.bind_of_error h2]
            refine ⟨hr.trans i1, Or.inr ?_, fun hf => ?_⟩
            · rcases i2 with i2 | i2 <;> cases i2
              rfl
            · obtain ⟨w3, h3, hrep⟩ := hs.readTotal hf (f a)
              rw [h] at h3; cases h3
              have := i3 (by rw [hrep]; exact hf)
              cases this
          | ok bs =>
            rw [M.bind_of_ok h2]
            have hbs : bs = l := by
              rcases i2 with i2 | i2 <;> cases i2
              rfl
            subst hbs
            exact ⟨hr.trans i1, Or.inl rfl, fun _ => rfl⟩

theorem mem_verAll {kids : List (Key × (Str × ObjId))} {v : Str} {y : Str × PPath × ObjId} :
    y ∈ (kids.filterMap fun e => match e.1 with
      | .ver v' p => if v' = v then some (e.2.1, p, e.2.2) else none
      | _ => none) ↔ (Key.ver v y.2.1, (y.1, y.2.2)) ∈ kids := by
  rw [List.mem_filterMap]
  constructor
  · rintro ⟨⟨k, x⟩, he, h⟩
    cases k with
    | ver v' p =>
      simp only at h
      by_cases hv : v' = v
      · rw [if_pos hv] at h; cases h; subst hv; exact he
      · rw [if_neg hv] at h; cases h
    | _ => cases h
  · intro h
    exact ⟨_, h, by simp only [if_true]⟩

theorem nodup_verAll {kids : List (Key × (Str × ObjId))} {v : Str} (hn : (dkeys kids).Nodup) :
    ((kids.filterMap fun e => match e.1 with
      | .ver v' p => if v' = v then some (e.2.1, p, e.2.2) else none
      | _ => none).map fun y => y.2.1).Nodup := by
  induction kids with
  | nil => exact List.nodup_nil
  | cons e kids ih =>
    obtain ⟨k, x⟩ := e
    have hn' := List.nodup_cons.mp hn
    rw [List.filterMap_cons]
    cases k with
    | ver v' p =>
      simp only
      by_cases hv : v' = v
      · rw [if_pos hv]
        refine List.nodup_cons.mpr ⟨?_, ih hn'.2⟩
        intro hm
        obtain ⟨y, hy, he⟩ := List.mem_map.mp hm
        have := mem_verAll.mp hy
        simp only at he
        rw [he, ← hv] at this
        exact hn'.1 (List.mem_map.mpr ⟨_, this, rfl⟩)
      · rw [if_neg hv]; exact ih hn'.2
    | _ => exact ih hn'.2

/-- C32: all entries of a version: each path once, with the time stamp and the element of the entry.
The call changes nothing.  It fails with a `KeyError` if the version has no entry, and otherwise
only when git fails. -/
theorem C32_all {w : World} (hs : Fine C w) {i : ObjId} (hi : i < w.next) (v : Str) :
    (∀ j, j < w.next → SameContent C w.repo.log w.heap (.mem j)
        (getVersionedAll C i v w).2.repo.log (getVersionedAll C i v w).2.heap (.mem j)) ∧
      (∀ l, (getVersionedAll C i v w).1 = .ok l →
        (l.map fun y => y.2.1).Nodup ∧
        (∀ p, p ∈ (l.map fun y => y.2.1) ↔ look C w.repo.log w.heap [.ver v p] [] (.mem i) ≠ .absent) ∧
        ∀ t p x, (t, p, x) ∈ l → ∀ ks, look C w.repo.log w.heap (.ver v p :: ks) [] (.mem i) =
          look C (getVersionedAll C i v w).2.repo.log (getVersionedAll C i v w).2.heap ks t (.mem x)) ∧
      (∀ e, (getVersionedAll C i v w).1 = .error e → e = .runtime ∨
        (e = .key ∧ ∀ p, look C w.repo.log w.heap [.ver v p] [] (.mem i) = .absent)) ∧
      (w.repo.faults = [] → (∃ p, look C w.repo.log w.heap [.ver v p] [] (.mem i) ≠ .absent) →
        ∃ l, (getVersionedAll C i v w).1 = .ok l) := by
  have hst := hs.loadsStep hi
  cases h1 : ensureMapped C i w with
  | mk r w1 =>
    rw [h1] at hst
    cases r with
    | error e =>
      have : getVersionedAll C i v w = (.error e, w1) := M.bind_of_error h1
      rw [this]
      refine ⟨hst.content, (fun l h => by cases h), fun e' h => ?_, fun hf => ?_⟩
      · cases h; exact Or.inl (hs.loadError h1)
      · obtain ⟨b, w2, h2, _⟩ := hs.loads hf i
        rw [h1] at h2; cases h2
    | ok b =>
      obtain ⟨hl, hm⟩ := hs.loaded hi h1
      have hent : ∀ p, look C w.repo.log w.heap [.ver v p] [] (.mem i) ≠ .absent ↔
          ∃ x, (Key.ver v p, x) ∈ (w1.heap i).body.kids := fun p => by
        rw [hl.content i hi, look_entry hl.fine hm (by simp)]
      let es := (w1.heap i).body.kids.filterMap fun e => match e.1 with
        | .ver v' p => if v' = v then some (e.2.1, p, e.2.2) else none
        | _ => none
      by_cases he : es = []
      · have : getVersionedAll C i v w = (.error .key, w1) := by
          unfold getVersionedAll
          rw [M.bind_of_ok h1, M.bind_of_ok (getObj_run i w1)]
          exact congrFun (if_pos he) w1
        rw [this]
        have hno : ∀ p, look C w.repo.log w.heap [.ver v p] [] (.mem i) = .absent := by
          intro p
          cases hx : look C w.repo.log w.heap [.ver v p] [] (.mem i) with
          | absent => rfl
          | _ =>
            exfalso
            obtain ⟨x, hx'⟩ := (hent p).mp (by rw [hx]; simp)
            have hmem : (x.1, p, x.2) ∈ es := mem_verAll.mpr hx'
            rw [he] at hmem
            cases hmem
        refine ⟨hst.content, (fun l h => by cases h), fun e' h => ?_, fun _ ⟨p, hp⟩ => absurd (hno p) hp⟩
        cases h; exact Or.inr ⟨rfl, hno⟩
      · have hrun : getVersionedAll C i v w =
            M.forEach (fun e : Str × PPath × ObjId => do readIn C e.2.2; pure e) es w1 := by
          unfold getVersionedAll
          rw [M.bind_of_ok h1, M.bind_of_ok (getObj_run i w1)]
          exact congrFun (if_neg he) w1
        obtain ⟨a1, a2, a3⟩ := readAll (f := fun e : Str × PPath × ObjId => e.2.2) (l := es) hl.fine
          (fun e hx => hl.fine.kids i hm _ (List.mem_map.mpr ⟨_, mem_verAll.mp hx, rfl⟩))
        rw [← hrun] at a1 a2 a3
        have hlast := hl.trans a1
        refine ⟨hlast.content, ?_, ?_, ?_⟩
        · intro l h
          rcases a2 with a2 | a2
          · rw [h] at a2; cases a2
            refine ⟨nodup_verAll (hl.fine.formed i hm).keys, fun p => ?_, ?_⟩
            · rw [hent p, List.mem_map]
              constructor
              · rintro ⟨y, hy, rfl⟩; exact ⟨_, mem_verAll.mp hy⟩
              · rintro ⟨x, hx⟩; exact ⟨(x.1, p, x.2), mem_verAll.mpr hx, rfl⟩
            · intro t p x hx ks
              have hk := mem_verAll.mp hx
              have hxl : x < w1.next := hl.fine.kids i hm _ (List.mem_map.mpr ⟨_, hk, rfl⟩)
              rw [hl.content i hi, look_part hm (dget_of_mem (hl.fine.formed i hm).keys hk) (by simp)]
              exact a1.content x hxl ks t
          · rw [h] at a2; cases a2
        · intro e h
          rcases a2 with a2 | a2
          · rw [h] at a2; cases a2
          · rw [h] at a2; cases a2; exact Or.inl rfl
        · intro hf _
          obtain ⟨b2, w2, h2, hrep⟩ := hs.loads hf i
          rw [h1] at h2; cases h2
          exact ⟨_, a3 (by rw [hrep]; exact hf)⟩

/-! #### Any sequence of calls -/

/-- What calls of the methods of a version list do to a dictionary of new entries: a
successful `set_versioned_element` sets an entry, all other calls do nothing. -/
inductive ListCalls (C : Cfg) (i : ObjId) (w0 : World) : World → (Str → PPath → Option (Str × ObjId)) → Prop
  | start : ListCalls C i w0 w0 (fun _ _ => none)
  | set (w w' : World) (d : Str → PPath → Option (Str × ObjId)) (v t : Str) (p : PPath) (x : ObjId) :
      ListCalls C i w0 w d → x < w0.next → ¬ Reach w0.heap x i → setVersioned C i v t p x w = (.ok (), w') →
      ListCalls C i w0 w' (fun v' p' => if v' = v ∧ p' = p then some (t, x) else d v' p')
  | setFailed (w w' : World) (d : Str → PPath → Option (Str × ObjId)) (v t : Str) (p : PPath) (x : ObjId) (e : PyErr) :
      ListCalls C i w0 w d → setVersioned C i v t p x w = (.error e, w') → ListCalls C i w0 w' d
  | get (w w' : World) (d : Str → PPath → Option (Str × ObjId)) (v : Str) (p : PPath)
      (r : Except PyErr (Str × PPath × ObjId)) :
      ListCalls C i w0 w d → getVersioned C i v p w = (r, w') → ListCalls C i w0 w' d
  | list (w w' : World) (d : Str → PPath → Option (Str × ObjId)) (r : Except PyErr (List (Str × PPath))) :
      ListCalls C i w0 w d → versionsAndPaths C i w = (r, w') → ListCalls C i w0 w' d
  | load (w w' : World) (d : Str → PPath → Option (Str × ObjId)) (j : ObjId) (r : Except PyErr Bool) :
      ListCalls C i w0 w d → j < w.next → ensureMapped C j w = (r, w') → ListCalls C i w0 w' d

/-- What holds during calls on a version list -/
structure ListInv (C : Cfg) (i : ObjId) (w0 w : World) (d : Str → PPath → Option (Str × ObjId)) : Prop where
  fine : Fine C w
  next : w0.next ≤ w.next
  kind : IsList w i
  apart : ∀ x, x < w0.next → ¬ Reach w0.heap x i → ¬ Reach w.heap x i ∧
    SameContent C w0.repo.log w0.heap (.mem x) w.repo.log w.heap (.mem x)
  entry : ∀ v p t x, d v p = some (t, x) → ∀ ks,
    look C w.repo.log w.heap (.ver v p :: ks) [] (.mem i) = look C w0.repo.log w0.heap ks t (.mem x)
  rest : ∀ v p, d v p = none → ∀ ks, look C w.repo.log w.heap (.ver v p :: ks) [] (.mem i) =
    look C w0.repo.log w0.heap (.ver v p :: ks) [] (.mem i)

theorem ListInv.loads {i : ObjId} {w0 w w' : World} {d : Str → PPath → Option (Str × ObjId)}
    (h : ListInv C i w0 w d) (hi : i < w0.next) (hl : Loads C w w') : ListInv C i w0 w' d := by
  have hi' := Nat.lt_of_lt_of_le hi h.next
  refine ⟨hl.fine, Nat.le_trans h.next hl.next, ?_, ?_, ?_, ?_⟩
  · unfold IsList; rw [hl.kind i hi']; exact h.kind
  · intro x hx hr
    have hx' := Nat.lt_of_lt_of_le hx h.next
    obtain ⟨h1, h2⟩ := h.apart x hx hr
    exact ⟨hl.unreach hx' hi' h1, fun ks t => (h2 ks t).trans (hl.content x hx' ks t)⟩
  · intro v p t x hd ks
    rw [← hl.content i hi', h.entry v p t x hd]
  · intro v p hd ks
    rw [← hl.content i hi', h.rest v p hd]

theorem versionsAndPaths_any {w : World} (hs : Fine C w) {i : ObjId} (hi : i < w.next) :
    Loads C w (versionsAndPaths C i w).2 := by
  unfold versionsAndPaths
  have hst := hs.loadsStep hi
  cases h1 : ensureMapped C i w with
  | mk r w1 =>
    rw [h1] at hst
    cases r with
    | error e1 => rw [M.bind_of_error h1]; exact hst
    | ok b => rw [M.bind_of_ok h1, M.bind_of_ok (getObj_run i w1)]; exact hst

theorem ListInv.of_calls {i : ObjId} {w0 w : World} {d : Str → PPath → Option (Str × ObjId)} (hs : Fine C w0)
    (hi : i < w0.next) (hk : IsList w0 i) (h : ListCalls C i w0 w d) : ListInv C i w0 w d := by
  induction h with
  | start =>
    exact ⟨hs, Nat.le_refl _, hk, fun x _ hr => ⟨hr, SameContent.refl _ _ _ _⟩, (fun v p t x h => by cases h),
      fun v p _ ks => rfl⟩
  | set w w' d v t p x _ hx hxi h ih =>
    have hi' := Nat.lt_of_lt_of_le hi ih.next
    obtain ⟨a1, a2⟩ := ih.apart x hx hxi
    have hp := setVersioned_ok ih.fine hi' ih.kind (Nat.lt_of_lt_of_le hx ih.next) a1 h
    refine ⟨hp.fine, Nat.le_trans ih.next hp.next, ?_, ?_, ?_, ?_⟩
    · unfold IsList; rw [hp.kind i hi']; exact ih.kind
    · intro y hy hyi
      obtain ⟨b1, b2⟩ := ih.apart y hy hyi
      obtain ⟨c1, c2⟩ := hp.others y (Nat.lt_of_lt_of_le hy ih.next) b1
      exact ⟨c2 i hi' b1, fun ks t => (b2 ks t).trans (c1 ks t)⟩
    · intro v' p' t' x' hd ks
      split at hd
      · rename_i he
        obtain ⟨rfl, rfl⟩ := he
        cases hd
        rw [hp.set (by simp)]
        exact (a2 ks t).symm
      · rename_i he
        rw [hp.kept _ (fun e => he (by injection e with e1 e2; exact ⟨e1, e2⟩))]
        exact ih.entry v' p' t' x' hd ks
    · intro v' p' hd ks
      split at hd
      · cases hd
      · rename_i he
        rw [hp.kept _ (fun e => he (by injection e with e1 e2; exact ⟨e1, e2⟩))]
        exact ih.rest v' p' hd ks
  | setFailed w w' d v t p x e _ h ih =>
    exact ih.loads hi (setVersioned_any ih.fine (Nat.lt_of_lt_of_le hi ih.next) v t p x h).1
  | get w w' d v p r _ h ih =>
    have := getVersioned_any ih.fine (Nat.lt_of_lt_of_le hi ih.next) v p
    rw [h] at this
    exact ih.loads hi this
  | list w w' d r _ h ih =>
    have := versionsAndPaths_any ih.fine (Nat.lt_of_lt_of_le hi ih.next)
    rw [h] at this
    exact ih.loads hi this
  | load w w' d j r _ hj h ih =>
    have := ih.fine.loadsStep hj
    rw [h] at this
    exact ih.loads hi this

/-- C32 for any sequence of calls: a version list that is new or was stored, loaded or
not, answers after any number of calls, successful or not, as a dictionary: entries that
were set have the last time stamp and element, all others are as in the beginning, and
no others are listed. -/
theorem C32_dictionary {i : ObjId} {w0 w : World} {d : Str → PPath → Option (Str × ObjId)} (hs : Fine C w0)
    (hi : i < w0.next) (hk : IsList w0 i) (h : ListCalls C i w0 w d) :
    (∀ v p t x, d v p = some (t, x) → ∀ ks,
      look C w.repo.log w.heap (.ver v p :: ks) [] (.mem i) = look C w0.repo.log w0.heap ks t (.mem x)) ∧
    (∀ v p, d v p = none → ∀ ks, look C w.repo.log w.heap (.ver v p :: ks) [] (.mem i) =
      look C w0.repo.log w0.heap (.ver v p :: ks) [] (.mem i)) ∧
    ∀ l w', versionsAndPaths C i w = (.ok l, w') → l.Nodup ∧ ∀ v p, (v, p) ∈ l ↔
      (d v p ≠ none ∨ look C w0.repo.log w0.heap [.ver v p] [] (.mem i) ≠ .absent) := by
  have hinv := ListInv.of_calls hs hi hk h
  refine ⟨hinv.entry, hinv.rest, fun l w' hl => ?_⟩
  obtain ⟨h1, h2, _⟩ := C32_list hinv.fine (Nat.lt_of_lt_of_le hi hinv.next) hl
  refine ⟨h1, fun v p => ?_⟩
  rw [h2]
  cases hd : d v p with
  | none => rw [hinv.rest v p hd]; simp
  | some y =>
    obtain ⟨t, x⟩ := y
    rw [hinv.entry v p t x hd]
    obtain ⟨b, hb⟩ := view_ok_of_look (hs.all x [] [])
    rw [look_nil _ hb]
    simp

/-! ### C34 -/

theorem setVersionList_run (i : ObjId) (u : Uuid) (x : ObjId) (w : World) :
    setVersionList i u x w = (.ok (), MM.edit i ⟨(w.heap i).body.data, dset (w.heap i).body.kids (.uuid u) ([], x)⟩ w) := by
  unfold setVersionList
  rw [M.bind_of_ok (touch_run i w), updObj_run]
  have : (MM.edit i (w.heap i).body w).heap.set i { (MM.edit i (w.heap i).body w).heap i with
      body := ⟨((MM.edit i (w.heap i).body w).heap i).body.data,
        dset ((MM.edit i (w.heap i).body w).heap i).body.kids (.uuid u) ([], x)⟩ } =
      (MM.edit i ⟨(w.heap i).body.data, dset (w.heap i).body.kids (.uuid u) ([], x)⟩ w).heap := by
    funext j
    by_cases hj : j = i
    · subst hj; rw [Heap.set_self, edit_self, edit_self]
    · rw [Heap.set_ne hj, edit_ne _ _ hj, edit_ne _ _ hj]
  rw [this]
  rfl

/-- C34: setting the version list of a dataset id in a loaded UUID set always succeeds,
makes exactly this id return the version list, and keeps the other ids, everything that
is stored, and all objects that do not contain the set.  The set has to be loaded, see
`C34_false`. -/
theorem C34_set_partial {w : World} (hs : Fine C w) {i x : ObjId} (hi : i < w.next)
    (hk : (w.heap i).kind = .uuidset) (hm : (w.heap i).mapped = true) (hx : x < w.next)
    (hxi : ¬ Reach w.heap x i) (u : Uuid) :
    ∃ w', setVersionList i u x w = (.ok (), w') ∧
      (∀ ks, look C w'.repo.log w'.heap (.uuid u :: ks) [] (.mem i) = look C w.repo.log w.heap ks [] (.mem x)) ∧
      (∀ u' ks, u' ≠ u → look C w'.repo.log w'.heap (.uuid u' :: ks) [] (.mem i) =
        look C w.repo.log w.heap (.uuid u' :: ks) [] (.mem i)) ∧
      (∀ j, j < w.next → ¬ Reach w.heap j i →
        SameContent C w.repo.log w.heap (.mem j) w'.repo.log w'.heap (.mem j)) ∧
      (∀ j, Reach w'.heap j i → ∀ n r, isSavedOn n w'.heap r j ≠ .ok true) ∧
      w'.repo.log = w.repo.log ∧ Fine C w' := by
  have hform := hs.formed i hm
  have hkk : (w.heap i).body.data.kind = .uuidset := hk
  have hf : Formed (⟨(w.heap i).body.data, dset (w.heap i).body.kids (.uuid u) ([], x)⟩ : Body ObjId) := by
    refine ⟨nodup_dset hform.keys _ _, fun e he => ?_, fun _ => ?_⟩
    · rcases mem_dset he with rfl | he
      · show Key.fits (w.heap i).body.data.kind _ = true
        rw [hkk]; rfl
      · exact hform.fits e he
    · intro e he
      rcases mem_dset he with rfl | he
      · rfl
      · exact hform.stamps (by rw [hkk]; rfl) e he
  have hp := PartSet.of_edit (k := .uuid u) (t := []) (b := ⟨(w.heap i).body.data, dset (w.heap i).body.kids (.uuid u) ([], x)⟩) (Loads.refl hs) hi hm hx hxi rfl hf
    (by simp) (fun k' hk' => dget_dset_ne _ _ fun e => hk' e.symm) (by unfold Body.blank; simp only [hkk]; rfl)
  refine ⟨_, setVersionList_run i u x w, fun ks => hp.set (by simp) ks [], fun u' ks hne => hp.kept _ ?_ ks [],
    fun j hj hr => (hp.others j hj hr).1, hp.noticed, hp.log, hp.fine⟩
  intro e
  injection e with e
  exact hne e

theorem getVersionList_part (C : Cfg) (i : ObjId) (u : Uuid) (w : World) :
    getVersionList C i u w = (part C .key i (.uuid u) >>= fun e => pure e.2) w := by
  unfold getVersionList
  cases h1 : ensureMapped C i w with
  | mk r w1 =>
    cases r with
    | error e =>
      have hp : part C .key i (.uuid u) w = (.error e, w1) := M.bind_of_error h1
      rw [M.bind_of_error h1, M.bind_of_error hp]
    | ok b =>
      rw [M.bind_of_ok h1, M.bind_of_ok (getObj_run i w1)]
      cases hd : dget (w1.heap i).body.kids (.uuid u) with
      | none =>
        have hp : part C .key i (.uuid u) w = (.error .key, w1) := by
          unfold part
          rw [M.bind_of_ok h1, M.bind_of_ok (getObj_run i w1), hd]
          rfl
        rw [M.bind_of_error hp]
        rfl
      | some x =>
        simp only
        cases h3 : readIn C x.2 w1 with
        | mk r2 w2 =>
          have hp : part C .key i (.uuid u) w = (do readIn C x.2; pure x : W (Str × ObjId)) w1 := by
            unfold part
            rw [M.bind_of_ok h1, M.bind_of_ok (getObj_run i w1), hd]
          cases r2 with
          | error e => rw [M.bind_of_error h3, M.bind_of_error (hp.trans (M.bind_of_error h3))]
          | ok u =>
            rw [M.bind_of_ok h3]
            have hp' := hp.trans (M.bind_of_ok h3)
            rw [M.bind_of_ok (show _ = (Except.ok x, w2) from hp')]

/-- C34: looking up a dataset id changes nothing and returns the version list of this id;
it fails with a `KeyError` if there is none, and otherwise only when git fails. -/
theorem C34_get {w : World} (hs : Fine C w) {i : ObjId} (hi : i < w.next) (u : Uuid) :
    (∀ j, j < w.next → SameContent C w.repo.log w.heap (.mem j)
        (getVersionList C i u w).2.repo.log (getVersionList C i u w).2.heap (.mem j)) ∧
      (∀ x, (getVersionList C i u w).1 = .ok x →
        ∃ t, ∀ ks, look C w.repo.log w.heap (.uuid u :: ks) [] (.mem i) =
          look C (getVersionList C i u w).2.repo.log (getVersionList C i u w).2.heap ks t (.mem x)) ∧
      (∀ e, (getVersionList C i u w).1 = .error e → e = .runtime ∨
        (e = .key ∧ look C w.repo.log w.heap [.uuid u] [] (.mem i) = .absent)) ∧
      (w.repo.faults = [] → look C w.repo.log w.heap [.uuid u] [] (.mem i) ≠ .absent →
        ∃ y, (getVersionList C i u w).1 = .ok y) := by
  have hany : Loads C w (getVersionList C i u w).2 := by
    rw [getVersionList_part]
    have := part_any hs .key hi (.uuid u)
    cases h : part C .key i (.uuid u) w with
    | mk r w' =>
      rw [h] at this
      cases r with
      | error e => rw [M.bind_of_error h]; exact this
      | ok x => rw [M.bind_of_ok h]; exact this
  refine ⟨hany.content, ?_, ?_, ?_⟩
  · intro x h
    have h' : getVersionList C i u w = (.ok x, (getVersionList C i u w).2) := Prod.ext h rfl
    generalize (getVersionList C i u w).2 = w' at h' hany
    rw [getVersionList_part] at h'
    obtain ⟨y, w1, h1, h2⟩ := M.bind_ok h'
    cases h2
    obtain ⟨_, hm, hd⟩ := part_ok hs hi h1
    refine ⟨y.1, fun ks => ?_⟩
    rw [hany.content i hi, look_part hm hd (by simp)]
  · intro e h
    have h' : getVersionList C i u w = (.error e, (getVersionList C i u w).2) := Prod.ext h rfl
    rw [getVersionList_part] at h'
    cases h1 : part C .key i (.uuid u) w with
    | mk r w1 =>
      cases r with
      | ok x => rw [M.bind_of_ok h1] at h'; cases h'
      | error e1 =>
        rw [M.bind_of_error h1] at h'
        cases h'
        rcases part_error hs hi h1 with h2 | ⟨h2, h3⟩
        · exact Or.inl h2
        · exact Or.inr ⟨h2, h3 []⟩
  · intro hf hne
    rcases part_total hs hf .key hi (.uuid u) with ⟨x, hx⟩ | ⟨_, h2⟩
    · rw [getVersionList_part, M.bind_of_ok (Prod.ext hx rfl)]
      exact ⟨_, rfl⟩
    · exact absurd (h2 []) hne

/-- C34 does not hold: after a version list was set in a UUID set that is not loaded,
looking up any dataset id fails, also the one that was just set and those that are
stored. -/
theorem C34_false {w w' : World} {i x : ObjId} (hm : (w.heap i).mapped = false)
    {u : Uuid} (h : setVersionList i u x w = (.ok (), w')) (u' : Uuid) :
    ∃ e w'', getVersionList C i u' w' = (.error e, w'') := by
  rw [setVersionList_run] at h
  cases h
  have hm' : ((MM.edit i ⟨(w.heap i).body.data, dset (w.heap i).body.kids (.uuid u) ([], x)⟩ w).heap i).mapped = false := by
    rw [edit_self]; exact hm
  have hsv : ((MM.edit i ⟨(w.heap i).body.data, dset (w.heap i).body.kids (.uuid u) ([], x)⟩ w).heap i).savedOn = [] := by
    rw [edit_self]
  generalize MM.edit i ⟨(w.heap i).body.data, dset (w.heap i).body.kids (.uuid u) ([], x)⟩ w = w1 at hm' hsv
  have hc := ensureMapped_cases C i w1 hm'
  rw [getVersionList_part]
  cases hx : ensureMapped C i w1 with
  | mk r w2 =>
    rw [hx] at hc
    simp only at hc
    cases r with
    | error e =>
      have hp : part C .key i (.uuid u') w1 = (.error e, w2) := M.bind_of_error hx
      rw [M.bind_of_error hp]
      exact ⟨e, w2, rfl⟩
    | ok b =>
      cases hc with
      | none r ref h1 h2 h3 h4 h5 h6 h7 h8 =>
        have hp : part C .key i (.uuid u') w1 = (.error .key, w2) := by
          unfold part
          rw [M.bind_of_ok hx, M.bind_of_ok (getObj_run i w2), h8, Heap.set_self]
          rfl
        rw [M.bind_of_error hp]
        exact ⟨.key, w2, rfl⟩
      | read r ref loc b is so h1 h2 h3 h4 h5 => rw [hsv] at h5; cases h5

/-- C34: the listing gives the dataset ids of the set, each once, and changes nothing. -/
theorem C34_list {w w' : World} (hs : Fine C w) {i : ObjId} (hi : i < w.next) {l : List Uuid}
    (h : uuids C i w = (.ok l, w')) :
    l.Nodup ∧ (∀ u, u ∈ l ↔ look C w.repo.log w.heap [.uuid u] [] (.mem i) ≠ .absent) ∧
      ∀ j, j < w.next → SameContent C w.repo.log w.heap (.mem j) w'.repo.log w'.heap (.mem j) := by
  unfold uuids at h
  obtain ⟨b, w1, h1, h2⟩ := M.bind_ok h
  obtain ⟨hl, hm⟩ := hs.loaded hi h1
  rw [M.bind_of_ok (getObj_run i w1)] at h2
  cases h2
  have hmem : ∀ (kids : List (Key × (Str × ObjId))) (u : Uuid), u ∈ (kids.filterMap fun e => match e.1 with
      | .uuid u => some u
      | _ => none) ↔ ∃ x, (Key.uuid u, x) ∈ kids := by
    intro kids u
    rw [List.mem_filterMap]
    constructor
    · rintro ⟨⟨k, x⟩, he, h⟩
      cases k <;> simp only [reduceCtorEq, Option.some.injEq] at h
      subst h
      exact ⟨x, he⟩
    · rintro ⟨x, hx⟩
      exact ⟨_, hx, rfl⟩
  refine ⟨?_, fun u => ?_, hl.content⟩
  · have := (hl.fine.formed i hm).keys
    generalize (w'.heap i).body.kids = kids at this
    induction kids with
    | nil => exact List.nodup_nil
    | cons e kids ih =>
      obtain ⟨k, x⟩ := e
      have hn' := List.nodup_cons.mp this
      rw [List.filterMap_cons]
      cases k with
      | uuid u =>
        refine List.nodup_cons.mpr ⟨?_, ih hn'.2⟩
        intro hmm
        obtain ⟨y, hy⟩ := (hmem _ _).mp hmm
        exact hn'.1 (List.mem_map.mpr ⟨_, hy, rfl⟩)
      | _ => exact ih hn'.2
  · refine (hmem _ u).trans ?_
    rw [hl.content i hi, look_entry hl.fine hm (by simp)]

/-! ### C56 -/

/-- Setting a part of a root record -/
theorem mrrSet_part {w w1 : World} (hl : Loads C w w1) {i x : ObjId} (hi : i < w.next) (hk : (w.heap i).kind = .mrr)
    (hm : (w1.heap i).mapped = true) (hx : x < w.next) (hxi : ¬ Reach w.heap x i) {k : Key} (hkey : k = .dlm ∨ k = .ft) :
    PartSet C i k [] x w (MM.edit i ⟨(w1.heap i).body.data, mrrSet (w1.heap i).body.kids k x⟩ w1) := by
  have hform := hl.fine.formed i hm
  have hkk : (w1.heap i).body.data.kind = .mrr := by
    have := hl.kind i hi
    unfold Obj.kind at this
    rw [this]; exact hk
  have hst : ∀ k' y, dget (w1.heap i).body.kids k' = some y → y.1 = [] := fun k' y hy =>
    hform.stamps (by rw [hkk]; rfl) _ (mem_of_dget hy)
  have hback : ∀ k' : Key, ((dget (w1.heap i).body.kids k').map Prod.snd).map (fun d => (([] : Str), d)) =
      dget (w1.heap i).body.kids k' := by
    intro k'
    cases hd : dget (w1.heap i).body.kids k' with
    | none => rfl
    | some y =>
      have := hst k' y hd
      obtain ⟨t, c⟩ := y
      simp only at this
      rw [this]; rfl
  have hnone : ∀ {k' : Key}, k' ≠ .dlm → k' ≠ .ft → dget (w1.heap i).body.kids k' = none := by
    intro k' h1 h2
    cases hd : dget (w1.heap i).body.kids k' with
    | none => rfl
    | some y =>
      have := hform.fits _ (mem_of_dget hd)
      rw [hkk] at this
      cases k' <;> first | exact absurd rfl h1 | exact absurd rfl h2 | cases this
  have hnone' : ∀ {k' : Key} {d f : Option ObjId}, k' ≠ .dlm → k' ≠ .ft → dget (mrrKids d f) k' = none := by
    intro k' d f h1 h2
    cases hd : dget (mrrKids d f) k' with
    | none => rfl
    | some y =>
      rcases (mem_mrrKids (mem_of_dget hd)).1 with h | h
      · exact absurd h h1
      · exact absurd h h2
  refine PartSet.of_edit hl hi hm hx hxi rfl ⟨nodup_mrrKids _ _, fun e he => ?_, fun _ e he => (mem_mrrKids he).2⟩ ?_ ?_ ?_
  · show Key.fits (w1.heap i).body.data.kind e.1 = true
    rw [hkk]
    rcases (mem_mrrKids he).1 with h | h <;> rw [h] <;> rfl
  · simp only [mrrSet]
    rcases hkey with rfl | rfl
    · rw [dget_mrrKids_dlm, if_pos rfl]; rfl
    · rw [dget_mrrKids_ft, if_pos rfl]; rfl
  · intro k' hk'
    simp only [mrrSet]
    by_cases h1 : k' = .dlm
    · subst h1
      rw [dget_mrrKids_dlm, if_neg (fun e => hk' e.symm), hback]
    · by_cases h2 : k' = .ft
      · subst h2
        rw [dget_mrrKids_ft, if_neg (fun e => hk' e.symm), hback]
      · rw [hnone h1 h2, hnone' h1 h2]
  · unfold Body.blank
    simp only [hkk]
    rfl

/-- C56: after the dataset-level metadata of a root record, loaded or not, was set, the
record holds it; its file tree, id and version, everything that is stored, and all
objects that do not contain the record are as before. -/
theorem C56_set_metadata {w w' : World} (hs : Fine C w) {i x : ObjId} (hi : i < w.next)
    (hk : (w.heap i).kind = .mrr) (hx : x < w.next) (hxi : ¬ Reach w.heap x i)
    (h : setDlm C i x w = (.ok (), w')) :
    (∀ ks, look C w'.repo.log w'.heap (.dlm :: ks) [] (.mem i) = look C w.repo.log w.heap ks [] (.mem x)) ∧
      (∀ ks, look C w'.repo.log w'.heap (.ft :: ks) [] (.mem i) = look C w.repo.log w.heap (.ft :: ks) [] (.mem i)) ∧
      look C w'.repo.log w'.heap [] [] (.mem i) = look C w.repo.log w.heap [] [] (.mem i) ∧
      (∃ w'', getDlm C i w' = (.ok x, w'') ∨ getDlm C i w' = (.error .runtime, w'')) ∧
      (∀ j, j < w.next → ¬ Reach w.heap j i →
        SameContent C w.repo.log w.heap (.mem j) w'.repo.log w'.heap (.mem j)) ∧
      (∀ j, Reach w'.heap j i → ∀ n r, isSavedOn n w'.heap r j ≠ .ok true) ∧
      w'.repo.log = w.repo.log ∧ Fine C w' := by
  unfold setDlm at h
  obtain ⟨b, w1, h1, h2⟩ := M.bind_ok h
  obtain ⟨hl, hm⟩ := hs.loaded hi h1
  rw [M.bind_of_ok (getObj_run i w1), change_run] at h2
  cases h2
  have hp := mrrSet_part hl hi hk hm hx hxi (Or.inl rfl)
  refine ⟨fun ks => hp.set (by simp) ks [], fun ks => hp.kept .ft (by simp) ks [], hp.own [], ?_,
    fun j hj hr => (hp.others j hj hr).1, hp.noticed, hp.log, hp.fine⟩
  unfold getDlm
  rw [M.bind_of_ok (ensureMapped_mapped hp.part.1), M.bind_of_ok (getObj_run i _), hp.part.2]
  simp only
  cases hr : readIn C x (MM.edit i ⟨(w1.heap i).body.data, mrrSet (w1.heap i).body.kids .dlm x⟩ w1) with
  | mk r w2 =>
    cases r with
    | error e => rw [M.bind_of_error hr, hp.fine.readError hr]; exact ⟨w2, Or.inr rfl⟩
    | ok u => rw [M.bind_of_ok hr]; exact ⟨w2, Or.inl rfl⟩

/-- C56: the same for the file tree.  An empty file tree counts as none, because it is
stored so. -/
theorem C56_set_file_tree {w w' : World} (hs : Fine C w) {i x : ObjId} (hi : i < w.next)
    (hk : (w.heap i).kind = .mrr) (hx : x < w.next) (hxi : ¬ Reach w.heap x i)
    (h : setFileTree C i x w = (.ok (), w')) :
    (∀ d, look C w.repo.log w.heap [] [] (.mem x) = .found [] d false →
        ∀ ks, look C w'.repo.log w'.heap (.ft :: ks) [] (.mem i) = look C w.repo.log w.heap ks [] (.mem x)) ∧
      (∀ ks, look C w'.repo.log w'.heap (.dlm :: ks) [] (.mem i) = look C w.repo.log w.heap (.dlm :: ks) [] (.mem i)) ∧
      look C w'.repo.log w'.heap [] [] (.mem i) = look C w.repo.log w.heap [] [] (.mem i) ∧
      (∃ w'', getFileTree C i w' = (.ok (some x), w'') ∨ getFileTree C i w' = (.error .runtime, w'')) ∧
      (∀ j, j < w.next → ¬ Reach w.heap j i →
        SameContent C w.repo.log w.heap (.mem j) w'.repo.log w'.heap (.mem j)) ∧
      (∀ j, Reach w'.heap j i → ∀ n r, isSavedOn n w'.heap r j ≠ .ok true) ∧
      w'.repo.log = w.repo.log ∧ Fine C w' := by
  unfold setFileTree at h
  obtain ⟨b, w1, h1, h2⟩ := M.bind_ok h
  obtain ⟨hl, hm⟩ := hs.loaded hi h1
  rw [M.bind_of_ok (getObj_run i w1), change_run] at h2
  cases h2
  have hp := mrrSet_part hl hi hk hm hx hxi (Or.inr rfl)
  refine ⟨?_, fun ks => hp.kept .dlm (by simp) ks [], hp.own [], ?_,
    fun j hj hr => (hp.others j hj hr).1, hp.noticed, hp.log, hp.fine⟩
  · intro d hd ks
    have hsame := (hp.others x hx hxi).1
    have h0 := hsame [] []
    rw [hd] at h0
    obtain ⟨bx, hbx⟩ := view_ok_of_look (hp.fine.all x [] [])
    rw [look_nil [] hbx] at h0
    injection h0 with _ _ h0
    rw [look_cons_ft (view_mapped hp.part.1) (by rw [Body.dget_map, hp.part.2]; rfl) hbx h0.symm]
    exact (hsame ks []).symm
  · unfold getFileTree
    rw [M.bind_of_ok (ensureMapped_mapped hp.part.1), M.bind_of_ok (getObj_run i _), hp.part.2]
    simp only
    cases hr : readIn C x (MM.edit i ⟨(w1.heap i).body.data, mrrSet (w1.heap i).body.kids .ft x⟩ w1) with
    | mk r w2 =>
      cases r with
      | error e => rw [M.bind_of_error hr, hp.fine.readError hr]; exact ⟨w2, Or.inr rfl⟩
      | ok u => rw [M.bind_of_ok hr]; exact ⟨w2, Or.inl rfl⟩

/-- C56: `get_file_tree` returns `None` for a record without file tree. -/
theorem C56_no_file_tree {w w' : World} (hs : Fine C w) {i : ObjId} (hi : i < w.next) {y : Option ObjId}
    (h : getFileTree C i w = (.ok y, w')) :
    (y = none → look C w.repo.log w.heap [.ft] [] (.mem i) = .absent) ∧
      (∀ x, y = some x → ∀ d, look C w'.repo.log w'.heap [] [] (.mem x) = .found [] d false →
        ∀ ks, look C w.repo.log w.heap (.ft :: ks) [] (.mem i) = look C w'.repo.log w'.heap ks [] (.mem x)) ∧
      ∀ j, j < w.next → SameContent C w.repo.log w.heap (.mem j) w'.repo.log w'.heap (.mem j) := by
  unfold getFileTree at h
  obtain ⟨b, w1, h1, h2⟩ := M.bind_ok h
  obtain ⟨hl, hm⟩ := hs.loaded hi h1
  rw [M.bind_of_ok (getObj_run i w1)] at h2
  cases hd : dget (w1.heap i).body.kids .ft with
  | none =>
    rw [hd] at h2
    cases h2
    refine ⟨fun _ => ?_, (fun x h => by cases h), hl.content⟩
    rw [hl.content i hi]
    exact look_cons_none (view_mapped hm) (by rw [Body.dget_map, hd]; rfl)
  | some e =>
    rw [hd] at h2
    simp only at h2
    obtain ⟨_, w2, h3, h4⟩ := M.bind_ok h2
    cases h4
    have he : e.2 < w1.next := hl.fine.kids i hm e.2 (dget_sub hd)
    have hst := hl.fine.readStep he
    rw [h3] at hst
    have hall := hl.trans hst
    refine ⟨(fun h => by cases h), ?_, hall.content⟩
    rintro x ⟨⟩ d hx ks
    have hkeep := hst.loaded i (Nat.lt_of_lt_of_le hi hl.next) hm
    obtain ⟨bx, hbx⟩ := view_ok_of_look (hst.fine.all e.2 [] [])
    rw [look_nil [] hbx] at hx
    injection hx with _ _ hx
    have hfm := hl.fine.formed i hm
    have hmrr : (w1.heap i).body.data.kind = .mrr := by
      have := hfm.fits _ (mem_of_dget hd)
      cases hkk : (w1.heap i).body.data.kind <;> rw [hkk] at this <;> first | rfl | cases this
    have ht : e.1 = [] := hfm.stamps (by rw [hmrr]; rfl) _ (mem_of_dget hd)
    rw [hall.content i hi, look_cons_ft (t' := e.1) (c := .mem e.2) (view_mapped (by rw [hkeep]; exact hm))
      (by rw [hkeep, Body.dget_map, hd]; rfl) hbx hx, ht]

/-- C56 does not hold: `get_dataset_level_metadata` of a record without dataset-level
metadata fails, and does not return `None`. -/
theorem C56_false {w : World} {i : ObjId} (hm : (w.heap i).mapped = true)
    (hd : dget (w.heap i).body.kids .dlm = none) : getDlm C i w = (.error .attribute, w) := by
  unfold getDlm
  rw [M.bind_of_ok (ensureMapped_mapped hm), M.bind_of_ok (getObj_run i w), hd]
  rfl

/-! ### Examples -/

/-- The result of writing the UUID set of the examples, object 8 -/
def setWrite : Except PyErr Ref × World :=
  writeAs sampleCfg .own 20 (some sampleRealm) false 8 sampleWorld

theorem setWrite_ok : writeAs sampleCfg .own 20 (some sampleRealm) false 8 sampleWorld =
    (.ok (okRef setWrite), setWrite.2) := of_isOk (by decide +kernel)

theorem setWrite_session : Session sampleCfg sampleRealm setWrite.2 :=
  Session.write _ _ _ _ _ _ _ sample_session.1 setWrite_ok (collisionFree_of_check (by decide +kernel))
    (sample_storable (by decide)) (sample_alone _) (sample_noStaleParent _)

/-- A process that has written the UUID set and forgotten it with everything in it -/
def forgotSet : World := (purge 20 8 setWrite.2).2

theorem setWrite_ownName (j : ObjId) (hr : Reach setWrite.2.heap 8 j) : OwnName setWrite.2.heap j := by
  have hj : j < 9 ∧ j ≠ 6 := by
    refine reach_closed (S := fun p => p < 9 ∧ p ≠ 6) ?_ hr (by decide)
    have : ∀ p, p < 9 → p ≠ 6 → ∀ k ∈ (setWrite.2.heap p).body.subs, k < 9 ∧ k ≠ 6 := by decide +kernel
    exact fun p hp _ k hk => this p hp.1 hp.2 k hk
  have : ∀ p, p < 9 → p ≠ 6 → (setWrite.2.heap p).kind ≠ .tvl := by decide +kernel
  intro ref _
  unfold normRef
  rw [if_neg (this j hj.1 hj.2)]

theorem forgotSet_fine : Fine sampleCfg forgotSet :=
  Sane.fine (r := sampleRealm) (by decide)
    ((Session.purge _ _ _ setWrite_session setWrite_ownName).sane (by decide))
    (AllFormed.purge (AllFormed.write sampleWorld_formed (by decide) setWrite_ok)
      (setWrite_session.sane (by decide)) _ _ setWrite_ownName)

/-- No part of an object that has no loaded parts -/
theorem not_reach_of_no_subs {H : Heap} {i j : ObjId} (hne : i ≠ j) (h : (H i).body.subs = []) : ¬ Reach H i j := by
  intro hr
  have : j = i := reach_closed (S := fun p => p = i) (by
    intro p hp _ k hk
    rw [hp, h] at hk; cases hk) hr rfl
  exact hne this.symm

/-- The hypotheses of the theorems on C32 hold for the version list of the examples,
written and forgotten: an entry is added, one is replaced, one that is stored is read,
and the list has three entries. -/
example : ∃ w d l w', ListCalls sampleCfg 7 forgotSet w d ∧ Fine sampleCfg forgotSet ∧ 7 < forgotSet.next ∧
    IsList forgotSet 7 ∧ (forgotSet.heap 7).mapped = false ∧
    d c!"v2" ⟨[], [c!"sub"]⟩ = some (c!"0.4", 0) ∧ d c!"v2" ⟨[], []⟩ = some (c!"0.3", 0) ∧
    d c!"v1" ⟨[], []⟩ = none ∧ versionsAndPaths sampleCfg 7 w = (.ok l, w') ∧
    l = [(c!"v1", ⟨[], []⟩), (c!"v2", ⟨[], [c!"sub"]⟩), (c!"v2", ⟨[], []⟩)] := by
  have hr : ¬ Reach forgotSet.heap 0 7 := not_reach_of_no_subs (by decide) (by decide +kernel)
  have h1 : ListCalls sampleCfg 7 forgotSet _ _ := .set _ _ _ c!"v2" c!"0.2" ⟨[], [c!"sub"]⟩ 0 .start (by decide +kernel) hr
    (of_isOk_unit (by decide +kernel))
  have h2 := ListCalls.set _ _ _ c!"v2" c!"0.3" ⟨[], []⟩ 0 h1 (by decide +kernel) hr (of_isOk_unit (by decide +kernel))
  have h3 := ListCalls.set _ _ _ c!"v2" c!"0.4" ⟨[], [c!"sub"]⟩ 0 h2 (by decide +kernel) hr (of_isOk_unit (by decide +kernel))
  have h4 := ListCalls.get _ _ _ c!"v1" ⟨[], []⟩ (.ok (c!"0.1", ⟨[], []⟩, 9)) h3 (of_okVal (by decide +kernel))
  exact ⟨_, _, _, _, h4, forgotSet_fine, by decide +kernel, Or.inl (by decide +kernel), by decide +kernel,
    by decide, by decide, by decide, of_okVal (by decide +kernel), rfl⟩

/-- Nested dictionaries are as in the code: `v1` stays in front of `v2` also when an
entry for it is set last. -/
example : (([(c!"v1", ⟨[], []⟩, 1), (c!"v2", ⟨[], []⟩, 2), (c!"v1", ⟨[], [c!"s"]⟩, 3)] :
      List (Str × PPath × Nat)).foldl (fun l s => vset l s.1 s.2.1 s.2.2) []) =
    [(.ver c!"v1" ⟨[], []⟩, 1), (.ver c!"v1" ⟨[], [c!"s"]⟩, 3), (.ver c!"v2" ⟨[], []⟩, 2)] := by decide

/-- The hypotheses of the theorems on C34 hold: a second dataset id is added to a UUID
set in memory; and a UUID set that was forgotten shows that C34 does not hold. -/
example : (Fine sampleCfg sampleWorld ∧ 8 < sampleWorld.next ∧ (sampleWorld.heap 8).kind = .uuidset ∧
      (sampleWorld.heap 8).mapped = true ∧ ¬ Reach sampleWorld.heap 7 8 ∧
      ∃ l w', uuids sampleCfg 8 sampleWorld = (.ok l, w') ∧ l = [sampleUuid]) ∧
    Fine sampleCfg forgotSet ∧ (forgotSet.heap 8).mapped = false ∧ (forgotSet.heap 8).kind = .uuidset ∧
      (∃ x w', getVersionList sampleCfg 8 sampleUuid forgotSet = (.ok x, w')) ∧
      ∃ w', setVersionList 8 ⟨2, by decide⟩ 7 forgotSet = (.ok (), w') ∧
        ∃ e w'', getVersionList sampleCfg 8 sampleUuid w' = (.error e, w'') := by
  have hm : (forgotSet.heap 8).mapped = false := by decide +kernel
  have hset : setVersionList 8 ⟨2, by decide⟩ 7 forgotSet = (.ok (), (setVersionList 8 ⟨2, by decide⟩ 7 forgotSet).2) :=
    of_isOk_unit (by decide +kernel)
  refine ⟨⟨Sane.fine (r := sampleRealm) (by decide) (sample_session.1.sane (by decide)) sampleWorld_formed, by decide,
    by decide, by decide, ?_, _, _, of_okVal (by decide +kernel), rfl⟩, forgotSet_fine, hm, by decide +kernel,
    ⟨9, _, of_okVal (by decide +kernel)⟩, _, hset, C34_false hm hset _⟩
  intro h
  have : (8 : ObjId) < 8 := reach_closed (S := fun p => p < 8) (by
    intro p hp _ k hk
    have : ∀ p, p < 8 → ∀ k ∈ (sampleWorld.heap p).body.subs, k < 8 := by decide +kernel
    exact this p hp k hk) h (by decide)
  exact absurd this (by decide)

/-- The hypotheses of the theorems on C56 hold for the root record of the examples,
written and forgotten: its dataset-level metadata is set to the metadata of a file, its
file tree to a part of its file tree.  A record with neither shows that C56 does not
hold. -/
example : (Fine sampleCfg forgotSet ∧ 4 < forgotSet.next ∧ (forgotSet.heap 4).kind = .mrr ∧
      (forgotSet.heap 4).mapped = false ∧ ¬ Reach forgotSet.heap 1 4 ∧ ¬ Reach forgotSet.heap 2 4 ∧
      (∃ w', setDlm sampleCfg 4 1 forgotSet = (.ok (), w')) ∧
      (∃ w', setFileTree sampleCfg 4 2 forgotSet = (.ok (), w')) ∧
      ∃ x w', getFileTree sampleCfg 4 forgotSet = (.ok (some x), w')) ∧
    ∃ w, (w.heap 0).mapped = true ∧ Fine sampleCfg w ∧ (∃ w', getFileTree sampleCfg 0 w = (.ok none, w')) ∧
      getDlm sampleCfg 0 w = (.error .attribute, w) := by
  refine ⟨⟨forgotSet_fine, by decide +kernel, by decide +kernel, by decide +kernel,
    not_reach_of_no_subs (by decide) (by decide +kernel), not_reach_of_no_subs (by decide) (by decide +kernel),
    ⟨_, of_isOk_unit (by decide +kernel)⟩, ⟨_, of_isOk_unit (by decide +kernel)⟩,
    10, _, of_okVal (by decide +kernel)⟩, populate (start ⟨[], []⟩) [⟨.mrr none none, []⟩], rfl, ?_,
    ⟨_, of_okVal (by decide +kernel)⟩, C56_false rfl rfl⟩
  refine Sane.fine (r := sampleRealm) (by decide)
    ((session_populate _ (session_start _) (fun _ => rfl) (by decide)).1.sane (by decide))
    (AllFormed.populate _ (AllFormed.start _) fun b hb => ?_)
  cases List.mem_singleton.mp hb
  exact formed_of_check (by decide)

end MM
