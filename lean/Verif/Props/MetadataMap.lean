/-
Property theorems about the metadata map (C08, C09) and comparison (C10).
-/
import Verif.Props.Serial

namespace MM

/-! ### Specification -/

/-- The most recent run that a history has for an extractor and a configuration. -/
def lastRun (h : List Run) (e : Str) (c : Config) : Option Instance :=
  (h.reverse.find? (fun r => r.1 = e && r.2.config.eq c)).map Prod.snd

/-- The query a user makes: `extractor_runs_for_extractor(e)` and then
`get_instance_for_configuration(c)`. -/
def ask (m : Sets) (e : Str) (c : Config) : Except PyErr Instance :=
  match m.runsFor e with
  | .ok s => s.getByConfig c
  | .error x => .error x

/-- No two configurations of a list are equal for Python. -/
def Distinct (l : List Config) : Prop := l.Pairwise (fun a b => a.eq b = false)

/-! ### Lookup of configurations -/

namespace InstanceSet

theorem indexOf?_some {l : List Config} {c : Config} {n : Nat} (h : indexOf? l c = some n) :
    ∃ d, l[n]? = some d ∧ d.eq c = true := by
  induction l generalizing n with
  | nil => simp [indexOf?] at h
  | cons d l ih =>
    simp only [indexOf?] at h
    split at h
    · rename_i hd
      cases h
      exact ⟨d, by simp, hd⟩
    · cases hi : indexOf? l c with
      | none => simp [hi] at h
      | some m =>
        simp only [hi, Option.map_some, Option.some.injEq] at h
        subst h
        obtain ⟨d', h1, h2⟩ := ih hi
        exact ⟨d', by simpa using h1, h2⟩

theorem indexOf?_none {l : List Config} {c : Config} :
    indexOf? l c = none ↔ ∀ d ∈ l, d.eq c = false := by
  induction l with
  | nil => simp [indexOf?]
  | cons d l ih =>
    simp only [indexOf?]
    split
    · rename_i hd; simp [hd]
    · rename_i hd
      simp [ih, hd]

theorem indexOf?_append (l : List Config) (d c : Config) :
    indexOf? (l ++ [d]) c =
      (match indexOf? l c with
       | some n => some n
       | none => if d.eq c then some l.length else none) := by
  induction l with
  | nil => simp [indexOf?]
  | cons a l ih =>
    simp only [List.cons_append, indexOf?]
    by_cases h : a.eq c
    · simp [h]
    · simp only [h, if_false, Bool.false_eq_true]
      rw [ih]
      cases indexOf? l c with
      | some n => simp
      | none => by_cases hd : d.eq c <;> simp [hd]

theorem indexOf?_congr {l : List Config} {c d : Config} (hl : ∀ x ∈ l, x.WF) (hc : c.WF)
    (hd : d.WF) (h : c.eq d = true) : indexOf? l c = indexOf? l d := by
  induction l with
  | nil => rfl
  | cons a l ih =>
    have ha := hl a (by simp)
    have : a.eq c = a.eq d := by
      cases h1 : a.eq c with
      | true => exact (Config.eq_trans ha hc hd h1 h).symm
      | false =>
        cases h2 : a.eq d with
        | false => rfl
        | true =>
          have := Config.eq_trans ha hd hc h2 (Config.eq_symm hc hd h)
          rw [h1] at this; cases this
    simp only [indexOf?, this, ih (fun x hx => hl x (by simp [hx]))]

/-- The invariant of instance sets that are built by adding runs. -/
structure Inv (s : InstanceSet) : Prop where
  wf : s.WF
  distinct : Distinct s.params
  keys : dkeys s.instances = (List.range s.params.length).map Int.ofNat
  same : ∀ (n : Nat) (c : Config) (i : Instance), s.params[n]? = some c → dget s.instances (n : Int) = some i →
    c.eq i.config = true

theorem inv_empty : Inv empty := by
  refine ⟨wf_empty, by simp [Distinct, empty], by simp [empty, dkeys], ?_⟩
  intro n c i h
  simp [empty] at h

theorem getElem?_mem {α : Type} {l : List α} {n : Nat} {a : α} (h : l[n]? = some a) : a ∈ l :=
  List.mem_of_getElem? h

theorem distinct_index {l : List Config} (hd : Distinct l) {n m : Nat} {a b : Config}
    (h1 : l[n]? = some a) (h2 : l[m]? = some b) (hlt : n < m) : a.eq b = false := by
  unfold Distinct at hd
  rw [List.pairwise_iff_getElem] at hd
  obtain ⟨hn, rfl⟩ := List.getElem?_eq_some_iff.mp h1
  obtain ⟨hm, rfl⟩ := List.getElem?_eq_some_iff.mp h2
  exact hd n m hn hm hlt

theorem unique_index {l : List Config} (hw : ∀ x ∈ l, x.WF) (hd : Distinct l) {n m : Nat}
    {a b : Config} (h1 : l[n]? = some a) (h2 : l[m]? = some b) (he : a.eq b = true) : n = m := by
  rcases Nat.lt_trichotomy n m with h | h | h
  · rw [distinct_index hd h1 h2 h] at he; cases he
  · exact h
  · have := Config.eq_symm (hw _ (getElem?_mem h1)) (hw _ (getElem?_mem h2)) he
    rw [distinct_index hd h2 h1 h] at this; cases this

theorem inv_add {s : InstanceSet} (h : Inv s) {i : Instance} (hi : i.WF) : Inv (s.add i) := by
  have hwf := wf_add h.wf hi
  have hic : i.config.WF := hi.2.2.2.1
  unfold add at hwf ⊢
  cases hx : indexOf? s.params i.config with
  | some n =>
    simp only [hx] at hwf ⊢
    obtain ⟨d, hd1, hd2⟩ := indexOf?_some hx
    have hlt : n < s.params.length := (List.getElem?_eq_some_iff.mp hd1).1
    refine ⟨hwf, h.distinct, ?_, ?_⟩
    · rw [dkeys_dset, h.keys, if_pos]
      exact List.mem_map.mpr ⟨n, by simpa using hlt, rfl⟩
    · intro m c j hc hj
      rw [dget_dset] at hj
      split at hj
      · rename_i e
        have e : n = m := by exact_mod_cast e
        subst e
        cases hj
        rw [hd1] at hc
        cases hc
        exact hd2
      · exact h.same m c j hc hj
  | none =>
    simp only [hx] at hwf ⊢
    have hnone := indexOf?_none.mp hx
    refine ⟨hwf, ?_, ?_, ?_⟩
    · unfold Distinct
      rw [List.pairwise_append]
      refine ⟨h.distinct, by simp, ?_⟩
      intro a ha b hb
      simp at hb
      subst hb
      exact hnone a ha
    · rw [dkeys_dset, h.keys, if_neg]
      · simp [List.range_succ]
      · intro hm
        obtain ⟨k, hk, e⟩ := List.mem_map.mp hm
        have e : k = s.params.length := by
          have : (k : Int) = (s.params.length : Int) := e
          exact_mod_cast this
        simp [e] at hk
    · intro m c j hc hj
      rw [dget_dset] at hj
      split at hj
      · rename_i e
        have e : s.params.length = m := by exact_mod_cast e
        subst e
        cases hj
        simp at hc
        subst hc
        exact Config.eq_refl hic
      · rename_i e
        have hm : m < s.params.length := by
          have := (List.getElem?_eq_some_iff.mp hc).1
          simp only [List.length_append, List.length_cons, List.length_nil] at this
          have e : s.params.length ≠ m := fun e' => e (by exact_mod_cast e')
          omega
        rw [List.getElem?_append_left hm] at hc
        exact h.same m c j hc hj

/-- Adding a run changes the answer for its configuration only. -/
theorem getByConfig_add {s : InstanceSet} (h : Inv s) {i : Instance} (hi : i.WF) {c : Config}
    (hc : c.WF) :
    ((s.add i).getByConfig c).toOption =
      if i.config.eq c then some i else (s.getByConfig c).toOption := by
  have hic : i.config.WF := hi.2.2.2.1
  have hpw : ∀ x ∈ s.params, x.WF := h.wf.1
  unfold getByConfig add
  cases hx : indexOf? s.params i.config with
  | some n =>
    simp only
    obtain ⟨d, hd1, hd2⟩ := indexOf?_some hx
    have hdw : d.WF := hpw d (getElem?_mem hd1)
    by_cases he : i.config.eq c = true
    · rw [← indexOf?_congr hpw hic hc he, hx]
      simp [getByIndex, he, Except.toOption]
    · simp only [he, if_false, Bool.false_eq_true]
      cases hy : indexOf? s.params c with
      | none => rfl
      | some m =>
        simp only [getByIndex]
        rw [dget_dset_ne]
        intro e
        have e : n = m := by exact_mod_cast e
        subst e
        obtain ⟨d', hd3, hd4⟩ := indexOf?_some hy
        rw [hd1] at hd3
        cases hd3
        exact he (Config.eq_trans hic hdw hc (Config.eq_symm hdw hic hd2) hd4)
  | none =>
    simp only [indexOf?_append]
    have hnone := indexOf?_none.mp hx
    by_cases he : i.config.eq c = true
    · rw [← indexOf?_congr hpw hic hc he, hx]
      simp [getByIndex, he, Except.toOption]
    · simp only [he, if_false, Bool.false_eq_true]
      cases hy : indexOf? s.params c with
      | none => rfl
      | some m =>
        simp only [getByIndex]
        rw [dget_dset_ne]
        intro e
        have e : s.params.length = m := by exact_mod_cast e
        obtain ⟨d', hd3, _⟩ := indexOf?_some hy
        have := (List.getElem?_eq_some_iff.mp hd3).1
        omega

end InstanceSet

/-! ### Metadata objects built by adding runs -/

/-- The invariant of metadata bodies built by adding runs. -/
structure Sets.Inv (m : Sets) : Prop where
  nodup : (dkeys m).Nodup
  sets : ∀ p ∈ m, p.2.Inv

theorem Sets.Inv.wf {m : Sets} (h : Sets.Inv m) : m.WF := ⟨h.nodup, fun p hp => (h.sets p hp).wf⟩

theorem Sets.inv_addRun {m : Sets} (h : Sets.Inv m) (e : Str) {i : Instance} (hi : i.WF) :
    Sets.Inv (m.addRun e i) := by
  refine ⟨nodup_dset h.nodup _ _, ?_⟩
  intro p hp
  rcases mem_dset hp with rfl | hp
  · apply InstanceSet.inv_add _ hi
    cases hd : dget m e with
    | none => exact InstanceSet.inv_empty
    | some s => exact h.sets _ (mem_of_dget hd)
  · exact h.sets p hp

theorem inv_build (h : List Run) (hw : ∀ r ∈ h, r.2.WF) : Sets.Inv (build h) := by
  unfold build
  have : ∀ (h : List Run) (m : Sets), Sets.Inv m → (∀ r ∈ h, r.2.WF) →
      Sets.Inv (h.foldl (fun m r => m.addRun r.1 r.2) m) := by
    intro h
    induction h with
    | nil => intro m hm _; exact hm
    | cons r h ih =>
      intro m hm hw
      exact ih _ (Sets.inv_addRun hm r.1 (hw r (by simp))) (fun x hx => hw x (by simp [hx]))
  exact this h [] ⟨by simp [dkeys], by simp⟩ hw

theorem ask_addRun {m : Sets} (h : Sets.Inv m) (e' : Str) {i : Instance} (hi : i.WF) (e : Str)
    {c : Config} (hc : c.WF) :
    (ask (m.addRun e' i) e c).toOption =
      if e' = e ∧ i.config.eq c = true then some i else (ask m e c).toOption := by
  unfold ask Sets.runsFor Sets.addRun
  by_cases he : e' = e
  · subst he
    simp only [dget_dset_self, true_and]
    cases hd : dget m e' with
    | none =>
      simp only [Option.getD_none]
      rw [InstanceSet.getByConfig_add InstanceSet.inv_empty hi hc]
      simp [InstanceSet.getByConfig, InstanceSet.empty, InstanceSet.indexOf?, Except.toOption]
    | some s =>
      simp only [Option.getD_some]
      rw [InstanceSet.getByConfig_add (h.sets _ (mem_of_dget hd)) hi hc]
  · rw [dget_dset_ne _ _ he]
    simp [he]

theorem lastRun_append (h : List Run) (r : Run) (e : Str) (c : Config) :
    lastRun (h ++ [r]) e c =
      if r.1 = e ∧ r.2.config.eq c = true then some r.2 else lastRun h e c := by
  unfold lastRun
  rw [List.reverse_append]
  simp only [List.reverse_cons, List.reverse_nil, List.nil_append, List.cons_append]
  by_cases h1 : r.1 = e ∧ r.2.config.eq c = true
  · rw [List.find?_cons_of_pos (by simpa using h1)]
    simp [h1]
  · rw [List.find?_cons_of_neg (by simpa using h1)]
    simp [h1]

theorem build_append (h : List Run) (r : Run) : build (h ++ [r]) = (build h).addRun r.1 r.2 := by
  simp [build, List.foldl_append]

theorem rev_induction {α : Type} {P : List α → Prop} (h0 : P [])
    (h1 : ∀ l a, P l → P (l ++ [a])) : ∀ l, P l := by
  intro l
  have : ∀ l : List α, P l.reverse := by
    intro l
    induction l with
    | nil => exact h0
    | cons a l ih => rw [List.reverse_cons]; exact h1 _ _ ih
  simpa using this l.reverse

/-- **C08** Whatever calls built a metadata object, a query for an extractor and
a configuration answers with the most recent run of that pair, and has no answer
if there was none. -/
theorem C08_map (h : List Run) (hw : ∀ r ∈ h, r.2.WF) (e : Str) (c : Config) (hc : c.WF) :
    (ask (build h) e c).toOption = lastRun h e c := by
  revert hw
  refine rev_induction (P := fun h => (∀ r ∈ h, r.2.WF) →
    (ask (build h) e c).toOption = lastRun h e c) ?_ ?_ h
  · intro _
    rfl
  · intro h r ih hw
    rw [build_append, lastRun_append, ask_addRun (inv_build h (fun x hx => hw x (by simp [hx])))
      _ (hw r (by simp)) _ hc, ih (fun x hx => hw x (by simp [hx]))]

/-- **C08** The listing of configurations of an extractor has no two equal ones,
and each is the configuration of some run of that extractor. -/
theorem C08_no_duplicates (h : List Run) (hw : ∀ r ∈ h, r.2.WF) (e : Str) (s : InstanceSet)
    (hs : (build h).runsFor e = .ok s) : Distinct s.configurations := by
  unfold Sets.runsFor at hs
  cases hd : dget (build h) e with
  | none => simp [hd] at hs
  | some t =>
    simp only [hd, Except.ok.injEq] at hs
    subst hs
    exact ((inv_build h hw).sets _ (mem_of_dget hd)).distinct

/-- **C08** The extractors listed are those of the history, each once. -/
theorem C08_extractors (h : List Run) :
    (build h).extractors.Nodup ∧ ∀ e, e ∈ (build h).extractors ↔ ∃ r ∈ h, r.1 = e := by
  refine rev_induction (P := fun h => (build h).extractors.Nodup ∧
    ∀ e, e ∈ (build h).extractors ↔ ∃ r ∈ h, r.1 = e) ?_ ?_ h
  · simp [build, Sets.extractors, dkeys]
  · rintro h r ⟨h1, h2⟩
    rw [build_append]
    refine ⟨nodup_dset h1 _ _, ?_⟩
    intro e
    have h2' := h2 e
    simp only [Sets.extractors] at h2' ⊢
    unfold Sets.addRun
    rw [dkeys_dset]
    by_cases hm : r.1 ∈ dkeys (build h)
    · simp only [hm, if_true, h2', List.mem_append, List.mem_cons, List.not_mem_nil, or_false]
      constructor
      · rintro ⟨x, hx, rfl⟩; exact ⟨x, Or.inl hx, rfl⟩
      · rintro ⟨x, hx | rfl, rfl⟩
        · exact ⟨x, hx, rfl⟩
        · exact h2'.mp hm
    · simp only [hm, if_false, List.mem_append, h2', List.mem_cons, List.not_mem_nil, or_false]
      constructor
      · rintro (⟨x, hx, rfl⟩ | rfl)
        · exact ⟨x, Or.inl hx, rfl⟩
        · exact ⟨r, Or.inr rfl, rfl⟩
      · rintro ⟨x, hx | rfl, rfl⟩
        · exact Or.inl ⟨x, hx, rfl⟩
        · exact Or.inr rfl

/-! ### C09 -/

/-- What happens to a metadata object: a run is added, or it is serialised and
read back. -/
inductive Step (T : FloatText) : Sets → Sets → Prop
  | run (m : Sets) (e : Str) (i : Instance) : i.WF → Step T m (m.addRun e i)
  | reload (m m' : Sets) : Sets.fromText T (gitText (m.toText T)) = .ok m' → Step T m m'

/-- Any number of steps -/
inductive Steps (T : FloatText) : Sets → Sets → Prop
  | refl (m) : Steps T m m
  | tail {a b c} : Steps T a b → Step T b c → Steps T a c

theorem step_inv {T : FloatText} {a b : Sets} (h : Step T a b) (ha : Sets.Inv a) : Sets.Inv b := by
  cases h with
  | run e i hi => exact Sets.inv_addRun ha e hi
  | reload _ h =>
    have := Sets.fromText_toText T a ha.wf
    unfold Sets.toText at this h
    rw [gitText_dumps] at h
    rw [this] at h
    cases h
    exact ha

theorem steps_inv {T : FloatText} {a b : Sets} (h : Steps T a b) (ha : Sets.Inv a) :
    Sets.Inv b := by
  induction h with
  | refl => exact ha
  | tail _ h ih => exact step_inv h ih

theorem params_add_prefix (s : InstanceSet) (i : Instance) : s.params <+: (s.add i).params := by
  unfold InstanceSet.add
  split
  · exact List.prefix_refl _
  · exact List.prefix_append _ _

theorem step_prefix {T : FloatText} {a b : Sets} (h : Step T a b) (ha : Sets.Inv a) (e : Str)
    (s : InstanceSet) (hs : a.runsFor e = .ok s) :
    ∃ t, b.runsFor e = .ok t ∧ s.params <+: t.params := by
  have hd : dget a e = some s := by
    unfold Sets.runsFor at hs
    cases hd : dget a e with
    | none => simp [hd] at hs
    | some t => simp only [hd, Except.ok.injEq] at hs; rw [hs]
  cases h with
  | run e' i hi =>
    by_cases he : e' = e
    · subst he
      refine ⟨s.add i, ?_, params_add_prefix s i⟩
      simp [Sets.runsFor, Sets.addRun, hd]
    · refine ⟨s, ?_, List.prefix_refl _⟩
      simp [Sets.runsFor, Sets.addRun, dget_dset_ne _ _ he, hd]
  | reload _ h =>
    have := Sets.fromText_toText T a ha.wf
    unfold Sets.toText at this h
    rw [gitText_dumps] at h
    rw [this] at h
    cases h
    exact ⟨s, hs, List.prefix_refl _⟩

/-- **C09** Configuration indices are stable: a configuration listed at an index
stays listed at this index, whatever runs and reloads follow. -/
theorem C09_stable (T : FloatText) (a b : Sets) (h0 : Steps T [] a) (h : Steps T a b)
    (e : Str) (s : InstanceSet) (hs : a.runsFor e = .ok s) :
    ∃ t, b.runsFor e = .ok t ∧
      ∀ (n : Nat) cf, s.configurations[n]? = some cf → t.configurations[n]? = some cf := by
  have ha : Sets.Inv a := steps_inv h0 ⟨by simp [dkeys], by simp⟩
  have key : ∃ t, b.runsFor e = .ok t ∧ s.params <+: t.params := by
    induction h with
    | refl => exact ⟨s, hs, List.prefix_refl _⟩
    | tail hab hbc ih =>
      obtain ⟨t, ht, hp⟩ := ih
      obtain ⟨u, hu, hp'⟩ := step_prefix hbc (steps_inv hab ha) e t ht
      exact ⟨u, hu, hp.trans hp'⟩
  obtain ⟨t, ht, ⟨r, hr⟩⟩ := key
  refine ⟨t, ht, ?_⟩
  intro n cf hn
  have hlt := (List.getElem?_eq_some_iff.mp hn).1
  simp only [InstanceSet.configurations] at hn hlt ⊢
  rw [← hr, List.getElem?_append_left hlt, hn]

/-- **C09** Every listed index has exactly one run, whose configuration equals
the one listed there; there is no run without a listed index. -/
theorem C09_index_run (T : FloatText) (a : Sets) (h0 : Steps T [] a) (e : Str) (s : InstanceSet)
    (hs : a.runsFor e = .ok s) :
    (∀ (n : Nat) cf, s.configurations[n]? = some cf →
      ∃ i, s.getByIndex (n : Int) = .ok i ∧ cf.eq i.config = true) ∧
    (∀ k i, s.getByIndex k = .ok i → ∃ (n : Nat) (cf : Config), k = (n : Int) ∧ s.configurations[n]? = some cf) := by
  have ha : Sets.Inv a := steps_inv h0 ⟨by simp [dkeys], by simp⟩
  have hd : dget a e = some s := by
    unfold Sets.runsFor at hs
    cases hd : dget a e with
    | none => simp [hd] at hs
    | some t => simp only [hd, Except.ok.injEq] at hs; rw [hs]
  have hi := ha.sets _ (mem_of_dget hd)
  simp only at hi
  constructor
  · intro n cf hn
    have hlt := (List.getElem?_eq_some_iff.mp hn).1
    have hk : (n : Int) ∈ dkeys s.instances := by
      rw [hi.keys]
      exact List.mem_map.mpr ⟨n, by simpa [InstanceSet.configurations] using hlt, rfl⟩
    cases hg : dget s.instances (n : Int) with
    | none => exact absurd hk (dget_eq_none.mp hg)
    | some i => exact ⟨i, by simp [InstanceSet.getByIndex, hg], hi.same n cf i hn hg⟩
  · intro k i hg
    have hk : k ∈ dkeys s.instances := by
      unfold InstanceSet.getByIndex at hg
      cases hx : dget s.instances k with
      | none => simp [hx] at hg
      | some j => exact dget_isSome.mp (by simp [hx])
    rw [hi.keys] at hk
    obtain ⟨n, hn, rfl⟩ := List.mem_map.mp hk
    have hn : n < s.params.length := by simpa using hn
    exact ⟨n, s.params[n], rfl, by simp [InstanceSet.configurations, hn]⟩

/-! ### C10 -/

/-- **C10** (negation) If the first listed extractor of a metadata object has two
or more configurations, then comparing the object with an equal copy raises. -/
theorem C10_false (k : Str) (s : InstanceSet) (rest : Sets) (h : 2 ≤ s.params.length) :
    Sets.eq ((k, s) :: rest) ((k, s) :: rest) = .error .type := by
  have : ¬ s.params.length ≤ 1 := by omega
  simp [Sets.eq, Sets.eqGo, dget, InstanceSet.eq, InstanceSet.pySorted, this]

/-- Each extractor has at most one configuration. -/
def Single (m : Sets) : Prop := ∀ p ∈ m, p.2.params.length ≤ 1

theorem eqGo_total : ∀ (a b : Sets), Single a → Single b → ∃ r, Sets.eqGo a b = .ok r := by
  intro a
  induction a with
  | nil => intro b _ _; exact ⟨true, rfl⟩
  | cons p a ih =>
    obtain ⟨k, s⟩ := p
    intro b ha hb
    simp only [Sets.eqGo]
    cases hd : dget b k with
    | none => exact ⟨false, rfl⟩
    | some t =>
      have h1 : s.params.length ≤ 1 := ha (k, s) (by simp)
      have h2 : t.params.length ≤ 1 := hb _ (mem_of_dget hd)
      simp only [InstanceSet.eq, InstanceSet.pySorted, h1, h2, if_true]
      cases InstanceSet.configsEq s.params t.params &&
          InstanceSet.instancesEq s.instances t.instances with
      | false => exact ⟨false, rfl⟩
      | true => exact ih b (fun q hq => ha q (by simp [hq])) hb

theorem Instance.eq_refl {i : Instance} (h : i.WF) : i.eq i = true := by
  obtain ⟨h1, h2, h3, h4, h5⟩ := h
  simp [Instance.eq, Json.pyEq_refl _ h1, Json.pyEq_refl _ h2, Json.pyEq_refl _ h3,
    Config.eq_refl h4, Json.pyEq_refl _ h5]

theorem configsEq_refl {l : List Config} (h : ∀ c ∈ l, c.WF) :
    InstanceSet.configsEq l l = true := by
  induction l with
  | nil => rfl
  | cons c l ih =>
    simp [InstanceSet.configsEq, Config.eq_refl (h c (by simp)), ih (fun x hx => h x (by simp [hx]))]

theorem instancesEq_refl {l : List (Int × Instance)} (hn : (dkeys l).Nodup)
    (h : ∀ p ∈ l, p.2.WF) : InstanceSet.instancesEq l l = true := by
  simp only [InstanceSet.instancesEq, beq_self_eq_true, Bool.true_and, List.all_eq_true]
  intro p hp
  rw [dget_of_mem hn (k := p.1) (v := p.2) hp]
  exact Instance.eq_refl (h p hp)

theorem eqGo_refl (m : Sets) (hm : m.WF) : ∀ l : Sets, (∀ p ∈ l, p ∈ m) → Single l →
    Sets.eqGo l m = .ok true := by
  intro l
  induction l with
  | nil => intro _ _; rfl
  | cons p l ih =>
    obtain ⟨k, s⟩ := p
    intro hl hs
    have hmem := hl (k, s) (by simp)
    have hw := hm.2 _ hmem
    have h1 : s.params.length ≤ 1 := hs (k, s) (by simp)
    simp only [Sets.eqGo, dget_of_mem hm.1 hmem, InstanceSet.eq, InstanceSet.pySorted, h1, if_true,
      configsEq_refl hw.1, instancesEq_refl hw.2.1 hw.2.2, Bool.and_self]
    exact ih (fun q hq => hl q (by simp [hq])) (fun q hq => hs q (by simp [hq]))

/-- **C10** With at most one configuration per extractor, a comparison always
yields a truth value, and an object equals each of its copies.  Missing: objects
with two or more configurations for one extractor, where `C10_false` shows that
the comparison raises. -/
theorem C10_compare_partial (a b : Sets) (ha : Single a) (hb : Single b) (hw : a.WF) :
    (∃ r, Sets.eq a b = .ok r) ∧ Sets.eq a a = .ok true := by
  constructor
  · unfold Sets.eq
    split
    · exact eqGo_total a b ha hb
    · exact ⟨false, rfl⟩
  · simp only [Sets.eq, if_true]
    exact eqGo_refl a hw a (fun p hp => hp) ha

/-! ### Concrete cases -/

/-- A configuration with two parameters, in the two orders. -/
def Config.sampleA : Config := ⟨.str c!"1.0", [(c!"x", .int 1), (c!"y", .null)]⟩
def Config.sampleB : Config := ⟨.str c!"1.0", [(c!"y", .null), (c!"x", .bool true)]⟩
def Config.sampleC : Config := ⟨.str c!"2.0", []⟩

def Instance.sample (c : Config) (n : Int) : Instance :=
  ⟨.int n, .str c!"name", .str c!"mail", c, .obj [(c!"v", .int n)]⟩

theorem Instance.wf_sample {c : Config} (h : c.WF) (n : Int) : (Instance.sample c n).WF := by
  simp [Instance.WF, Instance.sample, Json.WF, Json.WFObj, dkeys, h]

theorem Config.wf_samples : Config.sampleA.WF ∧ Config.sampleB.WF ∧ Config.sampleC.WF := by
  simp [Config.WF, Config.sampleA, Config.sampleB, Config.sampleC, Json.WF, Json.WFObj, dkeys]

/-- A history with two equal configurations written differently. -/
def sampleRuns : List Run :=
  [(c!"ext", .sample .sampleA 1), (c!"ext", .sample .sampleC 2), (c!"ext", .sample .sampleB 3)]

theorem wf_sampleRuns : ∀ r ∈ sampleRuns, r.2.WF := by
  obtain ⟨h1, h2, h3⟩ := Config.wf_samples
  intro r hr
  simp only [sampleRuns, List.mem_cons, List.not_mem_nil, or_false] at hr
  rcases hr with rfl | rfl | rfl
  · exact Instance.wf_sample h1 1
  · exact Instance.wf_sample h3 2
  · exact Instance.wf_sample h2 3

theorem sample_eq : Config.sampleB.eq Config.sampleA = true ∧
    Config.sampleC.eq Config.sampleA = false := by
  constructor
  · simp [Config.eq, Config.sampleA, Config.sampleB, Json.pyEq, Json.pyEqObj, dget, Json.num?]
  · simp [Config.eq, Config.sampleA, Config.sampleC, Json.pyEq]

/-- The third run replaces the first one, whose configuration equals its own. -/
example : (ask (build sampleRuns) c!"ext" Config.sampleA).toOption = some (.sample .sampleB 3) := by
  rw [C08_map _ wf_sampleRuns _ _ Config.wf_samples.1]
  simp [lastRun, sampleRuns, Instance.sample, sample_eq.1]

/-- Two configurations are enough to make the comparison of equal objects raise. -/
example : ∃ h, (∀ r ∈ h, r.2.WF) ∧ Sets.eq (build h) (build h) = .error .type := by
  refine ⟨[(c!"ext", .sample .sampleA 1), (c!"ext", .sample .sampleC 2)], ?_, ?_⟩
  · intro r hr
    exact wf_sampleRuns r (by
      simp only [sampleRuns, List.mem_cons, List.not_mem_nil, or_false] at hr ⊢
      rcases hr with rfl | rfl
      · exact Or.inl rfl
      · exact Or.inr (Or.inl rfl))
  · have e : Config.sampleA.eq Config.sampleC = false := by
      simp [Config.eq, Config.sampleA, Config.sampleC, Json.pyEq]
    have hb : build [(c!"ext", .sample .sampleA 1), (c!"ext", .sample .sampleC 2)] =
        [(c!"ext", (InstanceSet.empty.add (.sample .sampleA 1)).add (.sample .sampleC 2))] := by
      simp [build, Sets.addRun, dset, dget]
    rw [hb]
    apply C10_false
    simp [InstanceSet.add, InstanceSet.empty, InstanceSet.indexOf?, Instance.sample, e]

end MM
