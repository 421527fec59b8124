/-
What the comparison of two metadata objects says about what they hold (C65).
-/
import Verif.Props.MetadataMap

namespace MM

/-! ### Specification -/

/-- Two runs are the same for Python: time stamp, author, mail address, configuration and content. -/
def SameRun (i j : Instance) : Prop :=
  i.timeStamp.pyEq j.timeStamp = true ∧ i.author.pyEq j.author = true ∧ i.email.pyEq j.email = true ∧
    (i.config.version.pyEq j.config.version = true ∧ (Json.obj i.config.parameter).pyEq (.obj j.config.parameter) = true) ∧
    i.content.pyEq j.content = true

/-- Two answers to a query are the same. -/
def SameAnswer : Option Instance → Option Instance → Prop
  | none, none => True
  | some i, some j => SameRun i j
  | _, _ => False

/-- Two histories have the same last run for every extractor and every configuration. -/
def SameRuns (a b : List Run) : Prop := ∀ e c, c.WF → SameAnswer (lastRun a e c) (lastRun b e c)

/-! ### The parts of the comparison -/

theorem Instance.eq_iff (i j : Instance) : i.eq j = true ↔ SameRun i j := by
  simp [Instance.eq, SameRun, Config.eq, and_assoc]

/-- A set with one configuration -/
theorem InstanceSet.Inv.one {s : InstanceSet} (h : s.Inv) {c : Config} (hp : s.params = [c]) :
    ∃ i, s.instances = [(0, i)] ∧ c.eq i.config = true ∧ i.WF ∧ c.WF := by
  have hk := h.keys
  rw [hp] at hk
  cases hi : s.instances with
  | nil => rw [hi] at hk; cases hk
  | cons p l =>
    rw [hi] at hk
    simp only [dkeys, List.map_cons, List.length_cons, List.length_nil, Nat.zero_add, List.range_one, List.map_nil,
      List.cons.injEq, List.map_eq_nil_iff] at hk
    obtain ⟨k, i⟩ := p
    obtain ⟨hk1, rfl⟩ := hk
    have hk1 : k = 0 := hk1
    subst hk1
    refine ⟨i, rfl, h.same 0 c i (by rw [hp]; rfl) (by rw [hi]; rfl), h.wf.2.2 (0, i) (by rw [hi]; simp), h.wf.1 c (by rw [hp]; simp)⟩

theorem InstanceSet.get_one {s : InstanceSet} {c : Config} (hp : s.params = [c]) {i : Instance} (hi : s.instances = [(0, i)])
    (d : Config) : (s.getByConfig d).toOption = if c.eq d then some i else none := by
  unfold InstanceSet.getByConfig
  rw [hp]
  simp only [InstanceSet.indexOf?]
  by_cases h : c.eq d = true
  · simp only [h, if_true, InstanceSet.getByIndex]
    rw [hi]; rfl
  · simp only [h, Option.map_none]; rfl

theorem eqGo_true {m : Sets} : ∀ {l : Sets}, Sets.eqGo l m = .ok true →
    ∀ p ∈ l, ∃ b, dget m p.1 = some b ∧ p.2.eq b = .ok true := by
  intro l
  induction l with
  | nil => intro _ p hp; cases hp
  | cons x l ih =>
    obtain ⟨k, a⟩ := x
    intro h p hp
    simp only [Sets.eqGo] at h
    cases hd : dget m k with
    | none => rw [hd] at h; cases h
    | some b =>
      rw [hd] at h
      simp only at h
      cases he : a.eq b with
      | error e => rw [he] at h; cases h
      | ok v =>
        rw [he] at h
        cases v with
        | false => cases h
        | true =>
          rcases List.mem_cons.mp hp with rfl | hp
          · exact ⟨b, hd, he⟩
          · exact ih h p hp

theorem eqGo_false {m : Sets} : ∀ {l : Sets}, Sets.eqGo l m = .ok false →
    ∃ p ∈ l, dget m p.1 = none ∨ ∃ b, dget m p.1 = some b ∧ p.2.eq b = .ok false := by
  intro l
  induction l with
  | nil => intro h; cases h
  | cons x l ih =>
    obtain ⟨k, a⟩ := x
    intro h
    simp only [Sets.eqGo] at h
    cases hd : dget m k with
    | none => exact ⟨(k, a), by simp, Or.inl hd⟩
    | some b =>
      rw [hd] at h
      simp only at h
      cases he : a.eq b with
      | error e => rw [he] at h; cases h
      | ok v =>
        rw [he] at h
        cases v with
        | false => exact ⟨(k, a), by simp, Or.inr ⟨b, hd, he⟩⟩
        | true =>
          obtain ⟨p, hp, hq⟩ := ih h
          exact ⟨p, List.mem_cons_of_mem _ hp, hq⟩

/-- What is known about the set of an extractor in an object built by adding runs -/
theorem build_set {h : List Run} (hw : ∀ r ∈ h, r.2.WF) {e : Str} {s : InstanceSet} (hs : dget (build h) e = some s) :
    s.Inv ∧ (∀ c, c.WF → lastRun h e c = (s.getByConfig c).toOption) ∧ s.params ≠ [] := by
  have hi : s.Inv := (inv_build h hw).sets _ (mem_of_dget hs)
  have hq : ∀ c, c.WF → lastRun h e c = (s.getByConfig c).toOption := by
    intro c hc
    rw [← C08_map h hw e c hc]
    unfold ask Sets.runsFor
    rw [hs]
  refine ⟨hi, hq, fun hp => ?_⟩
  have hm : e ∈ (build h).extractors := List.mem_map.mpr ⟨_, mem_of_dget hs, rfl⟩
  obtain ⟨r, hr, he⟩ := ((C08_extractors h).2 e).mp hm
  have hrw := hw r hr
  have h0 := hq r.2.config hrw.2.2.2.1
  unfold InstanceSet.getByConfig at h0
  rw [hp] at h0
  simp only [InstanceSet.indexOf?, Except.toOption] at h0
  unfold lastRun at h0
  rw [Option.map_eq_none_iff, List.find?_eq_none] at h0
  refine h0 r (List.mem_reverse.mpr hr) ?_
  simp [he, Config.eq_refl hrw.2.2.2.1]

theorem build_none {h : List Run} (hw : ∀ r ∈ h, r.2.WF) {e : Str} (hs : dget (build h) e = none) (c : Config) (hc : c.WF) :
    lastRun h e c = none := by
  rw [← C08_map h hw e c hc]
  unfold ask Sets.runsFor
  rw [hs]; rfl

/-- Comparing the sets of one extractor -/
theorem InstanceSet.eq_one {s t : InstanceSet} (hs : s.Inv) (ht : t.Inv) (ns : s.params ≠ []) (nt : t.params ≠ []) {b : Bool}
    (h : s.eq t = .ok b) : ∃ c i d j, s.params = [c] ∧ s.instances = [(0, i)] ∧ t.params = [d] ∧ t.instances = [(0, j)] ∧
      b = (c.eq d && i.eq j) := by
  unfold InstanceSet.eq InstanceSet.pySorted at h
  by_cases h1 : s.params.length ≤ 1
  · by_cases h2 : t.params.length ≤ 1
    · rw [if_pos h1, if_pos h2] at h
      simp only [Except.ok.injEq] at h
      cases hp : s.params with
      | nil => exact absurd hp ns
      | cons c l =>
        rw [hp] at h1
        have hl : l = [] := List.length_eq_zero_iff.mp (by simp only [List.length_cons] at h1; omega)
        subst hl
        cases hp' : t.params with
        | nil => exact absurd hp' nt
        | cons d l =>
          rw [hp'] at h2
          have hl : l = [] := List.length_eq_zero_iff.mp (by simp only [List.length_cons] at h2; omega)
          subst hl
          obtain ⟨i, hi, _⟩ := hs.one hp
          obtain ⟨j, hj, _⟩ := ht.one hp'
          refine ⟨c, i, d, j, rfl, hi, rfl, hj, ?_⟩
          rw [← h, hp, hp', hi, hj]
          simp [InstanceSet.configsEq, InstanceSet.instancesEq, dget]
    · rw [if_pos h1, if_neg h2] at h; cases h
  · rw [if_neg h1] at h; cases h

theorem InstanceSet.eq_answers {s t : InstanceSet} (hs : s.Inv) (ht : t.Inv) (ns : s.params ≠ []) (nt : t.params ≠ []) {b : Bool}
    (h : s.eq t = .ok b) :
    b = true ↔ ∀ c, c.WF → SameAnswer (s.getByConfig c).toOption (t.getByConfig c).toOption := by
  obtain ⟨c, i, d, j, h1, h2, h3, h4, hb⟩ := InstanceSet.eq_one hs ht ns nt h
  obtain ⟨_, hi, hci, _, hcw⟩ := hs.one h1
  obtain ⟨_, hj, hdj, _, hdw⟩ := ht.one h3
  subst hb
  constructor
  · intro hb e he
    rw [Bool.and_eq_true] at hb
    rw [InstanceSet.get_one h1 h2, InstanceSet.get_one h3 h4]
    by_cases hce : c.eq e = true
    · rw [if_pos hce, if_pos (Config.eq_trans hdw hcw he (Config.eq_symm hcw hdw hb.1) hce)]
      exact (Instance.eq_iff i j).mp hb.2
    · rw [if_neg hce, if_neg fun hde => hce (Config.eq_trans hcw hdw he hb.1 hde)]
      trivial
  · intro ha
    have := ha c hcw
    rw [InstanceSet.get_one h1 h2, InstanceSet.get_one h3 h4, if_pos (Config.eq_refl hcw)] at this
    by_cases hdc : d.eq c = true
    · rw [if_pos hdc] at this
      rw [Bool.and_eq_true]
      exact ⟨Config.eq_symm hdw hcw hdc, (Instance.eq_iff i j).mpr this⟩
    · rw [if_neg hdc] at this; exact this.elim

theorem sameAnswer_none {i : Option Instance} (h : SameAnswer i none ∨ SameAnswer none i) : i = none := by
  cases i with
  | none => rfl
  | some i => rcases h with h | h <;> exact h.elim

/-- An extractor that only one of two objects has -/
theorem build_differ {a b : List Run} (ha : ∀ r ∈ a, r.2.WF) (hb : ∀ r ∈ b, r.2.WF) {e : Str}
    (h1 : e ∈ dkeys (build a)) (h2 : e ∉ dkeys (build b)) : ∃ c, c.WF ∧ lastRun a e c ≠ none ∧ lastRun b e c = none := by
  cases hs : dget (build a) e with
  | none => exact absurd h1 (dget_eq_none.mp hs)
  | some s =>
    obtain ⟨hi, hq, hp⟩ := build_set ha hs
    cases hps : s.params with
    | nil => exact absurd hps hp
    | cons c l =>
      have hc : c.WF := hi.wf.1 c (by rw [hps]; simp)
      refine ⟨c, hc, ?_, build_none hb (dget_eq_none.mpr h2) c hc⟩
      rw [hq c hc]
      unfold InstanceSet.getByConfig
      rw [hps]
      simp only [InstanceSet.indexOf?, Config.eq_refl hc, if_true, InstanceSet.getByIndex]
      cases hd : dget s.instances 0 with
      | some i => simp [Except.toOption]
      | none =>
        exfalso
        refine dget_eq_none.mp hd ?_
        rw [hi.keys, hps]
        exact List.mem_map.mpr ⟨0, by simp, rfl⟩

/-! ### C65 -/

/-- **C65** Two metadata objects, built by adding runs in any order and number.  When their comparison
gives an answer, the answer is `True` exactly if both have the same last run for every extractor and
every configuration, with the same time stamp, author, mail address, configuration and content.
Missing: comparisons that raise (`C10_false`). -/
theorem C65_compare (a b : List Run) (ha : ∀ r ∈ a, r.2.WF) (hb : ∀ r ∈ b, r.2.WF) {x : Bool}
    (h : Sets.eq (build a) (build b) = .ok x) : x = true ↔ SameRuns a b := by
  have na := (inv_build a ha).nodup
  have nb := (inv_build b hb).nodup
  unfold Sets.eq at h
  have both : ∀ {e s t}, dget (build a) e = some s → dget (build b) e = some t → ∀ {y}, s.eq t = .ok y →
      (y = true ↔ ∀ c, c.WF → SameAnswer (lastRun a e c) (lastRun b e c)) := by
    intro e s t hs ht y hy
    obtain ⟨i1, q1, p1⟩ := build_set ha hs
    obtain ⟨i2, q2, p2⟩ := build_set hb ht
    rw [InstanceSet.eq_answers i1 i2 p1 p2 hy]
    constructor
    · intro hx c hc; rw [q1 c hc, q2 c hc]; exact hx c hc
    · intro hx c hc; rw [← q1 c hc, ← q2 c hc]; exact hx c hc
  have only1 : ∀ e, e ∈ dkeys (build a) → e ∉ dkeys (build b) → ¬ SameRuns a b := by
    intro e h1 h2 hs
    obtain ⟨c, hc, g1, g2⟩ := build_differ ha hb h1 h2
    have := hs e c hc
    rw [g2] at this
    exact g1 (sameAnswer_none (Or.inl this))
  have only2 : ∀ e, e ∈ dkeys (build b) → e ∉ dkeys (build a) → ¬ SameRuns a b := by
    intro e h1 h2 hs
    obtain ⟨c, hc, g1, g2⟩ := build_differ hb ha h1 h2
    have := hs e c hc
    rw [g2] at this
    exact g1 (sameAnswer_none (Or.inr this))
  by_cases hl : (build a).length = (build b).length
  · rw [if_pos hl] at h
    cases x with
    | false =>
      refine ⟨(fun q => by cases q), fun hs => ?_⟩
      obtain ⟨p, hp, hq⟩ := eqGo_false h
      have hpa : dget (build a) p.1 = some p.2 := dget_of_mem na hp
      rcases hq with hq | ⟨t, ht, hq⟩
      · exact (only1 p.1 (List.mem_map.mpr ⟨p, hp, rfl⟩) (dget_eq_none.mp hq) hs).elim
      · exact (both hpa ht hq).mpr (hs p.1)
    | true =>
      refine ⟨fun _ e c hc => ?_, fun _ => rfl⟩
      cases hd : dget (build a) e with
      | some s =>
        obtain ⟨t, ht, hq⟩ := eqGo_true h (e, s) (mem_of_dget hd)
        exact (both hd ht hq).mp rfl c hc
      | none =>
        rw [build_none ha hd c hc]
        cases hd' : dget (build b) e with
        | none => rw [build_none hb hd' c hc]; trivial
        | some t =>
          exfalso
          have hsub : ∀ k ∈ dkeys (build a), k ∈ dkeys (build b) := by
            intro k hk
            obtain ⟨p, hp, rfl⟩ := List.mem_map.mp hk
            obtain ⟨t, ht, _⟩ := eqGo_true h p hp
            exact List.mem_map.mpr ⟨_, mem_of_dget ht, rfl⟩
          have hn : (e :: dkeys (build a)).Nodup := List.nodup_cons.mpr ⟨dget_eq_none.mp hd, na⟩
          have := List.Nodup.length_le_of_subset hn (l₂ := dkeys (build b)) (by
            intro k hk
            rcases List.mem_cons.mp hk with rfl | hk
            · exact List.mem_map.mpr ⟨_, mem_of_dget hd', rfl⟩
            · exact hsub k hk)
          simp only [dkeys, List.length_cons, List.length_map] at this
          omega
  · rw [if_neg hl] at h
    cases h
    refine ⟨fun q => by (cases q), fun hs => ?_⟩
    exfalso
    have h1 : ∀ k ∈ dkeys (build a), k ∈ dkeys (build b) := fun k hk => by
      by_cases hk' : k ∈ dkeys (build b)
      · exact hk'
      · exact (only1 k hk hk' hs).elim
    have h2 : ∀ k ∈ dkeys (build b), k ∈ dkeys (build a) := fun k hk => by
      by_cases hk' : k ∈ dkeys (build a)
      · exact hk'
      · exact (only2 k hk hk' hs).elim
    have l1 := List.Nodup.length_le_of_subset na (l₂ := dkeys (build b)) h1
    have l2 := List.Nodup.length_le_of_subset nb (l₂ := dkeys (build a)) h2
    simp only [dkeys, List.length_map] at l1 l2
    omega

/-- The relation does not depend on the side. -/
theorem SameRun.symm {i j : Instance} (hi : i.WF) (hj : j.WF) (h : SameRun i j) : SameRun j i := by
  obtain ⟨h1, h2, h3, ⟨h4, h5⟩, h6⟩ := h
  exact ⟨Json.pyEq_symm _ _ hi.1 hj.1 h1, Json.pyEq_symm _ _ hi.2.1 hj.2.1 h2, Json.pyEq_symm _ _ hi.2.2.1 hj.2.2.1 h3,
    ⟨Json.pyEq_symm _ _ hi.2.2.2.1.1 hj.2.2.2.1.1 h4, Json.pyEq_symm _ _ hi.2.2.2.1.2 hj.2.2.2.1.2 h5⟩,
    Json.pyEq_symm _ _ hi.2.2.2.2 hj.2.2.2.2 h6⟩

theorem lastRun_mem {h : List Run} {e : Str} {c : Config} {i : Instance} (hl : lastRun h e c = some i) : ∃ r ∈ h, r.2 = i := by
  unfold lastRun at hl
  rw [Option.map_eq_some_iff] at hl
  obtain ⟨r, hr, rfl⟩ := hl
  exact ⟨r, List.mem_reverse.mp (List.mem_of_find?_eq_some hr), rfl⟩

theorem SameRuns.symm {a b : List Run} (ha : ∀ r ∈ a, r.2.WF) (hb : ∀ r ∈ b, r.2.WF) (h : SameRuns a b) : SameRuns b a := by
  intro e c hc
  have := h e c hc
  cases h1 : lastRun a e c with
  | none =>
    rw [h1] at this
    rw [sameAnswer_none (Or.inr this)]; trivial
  | some i =>
    rw [h1] at this
    cases h2 : lastRun b e c with
    | none => rw [h2] at this; exact this.elim
    | some j =>
      rw [h2] at this
      obtain ⟨r, hr, rfl⟩ := lastRun_mem h1
      obtain ⟨r', hr', rfl⟩ := lastRun_mem h2
      exact SameRun.symm (ha r hr) (hb r' hr') this

/-- **C65** When both `a == b` and `b == a` give an answer, it is the same. -/
theorem C65_symmetric (a b : List Run) (ha : ∀ r ∈ a, r.2.WF) (hb : ∀ r ∈ b, r.2.WF) {x y : Bool}
    (h : Sets.eq (build a) (build b) = .ok x) (h' : Sets.eq (build b) (build a) = .ok y) : x = y := by
  have h1 := C65_compare a b ha hb h
  have h2 := C65_compare b a hb ha h'
  have : x = true ↔ y = true :=
    h1.trans ((⟨SameRuns.symm ha hb, SameRuns.symm hb ha⟩ : SameRuns a b ↔ SameRuns b a).trans h2.symm)
  cases x <;> cases y <;> simp_all

theorem instancesEq_answers {a b : List (Int × Instance)} (na : (dkeys a).Nodup)
    (h : InstanceSet.instancesEq a b = true) (n : Int) : SameAnswer (dget a n) (dget b n) := by
  unfold InstanceSet.instancesEq at h
  rw [Bool.and_eq_true, List.all_eq_true] at h
  obtain ⟨hl, ha⟩ := h
  have hl : a.length = b.length := by simpa using hl
  cases h1 : dget a n with
  | some i =>
    have := ha (n, i) (mem_of_dget h1)
    simp only at this
    cases h2 : dget b n with
    | none => rw [h2] at this; cases this
    | some j => rw [h2] at this; exact (Instance.eq_iff i j).mp this
  | none =>
    cases h2 : dget b n with
    | none => trivial
    | some j =>
      exfalso
      have hn : (n :: dkeys a).Nodup := List.nodup_cons.mpr ⟨dget_eq_none.mp h1, na⟩
      have := List.Nodup.length_le_of_subset hn (l₂ := dkeys b) (by
        intro k hk
        rcases List.mem_cons.mp hk with rfl | hk
        · exact List.mem_map.mpr ⟨_, mem_of_dget h2, rfl⟩
        · obtain ⟨p, hp, rfl⟩ := List.mem_map.mp hk
          have hx := ha p hp
          cases h3 : dget b p.1 with
          | none => rw [h3] at hx; cases hx
          | some x => exact List.mem_map.mpr ⟨_, mem_of_dget h3, rfl⟩)
      simp only [dkeys, List.length_cons, List.length_map] at this
      omega

/-- **C65** Any two metadata objects, also ones that were read from a text that no metadata object wrote.
If they are equal, each extractor of the first is one of the second, and
`get_instance_for_configuration_index` has the same answers for all indices. -/
theorem C65_indices (a b : Sets) (ha : a.WF) (h : Sets.eq a b = .ok true) (e : Str) (s : InstanceSet)
    (hs : a.runsFor e = .ok s) : ∃ t, b.runsFor e = .ok t ∧
      ∀ n, SameAnswer (s.getByIndex n).toOption (t.getByIndex n).toOption := by
  unfold Sets.eq at h
  by_cases hl : a.length = b.length
  · rw [if_pos hl] at h
    unfold Sets.runsFor at hs
    cases hd : dget a e with
    | none => rw [hd] at hs; cases hs
    | some s' =>
      rw [hd] at hs
      cases hs
      obtain ⟨t, ht, hq⟩ := eqGo_true h (e, s) (mem_of_dget hd)
      refine ⟨t, by unfold Sets.runsFor; rw [ht], fun n => ?_⟩
      unfold InstanceSet.eq at hq
      cases h1 : InstanceSet.pySorted s.params with
      | error x => rw [h1] at hq; cases hq
      | ok p =>
        cases h2 : InstanceSet.pySorted t.params with
        | error x => rw [h1, h2] at hq; cases hq
        | ok q =>
          rw [h1, h2] at hq
          simp only [Except.ok.injEq, Bool.and_eq_true] at hq
          have := instancesEq_answers (ha.2 _ (mem_of_dget hd)).2.1 hq.2 n
          unfold InstanceSet.getByIndex
          cases h3 : dget s.instances n <;> cases h4 : dget t.instances n <;> (rw [h3, h4] at this; exact this)
  · rw [if_neg hl] at h; cases h

/-- **C65** Equal metadata objects have the same extractors. -/
theorem C65_extractors (a b : Sets) (ha : a.WF) (h : Sets.eq a b = .ok true) (e : Str) :
    e ∈ a.extractors ↔ e ∈ b.extractors := by
  have hsub : ∀ k ∈ dkeys a, k ∈ dkeys b := by
    intro k hk
    obtain ⟨p, hp, rfl⟩ := List.mem_map.mp hk
    obtain ⟨t, ht, _⟩ := C65_indices a b ha h p.1 p.2 (by unfold Sets.runsFor; rw [dget_of_mem ha.1 hp])
    unfold Sets.runsFor at ht
    cases hd : dget b p.1 with
    | none => rw [hd] at ht; cases ht
    | some x => exact List.mem_map.mpr ⟨_, mem_of_dget hd, rfl⟩
  have hl : a.length = b.length := by
    unfold Sets.eq at h
    by_cases hl : a.length = b.length
    · exact hl
    · rw [if_neg hl] at h; cases h
  refine ⟨hsub e, fun he => ?_⟩
  by_cases hx : e ∈ dkeys a
  · exact hx
  · exfalso
    have := List.Nodup.length_le_of_subset (List.nodup_cons.mpr ⟨hx, ha.1⟩) (l₂ := dkeys b) (by
      intro k hk
      rcases List.mem_cons.mp hk with rfl | hk
      · exact he
      · exact hsub k hk)
    simp only [dkeys, List.length_cons, List.length_map] at this
    omega

/-! ### When a comparison raises -/

theorem InstanceSet.eq_raises {a b : InstanceSet} {e : PyErr} (h : a.eq b = .error e) :
    e = .type ∧ (2 ≤ a.params.length ∨ 2 ≤ b.params.length) := by
  unfold InstanceSet.eq InstanceSet.pySorted at h
  by_cases h1 : a.params.length ≤ 1
  · rw [if_pos h1] at h
    by_cases h2 : b.params.length ≤ 1
    · rw [if_pos h2] at h; cases h
    · rw [if_neg h2] at h; cases h; exact ⟨rfl, Or.inr (by omega)⟩
  · rw [if_neg h1] at h; cases h; exact ⟨rfl, Or.inl (by omega)⟩

theorem InstanceSet.eq_two {a b : InstanceSet} (h : 2 ≤ a.params.length ∨ 2 ≤ b.params.length) : a.eq b = .error .type := by
  unfold InstanceSet.eq InstanceSet.pySorted
  by_cases h1 : a.params.length ≤ 1
  · rw [if_pos h1, if_neg (by omega : ¬ b.params.length ≤ 1)]
  · rw [if_neg h1]

theorem eqGo_raises : ∀ {a b : Sets} {e : PyErr}, Sets.eqGo a b = .error e ↔
    e = .type ∧ ∃ l k s m t, a = l ++ (k, s) :: m ∧ (∀ p ∈ l, ∃ t, dget b p.1 = some t ∧ p.2.eq t = .ok true) ∧
      dget b k = some t ∧ (2 ≤ s.params.length ∨ 2 ≤ t.params.length)
  | [], b, e => by
    refine ⟨(fun h => by cases h), ?_⟩
    rintro ⟨_, l, k, s, m, t, h, _⟩
    cases l <;> cases h
  | (k, s) :: a, b, e => by
    have ih := eqGo_raises (a := a) (b := b) (e := e)
    unfold Sets.eqGo
    constructor
    · intro h
      cases hd : dget b k with
      | none => rw [hd] at h; cases h
      | some t =>
        rw [hd] at h
        simp only at h
        cases hq : s.eq t with
        | error x =>
          rw [hq] at h; cases h
          obtain ⟨rfl, h2⟩ := InstanceSet.eq_raises hq
          exact ⟨rfl, [], k, s, a, t, rfl, (fun p hp => by cases hp), hd, h2⟩
        | ok r =>
          rw [hq] at h
          cases r with
          | false => cases h
          | true =>
            obtain ⟨he, l, k', s', m, t', h1, h2, h3, h4⟩ := ih.mp h
            refine ⟨he, (k, s) :: l, k', s', m, t', by rw [h1]; rfl, fun p hp => ?_, h3, h4⟩
            rcases List.mem_cons.mp hp with rfl | hp
            · exact ⟨t, hd, hq⟩
            · exact h2 p hp
    · rintro ⟨rfl, l, k', s', m, t', h1, h2, h3, h4⟩
      cases l with
      | nil =>
        cases h1
        rw [h3]
        simp only
        rw [InstanceSet.eq_two h4]
      | cons x l =>
        cases h1
        obtain ⟨t, g1, g2⟩ := h2 (k, s) (List.mem_cons_self ..)
        rw [g1]
        simp only
        rw [g2]
        exact ih.mpr ⟨rfl, l, k', s', m, t', rfl, fun p hp => h2 p (List.mem_cons_of_mem _ hp), h3, h4⟩

/-- **C10** When a comparison raises: exactly if both objects have equally many extractors, and going
through those of the first, before any difference is found, one is reached that both have and that has
more than one configuration in one of them. -/
theorem C10_raises (a b : Sets) (e : PyErr) : Sets.eq a b = .error e ↔ e = .type ∧ a.length = b.length ∧
    ∃ l k s m t, a = l ++ (k, s) :: m ∧ (∀ p ∈ l, ∃ t, b.runsFor p.1 = .ok t ∧ p.2.eq t = .ok true) ∧
      b.runsFor k = .ok t ∧ (2 ≤ s.configurations.length ∨ 2 ≤ t.configurations.length) := by
  have hr : ∀ {k t}, b.runsFor k = .ok t ↔ dget b k = some t := by
    intro k t
    unfold Sets.runsFor
    cases dget b k <;> simp
  unfold Sets.eq InstanceSet.configurations
  simp only [hr]
  by_cases hl : a.length = b.length
  · rw [if_pos hl, eqGo_raises]
    simp only [hl, true_and]
  · rw [if_neg hl]
    simp [hl]

/-- **C10** Two metadata objects with the same content, e.g. one that is stored and read again: they are
found equal if no extractor has more than one configuration, otherwise the comparison raises. -/
theorem C10_same (a : Sets) (hw : a.WF) :
    (Single a → Sets.eq a a = .ok true) ∧ (¬ Single a → Sets.eq a a = .error .type) := by
  refine ⟨fun h => (C10_compare_partial a a h h hw).2, fun h => ?_⟩
  have hnot : ∃ p ∈ a, ¬ p.2.params.length ≤ 1 := by
    by_cases hx : ∃ p ∈ a, ¬ p.2.params.length ≤ 1
    · exact hx
    · exact absurd (fun p hp => by by_cases h2 : p.2.params.length ≤ 1; exact h2; exact absurd ⟨p, hp, h2⟩ hx) h
  obtain ⟨p, hp, h2⟩ := hnot
  have htwo : p.2.eq p.2 = .error .type := InstanceSet.eq_two (Or.inl (by omega))
  unfold Sets.eq
  rw [if_pos rfl]
  cases hx : Sets.eqGo a a with
  | error e => rw [(eqGo_raises.mp hx).1]
  | ok x =>
    exfalso
    cases x with
    | true =>
      obtain ⟨t, ht, hq⟩ := eqGo_true hx p hp
      rw [dget_of_mem hw.1 (show (p.1, p.2) ∈ a from hp)] at ht
      cases ht
      rw [htwo] at hq; cases hq
    | false =>
      obtain ⟨q, hq, h3⟩ := eqGo_false hx
      have hd := dget_of_mem hw.1 (show (q.1, q.2) ∈ a from hq)
      rcases h3 with h3 | ⟨t, ht, h3⟩
      · rw [hd] at h3; cases h3
      · rw [hd] at ht; cases ht
        by_cases h4 : q.2.params.length ≤ 1
        · have h5 : Sets.eq [q] [q] = .ok true :=
            (C10_compare_partial [q] [q] (fun p hp => by rw [List.mem_singleton.mp hp]; exact h4)
              (fun p hp => by rw [List.mem_singleton.mp hp]; exact h4)
              ⟨by simp [dkeys], fun p hp => by rw [List.mem_singleton.mp hp]; exact hw.2 q hq⟩).2
          obtain ⟨t, ht, h6⟩ := eqGo_true (m := [q]) (l := [q]) (by unfold Sets.eq at h5; rw [if_pos rfl] at h5; exact h5) q (List.mem_singleton_self _)
          simp only [dget, if_true] at ht
          cases ht
          rw [h3] at h6; cases h6
        · rw [InstanceSet.eq_two (Or.inl (by omega))] at h3; cases h3

/-! ### Concrete cases -/

/-- A call returned this truth value. -/
def okIs (b : Bool) : Except PyErr Bool → Bool
  | .ok x => x == b
  | .error _ => false

theorem okIs_iff {b : Bool} {x : Except PyErr Bool} : okIs b x = true ↔ x = .ok b := by
  cases x <;> simp [okIs]

/-- Two objects whose configurations are written differently, and whose last runs are the same, are equal. -/
example : Sets.eq (build [(c!"ext", .sample .sampleA 1), (c!"ext", .sample .sampleB 3)]) (build [(c!"ext", .sample .sampleA 3)]) =
    .ok true ∧ SameRuns [(c!"ext", .sample .sampleA 1), (c!"ext", .sample .sampleB 3)] [(c!"ext", .sample .sampleA 3)] := by
  have hw1 : ∀ r ∈ [((c!"ext", .sample .sampleA 1) : Run), (c!"ext", .sample .sampleB 3)], r.2.WF := by
    intro r hr
    rcases List.mem_cons.mp hr with rfl | hr
    · exact Instance.wf_sample Config.wf_samples.1 1
    · rw [List.mem_singleton.mp hr]; exact Instance.wf_sample Config.wf_samples.2.1 3
  have hw2 : ∀ r ∈ [((c!"ext", .sample .sampleA 3) : Run)], r.2.WF := by
    intro r hr
    rw [List.mem_singleton.mp hr]; exact Instance.wf_sample Config.wf_samples.1 3
  have h : Sets.eq (build [(c!"ext", .sample .sampleA 1), (c!"ext", .sample .sampleB 3)])
      (build [(c!"ext", .sample .sampleA 3)]) = .ok true := okIs_iff.mp (by decide +kernel)
  exact ⟨h, (C65_compare _ _ hw1 hw2 h).mp rfl⟩

/-- An extractor with two configurations after one with a single configuration -/
example : Sets.eq (build [(c!"a", .sample .sampleA 1), (c!"b", .sample .sampleA 1), (c!"b", .sample .sampleC 2)])
    (build [(c!"a", .sample .sampleA 1), (c!"b", .sample .sampleA 1), (c!"b", .sample .sampleC 2)]) = .error .type := by
  have hw : ∀ r ∈ [((c!"a", .sample .sampleA 1) : Run), (c!"b", .sample .sampleA 1), (c!"b", .sample .sampleC 2)], r.2.WF := by
    intro r hr
    rcases List.mem_cons.mp hr with rfl | hr
    · exact Instance.wf_sample Config.wf_samples.1 1
    · rcases List.mem_cons.mp hr with rfl | hr
      · exact Instance.wf_sample Config.wf_samples.1 1
      · rw [List.mem_singleton.mp hr]; exact Instance.wf_sample Config.wf_samples.2.2 2
  refine (C10_same _ (inv_build _ hw).wf).2 fun h => ?_
  have : ∀ p ∈ build [(c!"a", .sample .sampleA 1), (c!"b", .sample .sampleA 1), (c!"b", .sample .sampleC 2)],
    p.2.params.length ≤ 1 := h
  revert this
  decide +kernel

/-- Equal objects whose extractors are in another order -/
example : Sets.eq [(c!"a", ⟨[.sampleC], [(0, .sample .sampleC 1)]⟩), (c!"b", ⟨[], []⟩)]
    [(c!"b", ⟨[], []⟩), (c!"a", ⟨[.sampleC], [(0, .sample .sampleC 1)]⟩)] = .ok true := okIs_iff.mp (by decide +kernel)

/-- Sets with instances for indices without configuration are told apart. -/
example : Sets.eq [(c!"ext", ⟨[.sampleC], [(0, .sample .sampleC 1)]⟩)] [(c!"ext", ⟨[.sampleC], [(0, .sample .sampleC 1), (1, .sample .sampleC 2)]⟩)] =
    .ok false ∧ Sets.eq [(c!"ext", ⟨[.sampleC], [(0, .sample .sampleC 1)]⟩)] [(c!"ext", ⟨[.sampleC], [(0, .sample .sampleC 1)]⟩)] = .ok true :=
  ⟨okIs_iff.mp (by decide +kernel), okIs_iff.mp (by decide +kernel)⟩

/-- Runs that differ in the time stamp only make a difference. -/
example : Sets.eq (build [(c!"ext", .sample .sampleA 1)]) (build [(c!"ext", { Instance.sample .sampleA 1 with timeStamp := .int 2 })]) =
    .ok false := okIs_iff.mp (by decide +kernel)

end MM
