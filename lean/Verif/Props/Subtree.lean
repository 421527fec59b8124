import Verif.Props.Listing

/-!
# Subtrees of dataset trees

Adding a dataset tree below a path of another dataset tree, and deleting everything at a
path (`DatasetTree.add_subtree` and `DatasetTree.delete_subtree`, /repo
dataladmetadatamodel/datasettree.py 66–74).
-/

namespace MM

variable {C : Cfg}

/-- There is a dataset at the path `p` of the dataset tree `i`: a root record is filed there. -/
def DatasetAt (C : Cfg) (w : World) (i : ObjId) (p : List Str) : Prop :=
  ∃ d b, look C w.repo.log w.heap (names (p ++ [rootRecordName])) [] (.mem i) = .found [] d b ∧
    d.kind.isMtree = false

theorem node_formed {L : Log} {h : Heap} (hp : HeapFormed h) {n : Node} {b : Body Node}
    (hv : view C L h n = .ok b) : Formed b := by
  cases n with
  | mem i => exact view_formed hp hv
  | sto r l =>
    rw [view_sto'] at hv
    cases hf : strictFetch C L r l.kind l.ref with
    | error e => rw [hf] at hv; cases hv
    | ok a =>
      rw [hf] at hv; cases hv
      exact (fetch_formed (strictFetch_ok hf).1).map _

/-- Below something that is no tree nothing is found under a name. -/
theorem below_record {L : Log} {h : Heap} (hp : HeapFormed h) {d : Data} (hd : d.kind.isMtree = false)
    (n : Str) (r : List Key) : ∀ (ks : List Key) (t t' : Str) (m : Node) (b : Bool),
    look C L h ks t m = .found t' d b → look C L h (ks ++ .name n :: r) t m = .absent := by
  intro ks
  induction ks with
  | nil =>
    intro t t' m b hx
    cases hv : view C L h m with
    | error e => unfold look at hx; rw [hv] at hx; cases hx
    | ok v =>
      rw [look_nil _ hv] at hx
      cases hx
      refine look_cons_none hv ?_
      cases hg : dget v.kids (.name n) with
      | none => rfl
      | some e => rw [fits_name ((node_formed hp hv).fits _ (mem_of_dget hg))] at hd; cases hd
  | cons k ks ih =>
    intro t t' m b hx
    cases hv : view C L h m with
    | error e => unfold look at hx; rw [hv] at hx; cases hx
    | ok v =>
      rw [look_cons hv] at hx
      rw [List.cons_append, look_cons hv]
      cases hg : dget v.kids k with
      | none => rfl
      | some e =>
        rw [hg] at hx
        simp only at hx ⊢
        cases hc : view C L h e.2 with
        | error _ => rw [hc] at hx; cases hx
        | ok b' =>
          rw [hc] at hx
          simp only at hx ⊢
          by_cases hb : k = .ft ∧ b'.blank = true
          · rw [if_pos hb]
          · rw [if_neg hb] at hx ⊢
            exact ih _ _ _ _ hx

/-- `path in tree` is true where there is a dataset, for every tree, in memory or stored, unless an
inner node has the name under which the code files root records, see `C15_false`. -/
theorem C60_contains {w w' : World} (hs : Fine C w) {i : ObjId} (hi : i < w.next) {p : List Str}
    (hin : ∀ d b, look C w.repo.log w.heap (names (p ++ [rootRecordName])) [] (.mem i) = .found [] d b →
      d.kind.isMtree = false) {b : Bool} (hc : hasDataset C i p w = (.ok b, w')) :
    b = true ↔ DatasetAt C w i p := by
  unfold hasDataset at hc
  obtain ⟨c, w1, h3, h4⟩ := M.bind_ok hc
  cases h4
  obtain ⟨_, _, _, g1, g2⟩ := C11_lookup hs hi (p ++ [rootRecordName])
  rw [h3] at g1 g2
  have hl := getObjectAt_any (p ++ [rootRecordName]) hs hi
  rw [h3] at hl
  cases c with
  | none =>
    refine ⟨(fun h => by cases h), ?_⟩
    rintro ⟨d, b, g, _⟩
    rw [g2 rfl] at g
    cases g
  | some j =>
    refine ⟨fun _ => ?_, fun _ => rfl⟩
    have g3 := g1 j rfl []
    obtain ⟨b', hb⟩ := view_ok_of_look (hl.fine.all j [] [])
    rw [List.append_nil, ← hl.log, look_nil [] hb, hl.log] at g3
    exact ⟨_, _, g3, hin _ _ g3⟩

/-- Where something can be added, there was nothing, at the path and below. -/
theorem added_free {w w' : World} (hs : Fine C w) {i child : ObjId} (hi : i < w.next)
    (hk : (w.heap i).kind.isMtree = true) {p : List Str} (hp : ∀ n ∈ p, CompOk n)
    (h : addChildAt C child p i w = (.ok (), w')) (ks : List Key) :
    look C w.repo.log w.heap (names p ++ ks) [] (.mem i) = .absent := by
  obtain ⟨w1, q, n, rest, m, rfl, hl, ha⟩ := addChildAt_ok p hp hs hi hk h
  have := ha.look_free (C := C) hl.fine (names rest ++ ks)
  rw [hl.content i hi]
  have e : names (q ++ n :: rest) ++ ks = names (q ++ [n]) ++ (names rest ++ ks) := by
    rw [← List.append_assoc, ← names_append]; simp
  rw [e]; exact this

/-- C60: after a dataset tree was added below `p`, the datasets are those that were there and the
datasets of the added tree, with `p` in front. -/
theorem C60_added {w w' : World} (hs : Fine C w) {i sub : ObjId} (hi : i < w.next)
    (hc : sub < w.next) (hk : (w.heap i).kind.isMtree = true) (hck : (w.heap sub).kind.isMtree = true)
    (hone : OnePath w.heap i) (hca : Apart w.heap sub i) {p : List Str} (hp : ∀ n ∈ p, CompOk n)
    (h : addSubtree C i sub p w = (.ok (), w')) :
    (∀ q, DatasetAt C w' i q ↔ (∃ s, q = p ++ s ∧ DatasetAt C w sub s) ∨ DatasetAt C w i q) ∧
      (∀ s, ¬ DatasetAt C w i (p ++ s)) ∧
      (∀ s ks, look C w'.repo.log w'.heap (names (p ++ s ++ [rootRecordName]) ++ ks) [] (.mem i) =
        look C w.repo.log w.heap (names (s ++ [rootRecordName]) ++ ks) [] (.mem sub)) ∧
      (∀ q, DatasetAt C w i q → ∀ ks,
        look C w'.repo.log w'.heap (names (q ++ [rootRecordName]) ++ ks) [] (.mem i) =
          look C w.repo.log w.heap (names (q ++ [rootRecordName]) ++ ks) [] (.mem i)) ∧
      getObjectAt C p i w' = (.ok (some sub), w') ∧ w'.repo.log = w.repo.log := by
  unfold addSubtree at h
  have hfree := added_free hs hi hk hp h
  obtain ⟨h1, h2, h3, h4, _, h6, _⟩ := C11_added hs hi hc hk hone hca hp h
  have hbelow : ∀ s ks, look C w'.repo.log w'.heap (names (p ++ s ++ [rootRecordName]) ++ ks) [] (.mem i) =
      look C w.repo.log w.heap (names (s ++ [rootRecordName]) ++ ks) [] (.mem sub) := by
    intro s ks
    rw [List.append_assoc, names_append, List.append_assoc, h1]
  have hnone : ∀ s, ¬ DatasetAt C w i (p ++ s) := by
    rintro s ⟨d, b, g, _⟩
    rw [List.append_assoc, names_append, hfree] at g
    cases g
  -- a dataset before: neither below the path, nor on the way to it
  have hout : ∀ q, DatasetAt C w i q → ∀ ks, (¬ p <+: q ++ [rootRecordName]) ∧
      ¬ names p <+: names (q ++ [rootRecordName]) ++ ks ∧
      ∀ a, a <+: p → names (q ++ [rootRecordName]) ++ ks ≠ names a := by
    rintro q ⟨d, b, g, g'⟩ ks
    have hmt : ∀ t, p = (q ++ [rootRecordName]) ++ t → False := by
      rintro t rfl
      cases t with
      | nil =>
        have := hfree []
        rw [List.append_nil, List.append_nil, g] at this
        cases this
      | cons y t =>
        obtain ⟨leaf, _, g2⟩ := h2 (q ++ [rootRecordName]) (y :: t) rfl (by simp)
        rw [g2 _ _ g] at g'
        cases g'
    have hnp : ¬ p <+: q ++ [rootRecordName] := by
      rintro ⟨t, ht⟩
      rw [← ht, names_append, hfree] at g
      cases g
    refine ⟨hnp, ?_, ?_⟩
    · rintro ⟨t, ht⟩
      rcases List.append_eq_append_iff.mp ht with ⟨z, g1, _⟩ | ⟨z, g1, _⟩
      · exact hnp (names_prefix ⟨z, g1.symm⟩)
      · obtain ⟨q1, q2, e1, e2, _⟩ := names_append_eq g1
        exact hmt q2 (by rw [e1, ← names_injective e2])
    · rintro a ⟨z, rfl⟩ heq
      obtain ⟨q1, q2, e1, e2, _⟩ := names_append_eq heq.symm
      exact hmt (q2 ++ z) (by rw [e1, ← names_injective e2, List.append_assoc])
  refine ⟨?_, hnone, hbelow, ?_, h4, h6⟩
  · intro q
    constructor
    · rintro ⟨d, b, g, g'⟩
      by_cases hpre : p <+: q ++ [rootRecordName]
      · left
        by_cases hpq : p <+: q
        · obtain ⟨s, rfl⟩ := hpq
          refine ⟨s, rfl, d, b, ?_, g'⟩
          have := hbelow s []
          rw [List.append_nil, List.append_nil] at this
          rw [← this]; exact g
        · exfalso
          have he : p = q ++ [rootRecordName] := by
            rcases List.prefix_concat_iff.mp hpre with he | he
            · exact he
            · exact absurd he hpq
          have := h1 []
          rw [List.append_nil, he, g] at this
          obtain ⟨b', hb⟩ := view_ok_of_look (hs.all sub [] [])
          rw [look_nil [] hb] at this
          cases this
          rw [view_class hb] at g'
          rw [hck] at g'
          cases g'
      · right
        refine ⟨d, b, ?_, g'⟩
        rw [← h3 _ (fun hx => hpre (names_prefix hx)) ?_]
        · exact g
        · intro a ha heq
          have := names_injective heq
          subst this
          obtain ⟨t, ht⟩ := ha
          have htne : t ≠ [] := by
            rintro rfl
            rw [List.append_nil] at ht
            exact hpre ⟨[], by rw [ht, List.append_nil]⟩
          obtain ⟨leaf, g2, _⟩ := h2 _ t ht.symm htne
          rw [g] at g2
          cases g2
          cases g'
    · rintro (⟨s, rfl, d, b, g, g'⟩ | hq)
      · refine ⟨d, b, ?_, g'⟩
        have := hbelow s []
        rw [List.append_nil, List.append_nil] at this
        rw [this]; exact g
      · obtain ⟨_, n2, n3⟩ := hout q hq []
        rw [List.append_nil] at n2 n3
        obtain ⟨d, b, g, g'⟩ := hq
        exact ⟨d, b, by rw [h3 _ n2 n3]; exact g, g'⟩
  · intro q hq ks
    obtain ⟨_, n2, n3⟩ := hout q hq ks
    exact h3 _ n2 n3

/-- C60: after everything at `p` was deleted, the datasets are those that are neither at `p` nor
below, with their records as before. -/
theorem C60_deleted {w w' : World} (hs : Fine C w) {i : ObjId} (hi : i < w.next)
    (hone : OnePath w.heap i) {p : List Str} (h : deleteSubtree C i p w = (.ok (), w')) :
    (∀ q, DatasetAt C w' i q ↔ DatasetAt C w i q ∧ ¬ p <+: q ++ [rootRecordName]) ∧
      (∀ q, DatasetAt C w' i q → ∀ ks,
        look C w'.repo.log w'.heap (names (q ++ [rootRecordName]) ++ ks) [] (.mem i) =
          look C w.repo.log w.heap (names (q ++ [rootRecordName]) ++ ks) [] (.mem i)) ∧
      w'.repo.log = w.repo.log := by
  unfold deleteSubtree at h
  obtain ⟨q0, n, rfl, h0, h1, ⟨leaf, b0, h2, h3, _⟩, h4, _, h6, _⟩ := C13_removed hs hi hone h
  have hsame : ∀ q d b, d.kind.isMtree = false →
      (look C w'.repo.log w'.heap (names (q ++ [rootRecordName])) [] (.mem i) = .found [] d b ∨
        look C w.repo.log w.heap (names (q ++ [rootRecordName])) [] (.mem i) = .found [] d b) →
      names (q ++ [rootRecordName]) ≠ names q0 := by
    rintro q d b hd hq he
    rw [he, h2, h3] at hq
    rcases hq with hq | hq <;> cases hq <;> cases hd
  have hat : ∀ q, DatasetAt C w' i q ↔ DatasetAt C w i q ∧ ¬ (q0 ++ [n]) <+: q ++ [rootRecordName] := by
    intro q
    constructor
    · rintro ⟨d, b, g, g'⟩
      have hnp : ¬ (q0 ++ [n]) <+: q ++ [rootRecordName] := by
        rintro ⟨t, ht⟩
        rw [← ht, names_append, h1] at g
        cases g
      refine ⟨⟨d, b, ?_, g'⟩, hnp⟩
      rw [← h4 _ (fun hx => hnp (names_prefix hx)) (hsame q d b g' (Or.inl g))]
      exact g
    · rintro ⟨⟨d, b, g, g'⟩, hnp⟩
      refine ⟨d, b, ?_, g'⟩
      rw [h4 _ (fun hx => hnp (names_prefix hx)) (hsame q d b g' (Or.inr g))]
      exact g
  refine ⟨hat, ?_, h6⟩
  rintro q hq ks
  obtain ⟨⟨d, b, g, g'⟩, hnp⟩ := (hat q).mp hq
  refine h4 _ ?_ ?_
  · rintro ⟨t, ht⟩
    rcases List.append_eq_append_iff.mp ht with ⟨z, g1, _⟩ | ⟨z, g1, _⟩
    · exact hnp (names_prefix ⟨z, g1.symm⟩)
    · obtain ⟨q1, q2, e1, e2, _⟩ := names_append_eq g1
      have e3 := names_injective e2
      subst e3
      cases q2 with
      | nil => exact hnp ⟨[], by rw [e1]; simp⟩
      | cons y q2 =>
        apply h0
        rw [e1, names_append]
        exact below_record hs.plain g' y (names q2) _ _ _ _ _ g
  · intro heq
    obtain ⟨q1, q2, e1, e2, e3⟩ := names_append_eq heq.symm
    have e4 := names_injective e2
    subst e4
    cases q2 with
    | nil =>
      rw [List.append_nil] at e1
      exact hsame q d b g' (Or.inr g) (by rw [e1])
    | cons y q2 =>
      rw [e1, names_append, show names (y :: q2) = .name y :: names q2 from rfl,
        below_record hs.plain g' y (names q2) _ _ _ _ _ g] at h2
      cases h2

/-- C60: after a dataset tree was added below `p`, listing the datasets gives those that were there
and those of the added tree with `p` in front, each once. -/
theorem C60_added_listed {w w' w'' : World} (hs : Fine C w) {i sub : ObjId} (hi : i < w.next)
    (hc : sub < w.next) (hk : (w.heap i).kind.isMtree = true) (hck : (w.heap sub).kind.isMtree = true)
    (hone : OnePath w.heap i) (hones : OnePath w.heap sub) (hca : Apart w.heap sub i)
    (hac : Apart w.heap i sub) (hg : GoodNames C w i) (hgs : GoodNames C w sub)
    {p : List Str} (hp : ∀ n ∈ p, CompOk n) (h : addSubtree C i sub p w = (.ok (), w')) {n : Nat}
    {l : List (PPath × ObjId)} (hl : datasetPaths C n i w' = (.ok l, w'')) :
    (l.map Prod.fst).Nodup ∧
      (∀ q, q ∈ l.map Prod.fst ↔ q.root = [] ∧
        ((∃ s, q.comps = p ++ s ∧ DatasetAt C w sub s) ∨ DatasetAt C w i q.comps)) ∧
      ∀ e ∈ l, (∀ s, e.1.comps = p ++ s → ∀ ks,
          look C w''.repo.log w''.heap ks [] (.mem e.2) =
            look C w.repo.log w.heap (names (s ++ [rootRecordName]) ++ ks) [] (.mem sub)) ∧
        (¬ p <+: e.1.comps → ∀ ks, look C w''.repo.log w''.heap ks [] (.mem e.2) =
          look C w.repo.log w.heap (names (e.1.comps ++ [rootRecordName]) ++ ks) [] (.mem i)) := by
  obtain ⟨a1, a2, a3, a4, _, _⟩ := C60_added hs hi hc hk hck hone hca hp h
  unfold addSubtree at h
  have hfree := added_free hs hi hk hp h
  obtain ⟨h1, h2, h3, _, _, h6, _⟩ := C11_added hs hi hc hk hone hca hp h
  obtain ⟨f1, f2, f3, _, _⟩ := C11_again hs hi hc hk hone hones hca hac hp h
  have hg' : GoodNames C w' i := by
    intro q d b hq m hm
    by_cases h5 : p <+: q
    · obtain ⟨r, rfl⟩ := h5
      rw [names_append, h1] at hq
      rcases List.mem_append.mp hm with hm | hm
      · exact hp m hm
      · exact hgs r d b hq m hm
    · by_cases h6 : q <+: p
      · exact hp m (h6.subset hm)
      · rw [h3 (names q) (fun hx => h5 (names_prefix hx))
          (fun a ha he => h6 (by rw [names_injective he]; exact ha))] at hq
        exact hg q d b hq m hm
  obtain ⟨g1, g2, g3⟩ := C15_elements_partial f1 (Nat.lt_of_lt_of_le hi f2) (by rw [f3 i hi]; exact hk) hg' hl
  have hmem : ∀ q, q ∈ l.map Prod.fst ↔ q.root = [] ∧
      ((∃ s, q.comps = p ++ s ∧ DatasetAt C w sub s) ∨ DatasetAt C w i q.comps) := fun q => by
    rw [g2, ← a1 q.comps]; rfl
  refine ⟨g1, hmem, ?_⟩
  intro e he
  refine ⟨?_, ?_⟩
  · intro s hes ks
    rw [← g3 e he ks, hes, a3]
  · intro hnp ks
    rw [← g3 e he ks]
    rcases ((hmem e.1).mp (List.mem_map_of_mem he)).2 with ⟨s, e1, _⟩ | hd
    · exact absurd ⟨s, e1.symm⟩ hnp
    · exact a4 _ hd ks

/-- C60: after everything at `p` was deleted, listing the datasets gives those that are neither at
`p` nor below, each once and with its record. -/
theorem C60_deleted_listed {w w' w'' : World} (hs : Fine C w) {i : ObjId} (hi : i < w.next)
    (hk : (w.heap i).kind.isMtree = true) (hone : OnePath w.heap i) (hg : GoodNames C w i)
    {p : List Str} (h : deleteSubtree C i p w = (.ok (), w')) {n : Nat}
    {l : List (PPath × ObjId)} (hl : datasetPaths C n i w' = (.ok l, w'')) :
    (l.map Prod.fst).Nodup ∧
      (∀ q, q ∈ l.map Prod.fst ↔
        q.root = [] ∧ DatasetAt C w i q.comps ∧ ¬ p <+: q.comps ++ [rootRecordName]) ∧
      ∀ e ∈ l, ∀ ks, look C w''.repo.log w''.heap ks [] (.mem e.2) =
        look C w.repo.log w.heap (names (e.1.comps ++ [rootRecordName]) ++ ks) [] (.mem i) := by
  obtain ⟨a1, a2, _⟩ := C60_deleted hs hi hone h
  unfold deleteSubtree at h
  obtain ⟨f1, f2, f3, _, _⟩ := C13_again hs hi h
  have hg' : GoodNames C w' i := by
    intro q d b hq m hm
    obtain ⟨_, b', hb⟩ := removed_found hs hi hone h hq
    exact hg q d b' hb m hm
  obtain ⟨g1, g2, g3⟩ := C15_elements_partial f1 (Nat.lt_of_lt_of_le hi f2) (by rw [f3 i hi]; exact hk) hg' hl
  have hmem : ∀ q, q ∈ l.map Prod.fst ↔ q.root = [] ∧ DatasetAt C w' i q.comps := g2
  refine ⟨g1, fun q => by rw [hmem, a1], ?_⟩
  intro e he ks
  rw [← g3 e he ks]
  exact a2 _ ((hmem e.1).mp (List.mem_map_of_mem he)).2 ks

/-- C60: when git works, a dataset tree can be added below `p` unless something is at `p` or a
root record is on the way, and everything at `p` can be deleted if something is there.  Calls that
fail change nothing. -/
theorem C60_fails {w : World} (hs : Fine C w) {i sub : ObjId} (hi : i < w.next)
    (hk : (w.heap i).kind.isMtree = true) {p : List Str} (hp : ∀ n ∈ p, CompOk n) :
    (w.repo.faults = [] → ((∃ e, (addSubtree C i sub p w).1 = .error e) ↔ p = [] ∨ Blocked C w i p)) ∧
      (w.repo.faults = [] → ((∃ e, (deleteSubtree C i p w).1 = .error e) ↔
        p = [] ∨ look C w.repo.log w.heap (names p) [] (.mem i) = .absent)) ∧
      (∀ e w', addSubtree C i sub p w = (.error e, w') → w'.repo.log = w.repo.log ∧
        ∀ j, j < w.next → SameContent C w.repo.log w.heap (.mem j) w'.repo.log w'.heap (.mem j)) ∧
      ∀ e w', deleteSubtree C i p w = (.error e, w') → w'.repo.log = w.repo.log ∧
        ∀ j, j < w.next → SameContent C w.repo.log w.heap (.mem j) w'.repo.log w'.heap (.mem j) := by
  refine ⟨fun hf => C12_fails_iff hs hf hi hk hp, fun hf => C13_fails_iff hs hf hi p, ?_, ?_⟩
  · intro e w' h
    have hl := addChildAt_error p hp hs hi h
    exact ⟨hl.log, hl.content⟩
  · intro e w' h
    obtain ⟨h1, h2⟩ := C13_failed hs hi h
    exact ⟨h2, h1⟩

/-! ### Examples -/

/-- Two dataset trees (9 and 10) with a dataset at their roots -/
def twoTrees : World := populate (start ⟨[], []⟩) (sampleBodies ++
  [⟨.mtree .mrr, [(.name rootRecordName, [], 4)]⟩, ⟨.mtree .mrr, [(.name rootRecordName, [], 4)]⟩])

theorem twoTrees_fine : Fine sampleCfg twoTrees := by
  have h : Session sampleCfg sampleRealm twoTrees :=
    (session_populate _ (session_start ⟨[], []⟩) (fun _ => rfl) (by decide)).1
  refine (h.sane (by decide)).fine (by decide) ?_
  refine AllFormed.populate _ (AllFormed.start _) ?_
  intro b hb
  rcases List.mem_append.mp hb with hb | hb
  · exact sampleBodies_formed b hb
  · simp only [List.mem_cons, List.not_mem_nil, or_false] at hb
    rcases hb with rfl | rfl <;> exact formed_of_check (by decide)

/-- A tree of one node with records only -/
theorem flat_leads {w : World} (hs : Fine C w) {i j : ObjId} (hflat : ∀ e ∈ (w.heap i).body.kids,
    (w.heap e.2.2).kind.isMtree = false) {q : List Str} (h : Leads w.heap i (names q) j)
    (hj : (w.heap j).kind.isMtree = true) : q = [] ∧ j = i := by
  cases q with
  | nil => cases h; exact ⟨rfl, rfl⟩
  | cons n q =>
    exfalso
    cases h with
    | cons t c hm hd h =>
      have hc := hflat _ (mem_of_dget hd)
      rw [(leads_leaf hs hc h).2, hc] at hj
      cases hj

/-- The hypotheses of the theorems on C60 hold where the second tree is added to the first, and the
added part is deleted again. -/
example : ∃ w w', Fine sampleCfg twoTrees ∧ 9 < twoTrees.next ∧ 10 < twoTrees.next ∧
    (twoTrees.heap 9).kind.isMtree = true ∧ (twoTrees.heap 10).kind.isMtree = true ∧
    OnePath twoTrees.heap 9 ∧ OnePath twoTrees.heap 10 ∧ Apart twoTrees.heap 10 9 ∧ Apart twoTrees.heap 9 10 ∧
    GoodNames sampleCfg twoTrees 9 ∧ GoodNames sampleCfg twoTrees 10 ∧
    (∀ n ∈ [c!"x", c!"y"], CompOk n) ∧ addSubtree sampleCfg 9 10 [c!"x", c!"y"] twoTrees = (.ok (), w) ∧
    (∃ w2, datasetPaths sampleCfg 20 9 w = (.ok [(⟨[], []⟩, 4), (⟨[], [c!"x", c!"y"]⟩, 4)], w2)) ∧
    Fine sampleCfg w ∧ OnePath w.heap 9 ∧ deleteSubtree sampleCfg 9 [c!"x"] w = (.ok (), w') ∧
    ∃ w2, datasetPaths sampleCfg 20 9 w' = (.ok [(⟨[], []⟩, 4)], w2) := by
  have hs := twoTrees_fine
  have e9 : (twoTrees.heap 9).body.kids = [(.name rootRecordName, [], 4)] := by decide +kernel
  have e10 : (twoTrees.heap 10).body.kids = [(.name rootRecordName, [], 4)] := by decide +kernel
  have f9 : ∀ e ∈ (twoTrees.heap 9).body.kids, (twoTrees.heap e.2.2).kind.isMtree = false := by
    decide +kernel
  have f10 : ∀ e ∈ (twoTrees.heap 10).body.kids, (twoTrees.heap e.2.2).kind.isMtree = false := by
    decide +kernel
  have self : ∀ i, (∀ e ∈ (twoTrees.heap i).body.kids, (twoTrees.heap e.2.2).kind.isMtree = false) →
      OnePath twoTrees.heap i := by
    intro i hf q ks j h1 h2 h3
    obtain ⟨rfl, rfl⟩ := flat_leads hs hf h1 h2
    cases ks with
    | nil => rfl
    | cons k ks =>
      exfalso
      obtain ⟨rank, hrk⟩ := hs.ranked
      cases h3 with
      | cons t c hm hd h3 =>
        have h5 := hrk _ hm c (dget_sub hd)
        rcases h3.reach.rank hrk with rfl | h4
        · exact absurd h5 (Nat.lt_irrefl _)
        · omega
  have away : ∀ a i, (∀ e ∈ (twoTrees.heap i).body.kids, (twoTrees.heap e.2.2).kind.isMtree = false) →
      ¬ Reach twoTrees.heap a i → Apart twoTrees.heap a i := by
    intro a i hf hr q j h1 h2
    obtain ⟨rfl, rfl⟩ := flat_leads hs hf h1 h2
    exact hr
  have reach : ∀ a i, 8 < a → 8 < i → a ≠ i → (twoTrees.heap a).body.subs = [4] → ¬ Reach twoTrees.heap a i := by
    intro a i _ hi hne hsub hr
    cases hr with
    | refl => exact hne rfl
    | step _ k _ _ hk hr =>
      rw [hsub] at hk
      cases List.mem_singleton.mp hk
      have : i < 5 := reach_closed (S := fun p => p < 5) (by
        intro p hp _ k hk
        have : ∀ p, p < 5 → ∀ k ∈ (twoTrees.heap p).body.subs, k < 5 := by decide +kernel
        exact this p hp k hk) hr (by decide)
      oomega
  have h4 := solid_leaf hs (i := 4) (by decide +kernel)
  have g : ∀ i, (twoTrees.heap i).mapped = true → (twoTrees.heap i).body.kids = [(.name rootRecordName, [], 4)] →
      GoodNames sampleCfg twoTrees i := by
    intro i hm e
    refine (solid_node hs (n := 1) hm (by rw [e]; simp) ?_).2
    rw [e]
    intro x hx
    cases List.mem_singleton.mp hx
    exact ⟨⟨by decide, by decide, by decide⟩, h4⟩
  have hp : ∀ n ∈ [c!"x", c!"y"], CompOk n := by
    intro n hn
    simp only [List.mem_cons, List.not_mem_nil, or_false] at hn
    exact compOk_some hn
  have h1 : addSubtree sampleCfg 9 10 [c!"x", c!"y"] twoTrees = (.ok (), _) := of_isOk_unit (by decide +kernel)
  obtain ⟨a1, _, _, a4, _⟩ := C11_again hs (i := 9) (child := 10) (by decide +kernel) (by decide +kernel)
    (by decide +kernel) (self 9 f9) (self 10 f10) (away 10 9 f9 (reach 10 9 (by decide) (by decide) (by decide) (by decide +kernel)))
    (away 9 10 f10 (reach 9 10 (by decide) (by decide) (by decide) (by decide +kernel))) hp h1
  exact ⟨_, _, hs, by decide +kernel, by decide +kernel, by decide +kernel, by decide +kernel,
    self 9 f9, self 10 f10, away 10 9 f9 (reach 10 9 (by decide) (by decide) (by decide) (by decide +kernel)),
    away 9 10 f10 (reach 9 10 (by decide) (by decide) (by decide) (by decide +kernel)),
    g 9 (by decide +kernel) e9, g 10 (by decide +kernel) e10, hp, h1,
    ⟨_, of_okVal (by decide +kernel)⟩, a1, a4, of_isOk_unit (by decide +kernel), _, of_okVal (by decide +kernel)⟩

end MM
