/-
C11, C12 and C13: looking up, adding and removing elements of trees.

`look C L h ks [] (.mem i)` in `Content.lean` says what is found by following the keys
`ks` from the object `i`; the keys of a path in a tree are `names p`.

Hypotheses: `Fine` holds of every process whose objects were built by their classes;
`OnePath w.heap i`: no node of the tree is used at a second place in the tree;
`Apart w.heap a i`: the object `a` does not contain nodes of the tree.  Where the first
two do not hold, a change at one path shows at other paths.
-/
import Verif.TreeRemove
import Verif.Listing
import Verif.Built

namespace MM

variable {C : Cfg}

/-! ### Lookup -/

/-- A lookup gives the object that holds the content at the path, or nothing if there
is nothing at the path; it changes no content and writes nothing, whether nodes have
to be loaded or not, and whether git fails or not. -/
theorem C11_lookup {w : World} (hs : Fine C w) {i : ObjId} (hi : i < w.next) (p : List Str) :
    (∀ j, j < w.next → SameContent C w.repo.log w.heap (.mem j)
        (getObjectAt C p i w).2.repo.log (getObjectAt C p i w).2.heap (.mem j)) ∧
      (getObjectAt C p i w).2.repo.log = w.repo.log ∧
      (w.repo.faults = [] → ∃ res, (getObjectAt C p i w).1 = .ok res) ∧
      (∀ j, (getObjectAt C p i w).1 = .ok (some j) →
        ∀ ks, look C w.repo.log w.heap (names p ++ ks) [] (.mem i) =
          look C w.repo.log (getObjectAt C p i w).2.heap ks [] (.mem j)) ∧
      ((getObjectAt C p i w).1 = .ok none →
        look C w.repo.log w.heap (names p) [] (.mem i) = .absent) := by
  have hl := getObjectAt_any p hs hi
  refine ⟨hl.content, hl.log, ?_, ?_, ?_⟩
  · intro hf
    obtain ⟨r, w', h, _⟩ := getObjectAt_total p hs hf hi
    exact ⟨r, by rw [h]⟩
  · intro j hj ks
    have h : getObjectAt C p i w = (.ok (some j), (getObjectAt C p i w).2) := by rw [← hj]
    obtain ⟨h1, _⟩ := getObjectAt_some p hs hi h
    rw [hl.content i hi (names p ++ ks) [], h1.look hl.fine.plain, hl.log]
  · intro hn
    have h : getObjectAt C p i w = (.ok none, (getObjectAt C p i w).2) := by rw [← hn]
    have := getObjectAt_none p hs hi h []
    rwa [List.append_nil] at this

/-! ### C11 -/

/-- C11: after an element was added at `p`, its content is found at `p`, the nodes
above it are inner nodes, everything else in the tree is as before, the lookup of `p`
gives the element, and objects outside of the tree and the repositories are not
changed. -/
theorem C11_added {w w' : World} (hs : Fine C w) {i child : ObjId} (hi : i < w.next)
    (hc : child < w.next) (hk : (w.heap i).kind.isMtree = true) (hone : OnePath w.heap i)
    (hca : Apart w.heap child i) {p : List Str} (hp : ∀ n ∈ p, CompOk n)
    (h : addChildAt C child p i w = (.ok (), w')) :
    (∀ ks, look C w'.repo.log w'.heap (names p ++ ks) [] (.mem i) =
        look C w.repo.log w.heap ks [] (.mem child)) ∧
      (∀ a b, p = a ++ b → b ≠ [] →
        ∃ leaf, look C w'.repo.log w'.heap (names a) [] (.mem i) = .found [] (.mtree leaf) false ∧
          ∀ d e, look C w.repo.log w.heap (names a) [] (.mem i) = .found [] d e → d = .mtree leaf) ∧
      (∀ ks, ¬ names p <+: ks → (∀ a, a <+: p → ks ≠ names a) →
        look C w'.repo.log w'.heap ks [] (.mem i) = look C w.repo.log w.heap ks [] (.mem i)) ∧
      getObjectAt C p i w' = (.ok (some child), w') ∧
      (∀ j, j < w.next → Apart w.heap j i →
        SameContent C w.repo.log w.heap (.mem j) w'.repo.log w'.heap (.mem j)) ∧
      w'.repo.log = w.repo.log ∧ w'.caches = w.caches := by
  obtain ⟨w1, q, n, rest, m, rfl, hl, ha⟩ := addChildAt_ok p hp hs hi hk h
  have hi1 : i < w1.next := Nat.lt_of_lt_of_le hi hl.next
  have hc1 : child < w1.next := Nat.lt_of_lt_of_le hc hl.next
  have hone1 := hl.onePath i hi hone
  have hcm : ¬ Reach w1.heap child m := hl.apart child i hc hi hca q m ha.lead ha.tree
  refine ⟨?_, ?_, ?_, ?_, ?_, ha.log.trans hl.log, ha.caches.trans hl.caches⟩
  · intro ks
    rw [ha.look_added hl.fine hi1 hc1 hcm, hl.content child hc]
  · intro a b he hb
    obtain ⟨leaf, h1, h2⟩ := ha.look_prefix (C := C) hl.fine hi1 he hb
    refine ⟨leaf, h1, fun d e hde => h2 d e ?_⟩
    rw [← hl.content i hi]; exact hde
  · intro ks h1 h2
    rw [ha.look_other hl.fine hi1 hone1 ks h1 h2, hl.content i hi]
  · exact getObjectAt_leads (ha.formed hl.fine) (ha.leads_added hl.fine hi1)
  · intro j hj hap
    have hj1 : j < w1.next := Nat.lt_of_lt_of_le hj hl.next
    exact (hl.content j hj).trans
      (ha.content hl.fine hj1 (hl.apart j i hj hi hap q m ha.lead ha.tree))

/-- The hypotheses of C11 hold again after an element was added, so that elements can
be added one after the other. -/
theorem C11_again {w w' : World} (hs : Fine C w) {i child : ObjId} (hi : i < w.next)
    (hc : child < w.next) (hk : (w.heap i).kind.isMtree = true) (hone : OnePath w.heap i)
    (honec : OnePath w.heap child) (hca : Apart w.heap child i) (hac : Apart w.heap i child)
    {p : List Str} (hp : ∀ n ∈ p, CompOk n) (h : addChildAt C child p i w = (.ok (), w')) :
    Fine C w' ∧ w.next ≤ w'.next ∧ (∀ j, j < w.next → (w'.heap j).kind = (w.heap j).kind) ∧
      OnePath w'.heap i ∧
      ∀ a, a < w.next → Apart w.heap a i → Apart w.heap a child → Apart w'.heap a i := by
  obtain ⟨w1, q, n, rest, m, rfl, hl, ha⟩ := addChildAt_ok p hp hs hi hk h
  have hi1 : i < w1.next := Nat.lt_of_lt_of_le hi hl.next
  have hc1 : child < w1.next := Nat.lt_of_lt_of_le hc hl.next
  have hca1 := hl.apart child i hc hi hca
  have hcm : ¬ Reach w1.heap child m := hca1 q m ha.lead ha.tree
  refine ⟨ha.fine hl.fine hi1 hc1 hcm, Nat.le_trans hl.next ha.next_le, ?_, ?_, ?_⟩
  · intro j hj
    have hj1 : j < w1.next := Nat.lt_of_lt_of_le hj hl.next
    rw [← hl.kind j hj]
    by_cases hjm : j = m
    · subst hjm; rw [ha.node]; rfl
    · rw [ha.old j hjm hj1]
  · exact ha.onePath hl.fine hi1 hc1 (hl.onePath i hi hone) (hl.onePath child hc honec) hca1
      (hl.apart i child hi hc hac)
  · intro a hal h1 h2
    exact ha.apart hl.fine hi1 hc1 hca1 (Nat.lt_of_lt_of_le hal hl.next)
      (hl.apart a i hal hi h1) (hl.apart a child hal hc h2)

/-! ### C12 -/

/-- C12: after a failure, whatever the reason, every lookup from every object gives
what it gave before, and nothing is written. -/
theorem C12_failed {w w' : World} (hs : Fine C w) {i child : ObjId} (hi : i < w.next)
    {p : List Str} (hp : ∀ n ∈ p, CompOk n) {e : PyErr}
    (h : addChildAt C child p i w = (.error e, w')) :
    (∀ j, j < w.next → SameContent C w.repo.log w.heap (.mem j) w'.repo.log w'.heap (.mem j)) ∧
      w'.repo.log = w.repo.log ∧
      (∀ j, j < w.next → (w.heap j).kind ≠ .mrr → (w'.heap j).savedOn = (w.heap j).savedOn) := by
  have hl := addChildAt_error p hp hs hi h
  exact ⟨hl.content, hl.log, hl.saved⟩

/-- Something is in the way of an element at the path: an element at a proper prefix, or
anything at the path itself. -/
def Blocked (C : Cfg) (w : World) (i : ObjId) (p : List Str) : Prop :=
  ∃ a b t d e, p = a ++ b ∧ a ≠ [] ∧ look C w.repo.log w.heap (names a) [] (.mem i) = .found t d e ∧
    (b = [] ∨ d.kind.isMtree = false)

theorem addChildAt_blocked {child : ObjId} (p : List Str) : (∀ n ∈ p, CompOk n) → ∀ {i : ObjId}
    {w w' : World} {e : PyErr}, Fine C w → w.repo.faults = [] → i < w.next →
    addChildAt C child p i w = (.error e, w') → p = [] ∨ Blocked C w i p := by
  induction p with
  | nil => intro _ _ _ _ _ _ _ _ _; exact Or.inl rfl
  | cons n p ih =>
    intro hok i w w' er hs hf hi h
    right
    have hn := hok n (List.mem_cons_self ..)
    obtain ⟨r, w1, hg, hre⟩ := getChild_total hs hf i n
    obtain ⟨hl, hm, hr⟩ := getChild_ok hs hi hg
    have hthere : ∀ {t c}, dget (w1.heap i).body.kids (.name n) = some (t, c) →
        ∃ d b, look C w.repo.log w.heap (names [n]) [] (.mem i) = .found [] d b ∧ d.kind = (w1.heap c).kind := by
      intro t c hd
      obtain ⟨b, hb⟩ := view_ok_of_look (hl.fine.all c [] [])
      refine ⟨b.data, b.blank, ?_, view_class hb⟩
      rw [hl.content i hi]
      show look C _ _ (.name n :: []) [] _ = _
      rw [look_name hl.fine.plain hm hd, look_nil [] hb]
    cases hd : dget (w1.heap i).body.kids (.name n) with
    | none =>
      rw [hd] at hr
      subst hr
      cases p with
      | nil =>
        unfold addChildAt at h
        rw [M.bind_of_ok hg] at h
        simp only [Option.map_none] at h
        rw [addChild_free hn hm hd] at h
        cases h
      | cons n2 p =>
        unfold addChildAt at h
        rw [M.bind_of_ok hg] at h
        simp only [Option.map_none] at h
        rw [M.bind_of_ok (getObj_run i w1)] at h
        obtain ⟨k, hkk⟩ : ∃ k, (w1.heap i).kind = k := ⟨_, rfl⟩
        rw [hkk] at h
        have hal : alloc (Obj.new (Body.empty k)) w1 = (.ok w1.next, create (Obj.new (Body.empty k)) w1) := rfl
        rw [M.bind_of_ok hal] at h
        have hi1 : i < w1.next := Nat.lt_of_lt_of_le hi hl.next
        have hne : i ≠ w1.next := by oomega
        have hce : (create (Obj.new (Body.empty k)) w1).heap i = w1.heap i := create_ne _ _ hne
        have hadd := addChild_free (C := C) (w := create (Obj.new (Body.empty k)) w1) (i := i) hn
          (by rw [hce]; exact hm) (by rw [hce]; exact hd) w1.next
        rw [M.bind_of_ok hadd] at h
        obtain ⟨w2, h1, _⟩ := addChildAt_fresh (C := C) (k := k) (child := child) (n2 :: p)
          (by simp) (fun x hx => hok x (List.mem_cons_of_mem _ hx)) (e := w1.next)
          (w := edit i ⟨((create (Obj.new (Body.empty k)) w1).heap i).body.data,
            ((create (Obj.new (Body.empty k)) w1).heap i).body.kids ++ [(.name n, [], w1.next)]⟩
            (create (Obj.new (Body.empty k)) w1)) rfl
          (by rw [edit_ne _ _ (fun h => hne h.symm), create_self])
        rw [h1] at h
        cases h
    | some x =>
      obtain ⟨t, c⟩ := x
      rw [hd] at hr
      subst hr
      obtain ⟨d, b, h1, h2⟩ := hthere hd
      cases p with
      | nil => exact ⟨[n], [], [], d, b, rfl, by simp, h1, Or.inl rfl⟩
      | cons n2 p =>
        unfold addChildAt at h
        rw [M.bind_of_ok hg] at h
        simp only [Option.map_some] at h
        rw [M.bind_of_ok (getObj_run c w1)] at h
        split at h
        · have hcl := hl.fine.kids i hm c (dget_sub hd)
          rcases ih (fun x hx => hok x (List.mem_cons_of_mem _ hx)) hl.fine (by rw [hre]; exact hf) hcl h with
            h0 | ⟨a, b', t', d', e', e1, e2, e3, e4⟩
          · cases h0
          · refine ⟨n :: a, b', t', d', e', by rw [e1]; rfl, by simp, ?_, e4⟩
            rw [hl.content i hi]
            show look C _ _ (.name n :: names a) [] _ = _
            rw [look_name hl.fine.plain hm hd]
            exact e3
        · rename_i hkk
          exact ⟨[n], n2 :: p, [], d, b, rfl, by simp, h1, Or.inr (by rw [h2]; simpa using hkk)⟩

/-- C12: when git works, adding fails exactly when the path is empty, a proper prefix of
it is an element, or something is at the path. -/
theorem C12_fails_iff {w : World} (hs : Fine C w) (hf : w.repo.faults = []) {i child : ObjId}
    (hi : i < w.next) (hk : (w.heap i).kind.isMtree = true) {p : List Str} (hp : ∀ n ∈ p, CompOk n) :
    (∃ e, (addChildAt C child p i w).1 = .error e) ↔ p = [] ∨ Blocked C w i p := by
  constructor
  · rintro ⟨e, h⟩
    exact addChildAt_blocked p hp hs hf hi (w' := (addChildAt C child p i w).2) (e := e) (by rw [← h])
  · intro hb
    cases hr : addChildAt C child p i w with
    | mk r w' =>
      cases r with
      | error e => exact ⟨e, rfl⟩
      | ok u =>
        exfalso
        obtain ⟨w1, q, n, rest, m, e0, hl, ha⟩ := addChildAt_ok p hp hs hi hk hr
        have hi1 : i < w1.next := Nat.lt_of_lt_of_le hi hl.next
        rcases hb with h0 | ⟨a, b, t, d, e, e1, e2, e3, e4⟩
        · rw [h0] at e0; simp at e0
        · rw [hl.content i hi] at e3
          rw [e0] at e1
          rcases List.append_eq_append_iff.mp e1 with ⟨z, g1, g2⟩ | ⟨z, g1, g2⟩
          · cases z with
            | nil =>
              rw [List.append_nil] at g1
              rw [g1] at e3
              have hL := ha.lead.look (C := C) (L := w1.repo.log) hl.fine.plain []
              rw [List.append_nil] at hL
              rw [hL, look_self ha.mapped] at e3
              injection e3 with _ e5
              rcases e4 with e4 | e4
              · rw [e4] at g2; simp at g2
              · have := ha.tree
                unfold Obj.kind at this
                rw [← e5, this] at e4
                cases e4
            | cons y z =>
              injection g2 with g2 g3
              subst g2
              have hfree := ha.look_free (C := C) hl.fine (names z)
              rw [g1] at e3
              have e6 : names (q ++ n :: z) = names (q ++ [n]) ++ names z := by
                rw [← names_append]; simp
              rw [e6, hfree] at e3
              cases e3
          · subst g1
            have hlead := ha.lead
            rw [names_append] at hlead
            obtain ⟨c2, k1, k2⟩ := hlead.split
            have hL := k1.look (C := C) (L := w1.repo.log) hl.fine.plain []
            rw [List.append_nil] at hL
            have hbne : b ≠ [] := by
              rintro rfl; simp at g2
            rcases e4 with e4 | e4
            · exact hbne e4
            · have hc2 : (w1.heap c2).mapped = true ∧ (w1.heap c2).kind.isMtree = true := by
                cases z with
                | nil => cases k2; exact ⟨ha.mapped, ha.tree⟩
                | cons y z =>
                  cases k2 with
                  | cons t2 c3 hm2 hd2 _ =>
                    exact ⟨hm2, fits_name ((hl.fine.formed c2 hm2).fits _ (mem_of_dget hd2))⟩
              rw [hL, look_self hc2.1] at e3
              injection e3 with _ e5
              have := hc2.2
              unfold Obj.kind at this
              rw [← e5, this] at e4
              cases e4

/-! ### C13 -/

/-- C13: after a removal at `p`, nothing is found at `p` and below, the node that held
the element is still a node and empty only if it held nothing else, and everything
else is as before. -/
theorem C13_removed {w w' : World} (hs : Fine C w) {i : ObjId} (hi : i < w.next)
    (hone : OnePath w.heap i) {p : List Str} (h : removeChildAt C p i w = (.ok (), w')) :
    ∃ q n, p = q ++ [n] ∧ look C w.repo.log w.heap (names p) [] (.mem i) ≠ .absent ∧
      (∀ ks, look C w'.repo.log w'.heap (names p ++ ks) [] (.mem i) = .absent) ∧
      (∃ leaf b, look C w.repo.log w.heap (names q) [] (.mem i) = .found [] (.mtree leaf) false ∧
        look C w'.repo.log w'.heap (names q) [] (.mem i) = .found [] (.mtree leaf) b ∧
        (b = false ↔ ∃ k, k ≠ n ∧ look C w.repo.log w.heap (names (q ++ [k])) [] (.mem i) ≠ .absent)) ∧
      (∀ ks, ¬ names p <+: ks → ks ≠ names q →
        look C w'.repo.log w'.heap ks [] (.mem i) = look C w.repo.log w.heap ks [] (.mem i)) ∧
      (∀ j, j < w.next → Apart w.heap j i →
        SameContent C w.repo.log w.heap (.mem j) w'.repo.log w'.heap (.mem j)) ∧
      w'.repo.log = w.repo.log ∧ w'.caches = w.caches := by
  rcases removeChildAt_cases hs hi h with ⟨_, e, he⟩ | ⟨w1, q, n, m, rfl, hl, hml, ⟨_, hr⟩ | ⟨he, _⟩⟩
  · cases he
  · have hi1 : i < w1.next := Nat.lt_of_lt_of_le hi hl.next
    refine ⟨q, n, rfl, ?_, ?_, ?_, ?_, ?_, hr.fewer.log.trans hl.log, hr.fewer.caches.trans hl.caches⟩
    · rw [hl.content i hi, names_append, hr.lead.look hl.fine.plain]
      cases hd : dget (w1.heap m).body.kids (.name n) with
      | none => exact absurd hd hr.had
      | some x =>
        show look C _ _ (.name n :: []) [] _ ≠ _
        rw [look_name hl.fine.plain hr.mapped hd]
        obtain ⟨b, hb⟩ := view_ok_of_look (hl.fine.all x.2 [] [])
        rw [look_nil [] hb]
        simp
    · exact hr.look_removed hl.fine
    · obtain ⟨leaf, b, h1, h2, h3⟩ := hr.look_node (C := C) hl.fine
      refine ⟨leaf, b, by rw [hl.content i hi]; exact h1, h2, ?_⟩
      rw [h3]
      simp only [hl.content i hi _ _]
    · intro ks h1 h2
      rw [hr.look_other hl.fine hi1 (hl.onePath i hi hone) ks h1 h2, hl.content i hi]
    · intro j hj hap
      exact (hl.content j hj).trans (hr.changed.content hl.fine (Nat.lt_of_lt_of_le hj hl.next)
        (hl.apart j i hj hi hap q m hr.lead hr.tree))
  · cases he

/-- C13: a failing removal changes no lookup from any object and writes nothing. -/
theorem C13_failed {w w' : World} (hs : Fine C w) {i : ObjId} (hi : i < w.next) {p : List Str}
    {e : PyErr} (h : removeChildAt C p i w = (.error e, w')) :
    (∀ j, j < w.next → SameContent C w.repo.log w.heap (.mem j) w'.repo.log w'.heap (.mem j)) ∧
      w'.repo.log = w.repo.log := by
  rcases removeChildAt_cases hs hi h with ⟨hl, _⟩ | ⟨w1, q, n, m, rfl, hl, hml, ⟨he, _⟩ | ⟨_, _, ht⟩⟩
  · exact ⟨hl.content, hl.log⟩
  · cases he
  · exact ⟨fun j hj => (hl.content j hj).trans (ht.content j), ht.fewer.log.trans hl.log⟩

/-- C13: when git works, removing succeeds exactly when something is at the path.  The
root of the tree cannot be removed. -/
theorem C13_fails_iff {w : World} (hs : Fine C w) (hf : w.repo.faults = []) {i : ObjId}
    (hi : i < w.next) (p : List Str) :
    (∃ e, (removeChildAt C p i w).1 = .error e) ↔
      p = [] ∨ look C w.repo.log w.heap (names p) [] (.mem i) = .absent := by
  cases hres : removeChildAt C p i w with
  | mk res w' =>
    constructor
    · rintro ⟨e, rfl⟩
      by_cases hpe : p = []
      · exact Or.inl hpe
      · right
        obtain ⟨p0, n, rfl⟩ : ∃ p0 n, p = p0 ++ [n] := by
          rcases List.eq_nil_or_concat p with h | ⟨p0, n, h⟩
          · exact absurd h hpe
          · exact ⟨p0, n, by rw [h, List.concat_eq_append]⟩
        unfold removeChildAt at hres
        obtain ⟨r, w1, hg, hre⟩ := getObjectAt_total (p0 ++ [n]).dropLast hs hf hi
        have hl := getObjectAt_any (p0 ++ [n]).dropLast hs hi
        rw [hg] at hl
        rw [M.bind_of_ok hg] at hres
        rw [List.dropLast_concat] at hg
        rw [names_append]
        cases r with
        | none => exact getObjectAt_none p0 hs hi hg _
        | some m =>
          obtain ⟨hlead, hml⟩ := getObjectAt_some p0 hs hi hg
          rw [hl.content i hi, hlead.look hl.fine.plain]
          simp only at hres
          rw [M.bind_of_ok (getObj_run m w1)] at hres
          split at hres
          · rw [show (p0 ++ [n]).getLast? = some n by simp] at hres
            simp only at hres
            obtain ⟨b, w2, hen, hre2⟩ := hl.fine.loads (by rw [hre]; exact hf) m
            obtain ⟨hl2, hm⟩ := hl.fine.loaded hml hen
            have h' : removeChild C m n w2 = (.error e, w') := by
              unfold removeChild at hres ⊢
              rw [M.bind_of_ok hen] at hres
              rw [M.bind_of_ok (ensureMapped_mapped hm)]
              exact hres
            rw [removeChild_mapped hm] at h'
            rw [hl2.content m hml]
            split at h'
            · rename_i hd
              exact look_name_none hm hd [] []
            · cases h'
          · rename_i hk
            exact look_not_tree hl.fine.plain (hl.fine.all m) (by simpa using hk) n []
    · intro hor
      cases res with
      | error e => exact ⟨e, rfl⟩
      | ok u =>
        exfalso
        rcases removeChildAt_cases hs hi hres with ⟨_, e, he⟩ | ⟨w1, q, n, m, rfl, hl, hml, ⟨_, hr⟩ | ⟨he, _⟩⟩
        · cases he
        · rcases hor with h0 | h0
          · simp at h0
          · rw [hl.content i hi, names_append, hr.lead.look hl.fine.plain] at h0
            cases hd : dget (w1.heap m).body.kids (.name n) with
            | none => exact absurd hd hr.had
            | some x =>
              have h1 : look C w1.repo.log w1.heap (names [n]) [] (.mem m) =
                look C w1.repo.log w1.heap [] [] (.mem x.2) := look_name hl.fine.plain hr.mapped hd [] []
              rw [h1] at h0
              obtain ⟨b, hb⟩ := view_ok_of_look (hl.fine.all x.2 [] [])
              rw [look_nil [] hb] at h0
              cases h0
        · cases he

/-- The hypotheses of C11 and C13 hold again after a removal. -/
theorem C13_again {w w' : World} (hs : Fine C w) {i : ObjId} (hi : i < w.next) {p : List Str}
    {res : Except PyErr Unit} (h : removeChildAt C p i w = (res, w')) :
    Fine C w' ∧ w.next ≤ w'.next ∧ (∀ j, j < w.next → (w'.heap j).kind = (w.heap j).kind) ∧
      (∀ j, j < w.next → OnePath w.heap j → OnePath w'.heap j) ∧
      ∀ a j, a < w.next → j < w.next → Apart w.heap a j → Apart w'.heap a j := by
  have loads : ∀ {w1}, Loads C w w1 → Fine C w1 ∧ w.next ≤ w1.next ∧
      (∀ j, j < w.next → (w1.heap j).kind = (w.heap j).kind) ∧
      (∀ j, j < w.next → OnePath w.heap j → OnePath w1.heap j) ∧
      ∀ a j, a < w.next → j < w.next → Apart w.heap a j → Apart w1.heap a j :=
    fun hl => ⟨hl.fine, hl.next, hl.kind, hl.onePath, hl.apart⟩
  have fewer : ∀ {w1 m}, Loads C w w1 → Fewer m w1 w' → Fine C w' ∧ w.next ≤ w'.next ∧
      (∀ j, j < w.next → (w'.heap j).kind = (w.heap j).kind) ∧
      (∀ j, j < w.next → OnePath w.heap j → OnePath w'.heap j) ∧
      ∀ a j, a < w.next → j < w.next → Apart w.heap a j → Apart w'.heap a j := by
    intro w1 m hl hr
    refine ⟨hr.fine hl.fine, by rw [hr.next]; exact hl.next, ?_, ?_, ?_⟩
    · intro j hj; rw [hr.kind j, hl.kind j hj]
    · intro j hj ho; exact hr.onePath hl.fine (hl.onePath j hj ho)
    · intro a j hal hj ho; exact hr.apart hl.fine (hl.apart a j hal hj ho)
  rcases removeChildAt_cases hs hi h with ⟨hl, _⟩ | ⟨w1, q, n, m, rfl, hl, hml, ⟨_, hr⟩ | ⟨_, _, ht⟩⟩
  · exact loads hl
  · exact fewer hl hr.fewer
  · exact fewer hl ht.fewer

/-! ### Trees as dictionaries -/

/-- An element has no nodes. -/
theorem leads_leaf {w : World} (hs : Fine C w) {c : ObjId} (hk : (w.heap c).kind.isMtree = false)
    {q : List Str} {j : ObjId} (h : Leads w.heap c (names q) j) : q = [] ∧ j = c := by
  cases q with
  | nil => cases h; exact ⟨rfl, rfl⟩
  | cons n q =>
    cases h with
    | cons t c' hm hd _ =>
      have := fits_name ((hs.formed c hm).fits _ (mem_of_dget hd))
      unfold Obj.kind at hk
      rw [this] at hk; cases hk

theorem onePath_leaf {w : World} (hs : Fine C w) {c : ObjId} (hk : (w.heap c).kind.isMtree = false) :
    OnePath w.heap c := by
  intro q ks j h1 h2 _
  rw [(leads_leaf hs hk h1).2, hk] at h2; cases h2

theorem apart_leaf {w : World} (hs : Fine C w) {c : ObjId} (hk : (w.heap c).kind.isMtree = false)
    (a : ObjId) : Apart w.heap a c := by
  intro q j h1 h2 _
  rw [(leads_leaf hs hk h1).2, hk] at h2; cases h2

/-- What calls of the methods of a tree do to a dictionary of elements: a successful
addition sets an entry, a successful removal removes the entries at and below the path,
all other calls do nothing. -/
inductive TreeCalls (C : Cfg) (i : ObjId) (w0 : World) : World → (List Str → Option ObjId) → Prop
  | start : TreeCalls C i w0 w0 (fun _ => none)
  | added (w w' : World) (d : List Str → Option ObjId) (p : List Str) (c : ObjId) :
      TreeCalls C i w0 w d → c < w0.next → (w0.heap c).kind.isMtree = false → ¬ Reach w0.heap c i →
      (∀ n ∈ p, CompOk n) → addChildAt C c p i w = (.ok (), w') →
      TreeCalls C i w0 w' (fun p' => if p' = p then some c else d p')
  | addFailed (w w' : World) (d : List Str → Option ObjId) (p : List Str) (c : ObjId) (e : PyErr) :
      TreeCalls C i w0 w d → (∀ n ∈ p, CompOk n) → addChildAt C c p i w = (.error e, w') →
      TreeCalls C i w0 w' d
  | removed (w w' : World) (d : List Str → Option ObjId) (p : List Str) :
      TreeCalls C i w0 w d → removeChildAt C p i w = (.ok (), w') →
      TreeCalls C i w0 w' (fun p' => if p <+: p' then none else d p')
  | removeFailed (w w' : World) (d : List Str → Option ObjId) (p : List Str) (e : PyErr) :
      TreeCalls C i w0 w d → removeChildAt C p i w = (.error e, w') → TreeCalls C i w0 w' d
  | lookup (w w' : World) (d : List Str → Option ObjId) (p : List Str) (r : Except PyErr (Option ObjId)) :
      TreeCalls C i w0 w d → getObjectAt C p i w = (r, w') → TreeCalls C i w0 w' d
  | list (w w' : World) (d : List Str → Option ObjId) (sn : Bool) (n : Nat)
      (r : Except PyErr (List (PPath × ObjId))) :
      TreeCalls C i w0 w d → getPaths C sn n i w = (r, w') → TreeCalls C i w0 w' d
  | load (w w' : World) (d : List Str → Option ObjId) (j : ObjId) (r : Except PyErr Bool) :
      TreeCalls C i w0 w d → j < w.next → ensureMapped C j w = (r, w') → TreeCalls C i w0 w' d

/-- What holds during calls on a tree -/
structure TreeInv (C : Cfg) (i : ObjId) (w0 w : World) (d : List Str → Option ObjId) : Prop where
  fine : Fine C w
  next : w0.next ≤ w.next
  kind : ∀ j, j < w0.next → (w.heap j).kind = (w0.heap j).kind
  onePath : OnePath w.heap i
  apart : ∀ c, c < w0.next → (w0.heap c).kind.isMtree = false → ¬ Reach w0.heap c i → Apart w.heap c i
  content : ∀ c, c < w0.next → (w0.heap c).kind.isMtree = false → ¬ Reach w0.heap c i →
    SameContent C w0.repo.log w0.heap (.mem c) w.repo.log w.heap (.mem c)
  dict : ∀ p c, d p = some c → c < w0.next ∧ (w0.heap c).kind.isMtree = false ∧ ¬ Reach w0.heap c i ∧
    ∀ ks, look C w.repo.log w.heap (names p ++ ks) [] (.mem i) = look C w0.repo.log w0.heap ks [] (.mem c)
  only : ∀ p, d p = none → ∀ t x b,
    look C w.repo.log w.heap (names p) [] (.mem i) = .found t x b → x.kind.isMtree = true

theorem TreeInv.loads {i : ObjId} {w0 w w' : World} {d : List Str → Option ObjId} (h : TreeInv C i w0 w d)
    (hi : i < w0.next) (hl : Peeks C w w') : TreeInv C i w0 w' d := by
  have hlt : ∀ j, j < w0.next → j < w.next := fun j hj => Nat.lt_of_lt_of_le hj h.next
  refine ⟨hl.fine, Nat.le_trans h.next hl.next, ?_, hl.onePath i (hlt i hi) h.onePath, ?_, ?_, ?_, ?_⟩
  · intro j hj; rw [hl.kind j (hlt j hj), h.kind j hj]
  · intro c hc hk hr; exact hl.apart c i (hlt c hc) (hlt i hi) (h.apart c hc hk hr)
  · intro c hc hk hr; exact (h.content c hc hk hr).trans (hl.content c (hlt c hc))
  · intro p c hd
    obtain ⟨h1, h2, h3, h4⟩ := h.dict p c hd
    exact ⟨h1, h2, h3, fun ks => by rw [← hl.content i (hlt i hi), h4]⟩
  · intro p hd t x b hx
    rw [← hl.content i (hlt i hi)] at hx
    exact h.only p hd t x b hx

/-- Below an element of the dictionary there is nothing under a name. -/
theorem TreeInv.below {i : ObjId} {w0 w : World} {d : List Str → Option ObjId} (h : TreeInv C i w0 w d)
    (hs : Fine C w0) {p : List Str} {c : ObjId} (hd : d p = some c) {z : List Str} (hz : z ≠ []) :
    look C w.repo.log w.heap (names (p ++ z)) [] (.mem i) = .absent := by
  obtain ⟨h1, h2, h3, h4⟩ := h.dict p c hd
  rw [names_append, h4]
  cases z with
  | nil => exact absurd rfl hz
  | cons x z => exact look_not_tree hs.plain (hs.all c) h2 x (names z)

theorem TreeCalls.inv {i : ObjId} {w0 w : World} {d : List Str → Option ObjId} (hs : Fine C w0)
    (hi : i < w0.next) (hk : (w0.heap i).kind.isMtree = true)
    (hnew : ∃ leaf, w0.heap i = Obj.new (Body.empty (.mtree leaf)))
    (h : TreeCalls C i w0 w d) : TreeInv C i w0 w d := by
  induction h with
  | start =>
    obtain ⟨leaf, hnew⟩ := hnew
    have hm : (w0.heap i).mapped = true := by rw [hnew]; rfl
    have hkids : (w0.heap i).body.kids = [] := by rw [hnew]; rfl
    have hl : ∀ ks j, Leads w0.heap i ks j → ks = [] ∧ j = i := by
      intro ks j h
      cases h with
      | nil => exact ⟨rfl, rfl⟩
      | cons t c hm hd _ => rw [hkids] at hd; cases hd
    refine ⟨hs, Nat.le_refl _, fun _ _ => rfl, ?_, ?_, fun c _ _ _ => SameContent.refl _ _ _ _, ?_, ?_⟩
    · intro q ks j h1 _ h2
      rw [(hl _ _ h1).1, (hl _ _ h2).1]
    · intro c _ _ hr q j h1 _ h2
      rw [(hl _ _ h1).2] at h2
      exact hr h2
    · intro p c h; cases h
    · intro p _ t x b hx
      cases p with
      | nil =>
        rw [show names [] = [] from rfl, look_self hm] at hx
        injection hx with _ hx
        rw [← hx, hnew]; rfl
      | cons n p =>
        rw [show names (n :: p) = .name n :: names p from rfl,
          look_name_none hm (by rw [hkids]; rfl)] at hx
        cases hx
  | added w w' d p c _ hc hck hcr hp hadd ih =>
    have hlt : ∀ j, j < w0.next → j < w.next := fun j hj => Nat.lt_of_lt_of_le hj ih.next
    have hkw : (w.heap i).kind.isMtree = true := by rw [ih.kind i hi]; exact hk
    have hckw : (w.heap c).kind.isMtree = false := by rw [ih.kind c hc]; exact hck
    have hca := ih.apart c hc hck hcr
    obtain ⟨a1, a2, a3, a4, a5, a6, a7⟩ := C11_added ih.fine (hlt i hi) (hlt c hc) hkw ih.onePath hca hp hadd
    obtain ⟨b1, b2, b3, b4, b5⟩ := C11_again ih.fine (hlt i hi) (hlt c hc) hkw ih.onePath
      (onePath_leaf ih.fine hckw) hca (apart_leaf ih.fine hckw i) hp hadd
    have hblock : ∀ p' c', d p' = some c' → ¬ p <+: p' ∧ ∀ a, a <+: p → p' ≠ a := by
      intro p' c' hd
      obtain ⟨e1, e2, e3, e4⟩ := ih.dict p' c' hd
      have hf : w.repo.log = w'.repo.log := a6.symm
      obtain ⟨w1, q, n, rest, m, e0, hl, ha⟩ := addChildAt_ok p hp ih.fine (hlt i hi) hkw hadd
      constructor
      · rintro ⟨z, rfl⟩
        have := ha.look_free (C := C) hl.fine (names (rest ++ z))
        rw [← hl.content i (hlt i hi)] at this
        have e5 : names (q ++ [n]) ++ names (rest ++ z) = names (p ++ z) := by
          rw [← names_append, e0]; simp
        rw [e5] at this
        have e6 := e4 []
        rw [List.append_nil, this] at e6
        obtain ⟨b, hb⟩ := view_ok_of_look (hs.all c' [] [])
        rw [look_nil [] hb] at e6
        cases e6
      · rintro a ⟨z, hz⟩ rfl
        have e6 := e4 []
        rw [List.append_nil] at e6
        obtain ⟨b, hb⟩ := view_ok_of_look (hs.all c' [] [])
        rw [look_nil [] hb] at e6
        by_cases hzn : z = []
        · rw [hzn, List.append_nil] at hz
          have := ha.look_free (C := C) hl.fine (names rest)
          rw [← hl.content i (hlt i hi)] at this
          have e5 : names (q ++ [n]) ++ names rest = names p := by
            rw [← names_append, e0]; simp
          rw [e5, ← hz, e6] at this
          cases this
        · obtain ⟨leaf, _, h2⟩ := a2 p' z hz.symm hzn
          have := h2 _ _ e6
          have h7 := view_class hb
          rw [this] at h7
          rw [← h7] at e2
          cases e2
    refine ⟨b1, Nat.le_trans ih.next b2, ?_, b4, ?_, ?_, ?_, ?_⟩
    · intro j hj; rw [b3 j (hlt j hj), ih.kind j hj]
    · intro x hx hxk hxr
      exact b5 x (hlt x hx) (ih.apart x hx hxk hxr) (apart_leaf ih.fine hckw x)
    · intro x hx hxk hxr
      exact (ih.content x hx hxk hxr).trans (a5 x (hlt x hx) (ih.apart x hx hxk hxr))
    · intro p' c' hd
      split at hd
      · rename_i hpp
        cases hd
        subst hpp
        refine ⟨hc, hck, hcr, fun ks => ?_⟩
        rw [a1, ← ih.content c hc hck hcr]
      · obtain ⟨e1, e2, e3, e4⟩ := ih.dict p' c' hd
        obtain ⟨h1, h2⟩ := hblock p' c' hd
        refine ⟨e1, e2, e3, fun ks => ?_⟩
        by_cases hpre : names p <+: names p' ++ ks ∨ ∃ a, a <+: p ∧ names p' ++ ks = names a
        · -- the keys would go through an element
          exfalso
          rcases hpre with hpre | ⟨a, ha, hpa⟩
          · obtain ⟨s, hs'⟩ := hpre
            rcases List.append_eq_append_iff.mp hs' with ⟨z, g1, g2⟩ | ⟨z, g1, g2⟩
            · obtain ⟨q1, q2, g3, g4, g5⟩ := names_append_eq g1
              have := names_injective g4
              exact h1 ⟨q2, by rw [g3, this]⟩
            · obtain ⟨q1, q2, g3, g4, g5⟩ := names_append_eq g1
              have := names_injective g4
              exact h2 p' ⟨q2, by rw [g3, this]⟩ rfl
          · obtain ⟨q1, q2, g3, g4, g5⟩ := names_append_eq hpa.symm
            have := names_injective g4
            obtain ⟨z, hz⟩ := ha
            exact h2 p' ⟨q2 ++ z, by rw [← hz, g3, this, List.append_assoc]⟩ rfl
        · rw [a3 _ (fun h => hpre (Or.inl h)) (fun a ha h => hpre (Or.inr ⟨a, ha, h⟩)), e4]
    · intro p' hd t x b hx
      split at hd
      · cases hd
      · rename_i hpp
        by_cases hpre : p <+: p'
        · obtain ⟨z, rfl⟩ := hpre
          have hz : z ≠ [] := by rintro rfl; exact hpp (List.append_nil _)
          rw [names_append, a1] at hx
          cases z with
          | nil => exact absurd rfl hz
          | cons y z =>
            rw [show names (y :: z) = .name y :: names z from rfl,
              look_not_tree ih.fine.plain (ih.fine.all c) hckw] at hx
            cases hx
        · by_cases hpre2 : p' <+: p
          · obtain ⟨z, hz⟩ := hpre2
            have hzn : z ≠ [] := by rintro rfl; exact hpp (by rw [← hz, List.append_nil])
            obtain ⟨leaf, h2, _⟩ := a2 p' z hz.symm hzn
            rw [h2] at hx
            cases hx
            rfl
          · rw [a3 (names p') ?_ ?_] at hx
            · exact ih.only p' hd t x b hx
            · rintro ⟨s, hs'⟩
              obtain ⟨q1, q2, g3, g4, g5⟩ := names_append_eq hs'.symm
              have := names_injective g4
              exact hpre ⟨q2, by rw [g3, this]⟩
            · intro a ha heq
              rw [names_injective heq] at hpre2
              exact hpre2 ha
  | addFailed w w' d p c e _ hp hadd ih =>
    exact ih.loads hi (addChildAt_error p hp ih.fine (Nat.lt_of_lt_of_le hi ih.next) hadd).toPeeks
  | removed w w' d p _ hrem ih =>
    have hlt : ∀ j, j < w0.next → j < w.next := fun j hj => Nat.lt_of_lt_of_le hj ih.next
    obtain ⟨q, n, rfl, a1, a2, ⟨leaf, bb, a3, a4, _⟩, a5, a6, a7, a8⟩ :=
      C13_removed ih.fine (hlt i hi) ih.onePath hrem
    obtain ⟨b1, b2, b3, b4, b5⟩ := C13_again ih.fine (hlt i hi) hrem
    refine ⟨b1, Nat.le_trans ih.next b2, ?_, b4 i (hlt i hi) ih.onePath, ?_, ?_, ?_, ?_⟩
    · intro j hj; rw [b3 j (hlt j hj), ih.kind j hj]
    · intro x hx hxk hxr
      exact b5 x i (hlt x hx) (hlt i hi) (ih.apart x hx hxk hxr)
    · intro x hx hxk hxr
      exact (ih.content x hx hxk hxr).trans (a6 x (hlt x hx) (ih.apart x hx hxk hxr))
    · intro p' c' hd
      split at hd
      · cases hd
      · rename_i hpp
        obtain ⟨e1, e2, e3, e4⟩ := ih.dict p' c' hd
        refine ⟨e1, e2, e3, fun ks => ?_⟩
        have hnode : ¬ p' <+: q := by
          rintro ⟨z, rfl⟩
          by_cases hz : z = []
          · subst hz
            have e6 := e4 []
            rw [List.append_nil, ← List.append_nil p', a3] at e6
            obtain ⟨b, hb⟩ := view_ok_of_look (hs.all c' [] [])
            rw [look_nil [] hb] at e6
            injection e6 with _ e6
            have h7 := view_class hb
            rw [← e6] at h7
            rw [← h7] at e2
            cases e2
          · rw [ih.below hs hd hz] at a3; cases a3
        rw [a5, e4]
        · rintro ⟨s, hs'⟩
          rcases List.append_eq_append_iff.mp hs' with ⟨z, g1, g2⟩ | ⟨z, g1, g2⟩
          · obtain ⟨q1, q2, g3, g4, g5⟩ := names_append_eq g1
            have := names_injective g4
            exact hpp ⟨q2, by rw [g3, this]⟩
          · obtain ⟨q1, q2, g3, g4, g5⟩ := names_append_eq g1
            have h8 := names_injective g4
            subst h8
            by_cases hq2 : q2 = []
            · rw [hq2, List.append_nil] at g3
              exact hpp ⟨[], by rw [List.append_nil, g3]⟩
            · have := ih.below hs hd hq2
              rw [← g3] at this
              exact a1 this
        · intro heq
          obtain ⟨q1, q2, g3, g4, g5⟩ := names_append_eq heq.symm
          have := names_injective g4
          exact hnode ⟨q2, by rw [g3, this]⟩
    · intro p' hd t x b hx
      by_cases hpp : q ++ [n] <+: p'
      · obtain ⟨z, rfl⟩ := hpp
        rw [names_append, a2] at hx
        cases hx
      · rw [if_neg hpp] at hd
        by_cases hq : p' = q
        · subst hq
          rw [a4] at hx
          cases hx
          rfl
        · rw [a5] at hx
          · exact ih.only p' hd t x b hx
          · rintro ⟨s, hs'⟩
            obtain ⟨q1, q2, g3, g4, g5⟩ := names_append_eq hs'.symm
            have := names_injective g4
            exact hpp ⟨q2, by rw [g3, this]⟩
          · intro heq; exact hq (names_injective heq)
  | removeFailed w w' d p e _ hrem ih =>
    have hlt : ∀ j, j < w0.next → j < w.next := fun j hj => Nat.lt_of_lt_of_le hj ih.next
    obtain ⟨a1, a2⟩ := C13_failed ih.fine (hlt i hi) hrem
    obtain ⟨b1, b2, b3, b4, b5⟩ := C13_again ih.fine (hlt i hi) hrem
    refine ⟨b1, Nat.le_trans ih.next b2, ?_, b4 i (hlt i hi) ih.onePath, ?_, ?_, ?_, ?_⟩
    · intro j hj; rw [b3 j (hlt j hj), ih.kind j hj]
    · intro x hx hxk hxr
      exact b5 x i (hlt x hx) (hlt i hi) (ih.apart x hx hxk hxr)
    · intro x hx hxk hxr
      exact (ih.content x hx hxk hxr).trans (a1 x (hlt x hx))
    · intro p c hd
      obtain ⟨h1, h2, h3, h4⟩ := ih.dict p c hd
      exact ⟨h1, h2, h3, fun ks => by rw [← a1 i (hlt i hi), h4]⟩
    · intro p hd t x b hx
      rw [← a1 i (hlt i hi)] at hx
      exact ih.only p hd t x b hx
  | lookup w w' d p r _ hg ih =>
    have := getObjectAt_any p ih.fine (Nat.lt_of_lt_of_le hi ih.next)
    rw [hg] at this
    exact ih.loads hi this.toPeeks
  | list w w' d sn n r _ hg ih =>
    have := getPaths_visits sn n ih.fine (Nat.lt_of_lt_of_le hi ih.next)
    rw [hg] at this
    exact ih.loads hi this.loads
  | load w w' d j r _ hj hg ih =>
    have := ih.fine.loadsStep hj
    rw [hg] at this
    exact ih.loads hi this.toPeeks

/-- C11, C12 and C13 for any sequence of calls: after successful and failing additions,
removals, lookups and listings on a new tree, also when objects are loaded in between, in any order and number, the elements that are found
are exactly those of the dictionary, with the content they had. -/
theorem C11_dictionary {i : ObjId} {w0 w : World} {d : List Str → Option ObjId} (hs : Fine C w0)
    (hi : i < w0.next) (hnew : ∃ leaf, w0.heap i = Obj.new (Body.empty (.mtree leaf)))
    (h : TreeCalls C i w0 w d) (p : List Str) :
    (∀ c, d p = some c → ∀ ks, look C w.repo.log w.heap (names p ++ ks) [] (.mem i) =
        look C w0.repo.log w0.heap ks [] (.mem c)) ∧
      (d p = none → ∀ t x b, look C w.repo.log w.heap (names p) [] (.mem i) = .found t x b →
        x.kind.isMtree = true) := by
  have hk : (w0.heap i).kind.isMtree = true := by
    obtain ⟨leaf, e⟩ := hnew; rw [e]; rfl
  have hinv := h.inv hs hi hk hnew
  exact ⟨fun c hd => (hinv.dict p c hd).2.2.2, hinv.only p⟩

/-! ### Examples -/

/-- The code succeeds, and with the given value. -/
theorem of_isOk' {α : Type} {x : Except PyErr α × World} (h : isOk x = true) : ∃ a, x = (.ok a, x.2) := by
  obtain ⟨x1, x2⟩ := x
  cases x1 with
  | ok a => exact ⟨a, rfl⟩
  | error e => cases h

theorem of_isOk_unit {x : Except PyErr Unit × World} (h : isOk x = true) : x = (.ok (), x.2) := by
  obtain ⟨a, h⟩ := of_isOk' h; exact h

theorem of_not_isOk {α : Type} {x : Except PyErr α × World} (h : isOk x = false) :
    ∃ e, x = (.error e, x.2) := by
  obtain ⟨x1, x2⟩ := x
  cases x1 with
  | ok a => cases h
  | error e => exact ⟨e, rfl⟩

/-- A path for the examples -/
def somePath : List Str := [c!"x", c!"y"]

theorem compOk_somePath : ∀ n ∈ somePath, CompOk n := by
  intro n hn
  simp only [somePath, List.mem_cons, List.not_mem_nil, or_false] at hn
  rcases hn with rfl | rfl <;> exact ⟨by decide, by decide, by decide⟩

/-- An object that is not loaded has no nodes in memory. -/
theorem onePath_away {h : Heap} {i : ObjId} (hm : (h i).mapped = false) : OnePath h i := by
  have key : ∀ ks j, Leads h i ks j → ks = [] := by
    intro ks j h1
    cases h1 with
    | nil => rfl
    | cons t c hm' _ _ => rw [hm] at hm'; cases hm'
  intro q ks j h1 _ h2
  rw [key _ _ h1, key _ _ h2]

theorem apart_away {h : Heap} {a i : ObjId} (hm : (h i).mapped = false) (hr : ¬ Reach h a i) :
    Apart h a i := by
  intro q j h1 _
  generalize hq : names q = ks at h1
  cases h1 with
  | nil => exact hr
  | cons t c hm' _ _ => rw [hm] at hm'; cases hm'

/-- The hypotheses of C11 hold where an element is added to a tree that was written and
forgotten: the root record of the example is added to the stored dataset tree. -/
example : ∃ w', Fine sampleCfg awayWorld ∧ 5 < awayWorld.next ∧ 4 < awayWorld.next ∧
    (awayWorld.heap 5).kind.isMtree = true ∧ OnePath awayWorld.heap 5 ∧ Apart awayWorld.heap 4 5 ∧
    (awayWorld.heap 5).mapped = false ∧ addChildAt sampleCfg 4 somePath 5 awayWorld = (.ok (), w') := by
  have hm : (awayWorld.heap 5).mapped = false := by decide +kernel
  refine ⟨_, awayWorld_fine, by decide +kernel, by decide +kernel, by decide +kernel, onePath_away hm,
    apart_away hm ?_, hm, of_isOk_unit (by decide +kernel)⟩
  intro hr
  have hm4 : (awayWorld.heap 4).mapped = false := by decide +kernel
  cases hr with
  | step _ k _ h1 _ _ => rw [hm4] at h1; cases h1

/-- An element is in the way, C12. -/
example : Blocked sampleCfg awayWorld 5 [c!".datalad_metadata", c!"x"] ∧
    ∃ e w', addChildAt sampleCfg 4 [c!".datalad_metadata", c!"x"] 5 awayWorld = (.error e, w') := by
  refine ⟨?_, ?_⟩
  · have h : (match look sampleCfg awayWorld.repo.log awayWorld.heap (names [c!".datalad_metadata"]) []
        (.mem 5) with | .found _ d _ => !d.kind.isMtree | _ => false) = true := by decide +kernel
    cases hl : look sampleCfg awayWorld.repo.log awayWorld.heap (names [c!".datalad_metadata"]) [] (.mem 5) with
    | found t d e =>
      rw [hl] at h
      exact ⟨[c!".datalad_metadata"], [c!"x"], t, d, e, rfl, by simp, hl, Or.inr (by simpa using h)⟩
    | _ => rw [hl] at h; cases h
  · obtain ⟨e, h⟩ := of_not_isOk (x := addChildAt sampleCfg 4 [c!".datalad_metadata", c!"x"] 5 awayWorld)
      (by decide +kernel)
    exact ⟨e, _, h⟩

/-- The hypotheses of C13 hold where the stored root record is removed from the stored
dataset tree. -/
example : ∃ w', Fine sampleCfg awayWorld ∧ 5 < awayWorld.next ∧ OnePath awayWorld.heap 5 ∧
    removeChildAt sampleCfg [c!".datalad_metadata"] 5 awayWorld = (.ok (), w') :=
  ⟨_, awayWorld_fine, by decide +kernel, onePath_away (by decide +kernel), of_isOk_unit (by decide +kernel)⟩

/-- A new tree to which two elements are added, of which one is removed with the node
that holds it. -/
example : ∃ w d, TreeCalls sampleCfg 9 treeWorld w d ∧ Fine sampleCfg treeWorld ∧ 9 < treeWorld.next ∧
    (∃ leaf, treeWorld.heap 9 = Obj.new (Body.empty (.mtree leaf))) ∧
    d [c!"z"] = some 0 ∧ d somePath = none := by
  have hz : ∀ n ∈ [c!"z"], CompOk n := by
    intro n hn
    cases List.mem_singleton.mp hn
    exact ⟨by decide, by decide, by decide⟩
  have hr : ∀ c : ObjId, c < 2 → ¬ Reach treeWorld.heap c 9 := by
    intro c hc h
    have : (9 : ObjId) < 2 := reach_closed (S := fun p => p < 2) (by
      intro p hp _ k hk
      have : ∀ p, p < 2 → (treeWorld.heap p).body.subs = [] := by decide +kernel
      rw [this p hp] at hk; cases hk) h hc
    exact absurd this (by decide)
  refine ⟨_, _, .removed _ _ _ [c!"x"] (.added _ _ _ somePath 1 (.added _ _ _ [c!"z"] 0 .start
      (by decide) (by decide +kernel) (hr 0 (by decide)) hz (of_isOk_unit (by decide +kernel)))
      (by decide) (by decide +kernel) (hr 1 (by decide)) compOk_somePath (of_isOk_unit (by decide +kernel)))
      (of_isOk_unit (by decide +kernel)), treeWorld_fine, by decide, ⟨.metadata, rfl⟩, ?_, ?_⟩
  · decide
  · decide

end MM
