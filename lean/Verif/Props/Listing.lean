/-
C14 and C15: listing the elements of a tree, and dataset trees.

`Listed`, `GoodNames` and `Solid` in `Listing.lean` are stated with `look`, which says
what is found by following keys from an object.
-/
import Verif.Props.Tree

namespace MM

variable {C : Cfg}

/-! ### C14 -/

/-- C14: listing changes no content and writes nothing, whatever happens. -/
theorem C14_harmless {w : World} (hs : Fine C w) {i : ObjId} (hi : i < w.next) (sn : Bool) (n : Nat) :
    (∀ j, j < w.next → SameContent C w.repo.log w.heap (.mem j)
        (getPaths C sn n i w).2.repo.log (getPaths C sn n i w).2.heap (.mem j)) ∧
      (getPaths C sn n i w).2.repo.log = w.repo.log ∧
      (∀ j, j < w.next → (w.heap j).mapped = true → (getPaths C sn n i w).2.heap j = w.heap j) := by
  have h := (getPaths_visits sn n hs hi).loads
  exact ⟨h.content, h.log, h.loaded⟩

/-- C14: if listing succeeds, every element is listed exactly once (and every inner
node, if they are asked for), under the path at which it is found, together with an
object that has its content.  Nothing stays loaded that was not loaded before.  What is
missing for the full claim is that listing always succeeds, see `C14_false`. -/
theorem C14_listed_partial {w w' : World} (hs : Fine C w) {i : ObjId} (hi : i < w.next)
    (hk : (w.heap i).kind.isMtree = true) (hg : GoodNames C w i) {sn : Bool} {n : Nat}
    {l : List (PPath × ObjId)} (h : getPaths C sn n i w = (.ok l, w')) :
    (l.map Prod.fst).Nodup ∧
      (∀ p, p ∈ l.map Prod.fst ↔ p.root = [] ∧
        ∃ d b, look C w.repo.log w.heap (names p.comps) [] (.mem i) = .found [] d b ∧
          (sn = true ∨ d.kind.isMtree = false)) ∧
      (∀ e ∈ l, ∀ ks, look C w.repo.log w.heap (names e.1.comps ++ ks) [] (.mem i) =
        look C w'.repo.log w'.heap ks [] (.mem e.2)) ∧
      (∀ j, j < w'.next → ((w'.heap j).mapped = true ↔ j < w.next ∧ (w.heap j).mapped = true)) := by
  obtain ⟨hv, hr, hl⟩ := getPaths_listed sn n hs hi hk hg h
  refine ⟨hl.nodup, ?_, fun e he => (hl.sound e he).2.2, ?_⟩
  · intro p
    constructor
    · intro hp
      obtain ⟨e, he, rfl⟩ := List.mem_map.mp hp
      obtain ⟨_, s2, s3⟩ := hl.sound e he
      refine ⟨(hl.paths e he).1, ?_⟩
      have h1 := s3 []
      rw [List.append_nil] at h1
      obtain ⟨b, hb⟩ := view_ok_of_look (hv.loads.fine.all e.2 [] [])
      rw [look_nil [] hb] at h1
      refine ⟨_, _, h1, ?_⟩
      rw [view_class hb]
      exact s2
    · rintro ⟨hr, d, b, hq, hc⟩
      have := hl.complete p.comps d b hq hc
      rw [show (⟨[], p.comps⟩ : PPath) = p by cases p; simp at hr; subst hr; rfl] at this
      exact this
  · intro j hj
    constructor
    · exact hr j hj
    · rintro ⟨h1, h2⟩; rw [hv.loads.loaded j h1 h2]; exact h2

/-- C14: a lookup at a listed path, before or after the listing, gives an object with the
content of the listed one. -/
theorem C14_lookup_partial {w w' w2 : World} (hs : Fine C w) {i : ObjId} (hi : i < w.next)
    (hk : (w.heap i).kind.isMtree = true) (hg : GoodNames C w i) {sn : Bool} {n : Nat}
    {l : List (PPath × ObjId)} (h : getPaths C sn n i w = (.ok l, w')) {e : PPath × ObjId} (he : e ∈ l)
    {res : Option ObjId} (h2 : getObjectAt C e.1.comps i w' = (.ok res, w2)) :
    ∃ j, res = some j ∧ SameContent C w'.repo.log w'.heap (.mem e.2) w2.repo.log w2.heap (.mem j) := by
  obtain ⟨hv, _, hl⟩ := getPaths_listed sn n hs hi hk hg h
  have hi' := Nat.lt_of_lt_of_le hi hv.loads.next
  have hfine := hv.loads.fine
  obtain ⟨_, hlog, _, h3, h4⟩ := C11_lookup hfine hi' e.1.comps
  rw [h2] at hlog h3 h4
  obtain ⟨_, _, s3⟩ := hl.sound e he
  cases res with
  | none =>
    exfalso
    have h5 := h4 rfl
    have h6 := s3 []
    rw [List.append_nil, hv.loads.content i hi _ _, h5] at h6
    obtain ⟨b, hb⟩ := view_ok_of_look (hfine.all e.2 [] [])
    rw [look_nil [] hb] at h6
    cases h6
  | some j =>
    refine ⟨j, rfl, fun ks t => ?_⟩
    have h5 : ∀ ks, look C w'.repo.log w'.heap ks [] (.mem e.2) = look C w2.repo.log w2.heap ks [] (.mem j) := by
      intro ks
      rw [← s3 ks, hv.loads.content i hi _ _, h3 j rfl ks, hlog]
    cases ks with
    | cons k ks =>
      have h6 := h5 (k :: ks)
      rw [look_stamp k ks t [], look_stamp (n := .mem j) k ks t []]
      exact h6
    | nil =>
      have h6 := h5 []
      obtain ⟨b, hb⟩ := view_ok_of_look (hfine.all e.2 [] [])
      rw [look_nil [] hb] at h6
      have hne : look C w2.repo.log w2.heap [] [] (.mem j) ≠ .missing := by rw [← h6]; simp
      obtain ⟨b2, hb2⟩ := view_ok_of_look hne
      rw [look_nil [] hb2] at h6
      injection h6 with _ e1 e2
      rw [look_nil t hb, look_nil t hb2, e1, e2]

/-- C14: when git works, listing a tree without empty nodes succeeds. -/
theorem C14_succeeds_partial {w : World} (hs : Fine C w) (hf : w.repo.faults = []) {i : ObjId}
    (hi : i < w.next) (hk : (w.heap i).kind.isMtree = true) (hg : GoodNames C w i) {n : Nat}
    (hd : Solid C w i n) (sn : Bool) : ∃ l w', getPaths C sn (n + 2) i w = (.ok l, w') := by
  obtain ⟨l, w', h, _⟩ := getPaths_total sn n hs hf hi hk hg hd
  exact ⟨l, w', h⟩

/-- A tree version list with one dataset tree that holds no dataset -/
def hollowBodies : List (Body ObjId) :=
  [⟨.mtree .mrr, []⟩, ⟨.tvl, [(.ver c!"v1" ⟨[], []⟩, c!"0.1", 0)]⟩]

/-- The list is written out. -/
def hollowWrite : Except PyErr Ref × World :=
  writeAs sampleCfg .own 20 (some sampleRealm) false 1 (populate (start ⟨[], []⟩) hollowBodies)

/-- Another process has opened the list. -/
def hollowWorld : World :=
  create (Link.obj sampleRealm ⟨.tvl, ⟨Kind.tvl.name, some tvlRefName⟩⟩) (start hollowWrite.2.repo)

/-- C14 does not hold for trees without elements that are not loaded: a dataset tree
without datasets is written as part of a version list; another process that gets it from
the stored list gets a `ValueError` from listing its elements, although git works. -/
theorem C14_false :
    isOk hollowWrite = true ∧
      ∃ stamp p j w w' w'', getVersioned sampleCfg 0 c!"v1" ⟨[], []⟩ hollowWorld = (.ok (stamp, p, j), w) ∧
        w.repo.faults = [] ∧ (w.heap j).kind = .mtree .mrr ∧
        getPaths sampleCfg false 20 j w = (.error .value, w') ∧
        datasetPaths sampleCfg 20 j w = (.error .value, w'') := by
  have h := of_okVal (x := getVersioned sampleCfg 0 c!"v1" ⟨[], []⟩ hollowWorld)
    (a := (c!"0.1", ⟨[], []⟩, 1)) (by decide +kernel)
  exact ⟨by decide +kernel, _, _, _, _, _, _, h, by decide +kernel, by decide +kernel,
    of_errOf (by decide +kernel), of_errOf (by decide +kernel)⟩

/-! ### Trees that were built by calls -/

theorem names_prefix {p q : List Str} (h : names p <+: names q) : p <+: q := by
  obtain ⟨t, h⟩ := h
  unfold names at h
  obtain ⟨l1, l2, rfl, h1, _⟩ := List.map_eq_append_iff.mp h.symm
  rw [names_injective (p := l1) (q := p) h1]
  exact List.prefix_append ..

/-- What is found after an element was added -/
theorem added_found {w w' : World} (hs : Fine C w) {i child : ObjId} (hi : i < w.next)
    (hc : child < w.next) (hk : (w.heap i).kind.isMtree = true) (hone : OnePath w.heap i)
    (hca : Apart w.heap child i) (hck : (w.heap child).kind.isMtree = false) {p : List Str}
    (hp : ∀ n ∈ p, CompOk n) (h : addChildAt C child p i w = (.ok (), w')) {q : List Str} {x : Data} {b : Bool}
    (hq : look C w'.repo.log w'.heap (names q) [] (.mem i) = .found [] x b) :
    (q = p ∧ x.kind.isMtree = false) ∨ (∃ r, r ≠ [] ∧ p = q ++ r) ∨
      look C w.repo.log w.heap (names q) [] (.mem i) = .found [] x b := by
  obtain ⟨h1, _, h3, _⟩ := C11_added hs hi hc hk hone hca hp h
  by_cases h4 : p <+: q
  · left
    obtain ⟨r, rfl⟩ := h4
    rw [names_append, h1] at hq
    cases r with
    | nil =>
      obtain ⟨b', hb⟩ := view_ok_of_look (hs.all child [] [])
      rw [show names [] = [] from rfl, look_nil [] hb] at hq
      cases hq
      exact ⟨by simp, by rw [view_class hb]; exact hck⟩
    | cons n r =>
      rw [show names (n :: r) = .name n :: names r from rfl, look_not_tree hs.plain (hs.all child) hck] at hq
      cases hq
  · by_cases h5 : q <+: p
    · right; left
      obtain ⟨r, rfl⟩ := h5
      refine ⟨r, ?_, rfl⟩
      rintro rfl
      exact h4 (by simp)
    · right; right
      rw [← h3 (names q) ?_ ?_]
      · exact hq
      · intro hpre
        exact h4 (names_prefix hpre)
      · intro a ha he
        exact h5 (by rw [names_injective he]; exact ha)

/-- What is found after something was removed -/
theorem removed_found {w w' : World} (hs : Fine C w) {i : ObjId} (hi : i < w.next)
    (hone : OnePath w.heap i) {p : List Str} (h : removeChildAt C p i w = (.ok (), w')) {q : List Str}
    {x : Data} {b : Bool} (hq : look C w'.repo.log w'.heap (names q) [] (.mem i) = .found [] x b) :
    ¬ p <+: q ∧ ∃ b', look C w.repo.log w.heap (names q) [] (.mem i) = .found [] x b' := by
  obtain ⟨q0, n, rfl, _, h1, ⟨leaf, b0, h2, h3, _⟩, h4, _⟩ := C13_removed hs hi hone h
  have hnp : ¬ (q0 ++ [n]) <+: q := by
    rintro ⟨r, rfl⟩
    rw [names_append, h1] at hq
    cases hq
  refine ⟨hnp, ?_⟩
  by_cases hqq : q = q0
  · subst hqq
    rw [h3] at hq
    cases hq
    exact ⟨_, h2⟩
  · refine ⟨b, ?_⟩
    rw [← h4 (names q) (fun hpre => hnp (names_prefix hpre)) (fun e => hqq (names_injective e))]
    exact hq

/-- Trees built by calls hold ordinary names only. -/
theorem TreeCalls.found {i : ObjId} {w0 w : World} {d : List Str → Option ObjId} (hs : Fine C w0)
    (hi : i < w0.next) (hnew : ∃ leaf, w0.heap i = Obj.new (Body.empty (.mtree leaf)))
    (h : TreeCalls C i w0 w d) {q : List Str} {x : Data} {b : Bool}
    (hq : look C w.repo.log w.heap (names q) [] (.mem i) = .found [] x b) : ∀ n ∈ q, CompOk n := by
  have hk : (w0.heap i).kind.isMtree = true := by obtain ⟨leaf, e⟩ := hnew; rw [e]; rfl
  have same : ∀ {w1 w2 : World} {d1 : List Str → Option ObjId}, TreeCalls C i w0 w1 d1 →
      (∀ j, j < w1.next → SameContent C w1.repo.log w1.heap (.mem j) w2.repo.log w2.heap (.mem j)) →
      ∀ {q x b}, look C w2.repo.log w2.heap (names q) [] (.mem i) = .found [] x b →
        look C w1.repo.log w1.heap (names q) [] (.mem i) = .found [] x b := by
    intro w1 w2 d1 h1 hc q x b hq
    rw [hc i (Nat.lt_of_lt_of_le hi (h1.inv hs hi hk hnew).next)]
    exact hq
  induction h generalizing q x b with
  | start =>
    obtain ⟨leaf, hnew⟩ := hnew
    have hm : (w0.heap i).mapped = true := by rw [hnew]; rfl
    have hkids : (w0.heap i).body.kids = [] := by rw [hnew]; rfl
    cases q with
    | nil => intro n hn; cases hn
    | cons n q =>
      rw [show names (n :: q) = .name n :: names q from rfl,
        look_name_none hm (by rw [hkids]; rfl)] at hq
      cases hq
  | added w w' d p c hsub hc hck hcr hp hadd ih =>
    have inv := hsub.inv hs hi hk hnew
    have hlt : ∀ j, j < w0.next → j < w.next := fun j hj => Nat.lt_of_lt_of_le hj inv.next
    rcases added_found inv.fine (hlt i hi) (hlt c hc) (by rw [inv.kind i hi]; exact hk) inv.onePath
      (inv.apart c hc hck hcr) (by rw [inv.kind c hc]; exact hck) hp hadd hq with ⟨rfl, _⟩ | ⟨r, _, rfl⟩ | h1
    · exact hp
    · intro n hn; exact hp n (List.mem_append_left _ hn)
    · exact ih h1
  | addFailed w w' d p c e hsub hp hadd ih =>
    have inv := hsub.inv hs hi hk hnew
    have hlt := Nat.lt_of_lt_of_le hi inv.next
    exact ih (same hsub (C12_failed inv.fine hlt hp hadd).1 hq)
  | removed w w' d p hsub hrem ih =>
    have inv := hsub.inv hs hi hk hnew
    obtain ⟨_, b', h1⟩ := removed_found inv.fine (Nat.lt_of_lt_of_le hi inv.next) inv.onePath hrem hq
    exact ih h1
  | removeFailed w w' d p e hsub hrem ih =>
    have inv := hsub.inv hs hi hk hnew
    exact ih (same hsub (C13_failed inv.fine (Nat.lt_of_lt_of_le hi inv.next) hrem).1 hq)
  | lookup w w' d p r hsub hg ih =>
    have inv := hsub.inv hs hi hk hnew
    have := getObjectAt_any p inv.fine (Nat.lt_of_lt_of_le hi inv.next)
    rw [hg] at this
    exact ih (same hsub this.content hq)
  | list w w' d sn n r hsub hg ih =>
    have inv := hsub.inv hs hi hk hnew
    have := getPaths_visits sn n inv.fine (Nat.lt_of_lt_of_le hi inv.next)
    rw [hg] at this
    exact ih (same hsub this.loads.content hq)
  | load w w' d j r hsub hj hg ih =>
    have inv := hsub.inv hs hi hk hnew
    have := inv.fine.loadsStep hj
    rw [hg] at this
    exact ih (same hsub this.content hq)

/-- C14 for any sequence of calls on a new tree: a listing that succeeds gives exactly
the elements of the dictionary, each once, with objects that have their content. -/
theorem C14_dictionary_partial {i : ObjId} {w0 w w' : World} {d : List Str → Option ObjId} (hs : Fine C w0)
    (hi : i < w0.next) (hnew : ∃ leaf, w0.heap i = Obj.new (Body.empty (.mtree leaf)))
    (h : TreeCalls C i w0 w d) {n : Nat} {l : List (PPath × ObjId)}
    (hl : getPaths C false n i w = (.ok l, w')) :
    (l.map Prod.fst).Nodup ∧
      (∀ p, p ∈ l.map Prod.fst ↔ p.root = [] ∧ (d p.comps).isSome = true) ∧
      ∀ e ∈ l, ∃ c, d e.1.comps = some c ∧
        ∀ ks, look C w'.repo.log w'.heap ks [] (.mem e.2) = look C w0.repo.log w0.heap ks [] (.mem c) := by
  have hk : (w0.heap i).kind.isMtree = true := by obtain ⟨leaf, e⟩ := hnew; rw [e]; rfl
  have inv := h.inv hs hi hk hnew
  have hlt := Nat.lt_of_lt_of_le hi inv.next
  obtain ⟨h1, h2, h3, _⟩ := C14_listed_partial inv.fine hlt (by rw [inv.kind i hi]; exact hk)
    (fun q x b hq => h.found hs hi hnew hq) hl
  have hsome : ∀ p : PPath, p ∈ l.map Prod.fst → ∃ c, d p.comps = some c := by
    intro p hp
    obtain ⟨_, x, b, hx, hc⟩ := (h2 p).mp hp
    cases hd : d p.comps with
    | some c => exact ⟨c, rfl⟩
    | none =>
      have := inv.only p.comps hd _ _ _ hx
      rw [this] at hc
      simp at hc
  refine ⟨h1, ?_, ?_⟩
  · intro p
    constructor
    · intro hp
      obtain ⟨c, hc⟩ := hsome p hp
      exact ⟨((h2 p).mp hp).1, by rw [hc]; rfl⟩
    · rintro ⟨hr, hd⟩
      obtain ⟨c, hc⟩ := Option.isSome_iff_exists.mp hd
      obtain ⟨g1, g2, _, g4⟩ := inv.dict p.comps c hc
      have g5 := g4 []
      rw [List.append_nil] at g5
      obtain ⟨b', hb⟩ := view_ok_of_look (hs.all c [] [])
      rw [look_nil [] hb] at g5
      exact (h2 p).mpr ⟨hr, _, _, g5, Or.inr (by rw [view_class hb]; exact g2)⟩
  · intro e he
    obtain ⟨c, hc⟩ := hsome e.1 (List.mem_map_of_mem he)
    refine ⟨c, hc, fun ks => ?_⟩
    rw [← h3 e he ks, (inv.dict _ _ hc).2.2.2]

/-! ### C15 -/

/-- What calls of the methods of a dataset tree do to a dictionary of root records: a
successful addition sets an entry, a successful deletion of a subtree removes the entries
of the datasets in it.  No path contains the name under which the code files the root
records. -/
inductive DatasetCalls (C : Cfg) (i : ObjId) (w0 : World) : World → (List Str → Option ObjId) → Prop
  | start : DatasetCalls C i w0 w0 (fun _ => none)
  | added (w w' : World) (d : List Str → Option ObjId) (p : List Str) (c : ObjId) :
      DatasetCalls C i w0 w d → c < w0.next → (w0.heap c).kind = .mrr → ¬ Reach w0.heap c i →
      (∀ n ∈ p, CompOk n) → rootRecordName ∉ p → addDataset C i p c w = (.ok (), w') →
      DatasetCalls C i w0 w' (fun p' => if p' = p then some c else d p')
  | addFailed (w w' : World) (d : List Str → Option ObjId) (p : List Str) (c : ObjId) (e : PyErr) :
      DatasetCalls C i w0 w d → (∀ n ∈ p, CompOk n) → addDataset C i p c w = (.error e, w') →
      DatasetCalls C i w0 w' d
  | deleted (w w' : World) (d : List Str → Option ObjId) (p : List Str) :
      DatasetCalls C i w0 w d → rootRecordName ∉ p → deleteSubtree C i p w = (.ok (), w') →
      DatasetCalls C i w0 w' (fun p' => if p <+: p' then none else d p')
  | deleteFailed (w w' : World) (d : List Str → Option ObjId) (p : List Str) (e : PyErr) :
      DatasetCalls C i w0 w d → deleteSubtree C i p w = (.error e, w') → DatasetCalls C i w0 w' d
  | asked (w w' : World) (d : List Str → Option ObjId) (p : List Str) (r : Except PyErr Bool) :
      DatasetCalls C i w0 w d → hasDataset C i p w = (r, w') → DatasetCalls C i w0 w' d
  | got (w w' : World) (d : List Str → Option ObjId) (p : List Str) (r : Except PyErr (Option ObjId)) :
      DatasetCalls C i w0 w d → getRootRecord C i p w = (r, w') → DatasetCalls C i w0 w' d
  | list (w w' : World) (d : List Str → Option ObjId) (n : Nat) (r : Except PyErr (List (PPath × ObjId))) :
      DatasetCalls C i w0 w d → datasetPaths C n i w = (r, w') → DatasetCalls C i w0 w' d

theorem compOk_rootRecordName : CompOk rootRecordName := ⟨by decide, by decide, by decide⟩

theorem compOk_dataset {p : List Str} (hp : ∀ n ∈ p, CompOk n) : ∀ n ∈ p ++ [rootRecordName], CompOk n := by
  intro n hn
  rcases List.mem_append.mp hn with hn | hn
  · exact hp n hn
  · rw [List.mem_singleton.mp hn]; exact compOk_rootRecordName

/-- The elements of the tree that belong to the datasets -/
structure Datasets (C : Cfg) (i : ObjId) (w0 w : World) (d d' : List Str → Option ObjId) : Prop where
  calls : TreeCalls C i w0 w d'
  entry : ∀ p, rootRecordName ∉ p → d' (p ++ [rootRecordName]) = d p
  only : ∀ q c, d' q = some c → ∃ p, q = p ++ [rootRecordName] ∧ rootRecordName ∉ p
  ordinary : ∀ p c, d p = some c → rootRecordName ∉ p
  kind : ∀ p c, d p = some c → (w0.heap c).kind = .mrr
  inner : ∀ q x b, look C w.repo.log w.heap (names q) [] (.mem i) = .found [] x b →
    x.kind.isMtree = true → rootRecordName ∉ q

/-- Nothing but loading -/
theorem Datasets.same {i : ObjId} {w0 w w' : World} {d d' : List Str → Option ObjId}
    (h : Datasets C i w0 w d d') (hi : i < w.next) (hc : TreeCalls C i w0 w' d')
    (hs : ∀ j, j < w.next → SameContent C w.repo.log w.heap (.mem j) w'.repo.log w'.heap (.mem j)) :
    Datasets C i w0 w' d d' := by
  refine ⟨hc, h.entry, h.only, h.ordinary, h.kind, ?_⟩
  intro q x b hq
  rw [← hs i hi] at hq
  exact h.inner q x b hq

theorem getRootRecord_state (p : List Str) (i : ObjId) (w : World) :
    (getRootRecord C i p w).2 = (getObjectAt C (p ++ [rootRecordName]) i w).2 ∨
      ∃ j w1, getObjectAt C (p ++ [rootRecordName]) i w = (.ok (some j), w1) ∧ (w1.heap j).kind = .mrr ∧
        (getRootRecord C i p w).2 = (ensureMapped C j w1).2 := by
  unfold getRootRecord
  cases hg : getObjectAt C (p ++ [rootRecordName]) i w with
  | mk r w1 =>
    cases r with
    | error e => rw [M.bind_of_error hg]; exact Or.inl rfl
    | ok c =>
      rw [M.bind_of_ok hg]
      cases c with
      | none => exact Or.inl rfl
      | some j =>
        simp only
        rw [M.bind_of_ok (getObj_run j w1)]
        by_cases hk : (w1.heap j).kind = .mrr
        · right
          refine ⟨j, w1, rfl, hk, ?_⟩
          rw [decide_eq_true hk, M.bind_of_ok (M.assert_true w1)]
          cases he : ensureMapped C j w1 with
          | mk r2 w2 =>
            cases r2 with
            | error e => rw [M.bind_of_error he]
            | ok b => rw [M.bind_of_ok he]; rfl
        · left
          rw [decide_eq_false hk]
          rfl

theorem hasDataset_state (p : List Str) (i : ObjId) (w : World) :
    (hasDataset C i p w).2 = (getObjectAt C (p ++ [rootRecordName]) i w).2 := by
  unfold hasDataset
  cases hg : getObjectAt C (p ++ [rootRecordName]) i w with
  | mk r w1 =>
    cases r with
    | error e => rw [M.bind_of_error hg]
    | ok c => rw [M.bind_of_ok hg]; rfl

theorem datasetPaths_state (n : Nat) (i : ObjId) (w : World) :
    (datasetPaths C n i w).2 = (getPaths C false n i w).2 := by
  unfold datasetPaths
  cases hg : getPaths C false n i w with
  | mk r w1 =>
    cases r with
    | error e => rw [M.bind_of_error hg]
    | ok c =>
      rw [M.bind_of_ok hg]
      cases eachOk datasetPath c <;> rfl

theorem prefix_dataset {p p' : List Str} (hp : rootRecordName ∉ p) :
    p <+: p' ++ [rootRecordName] ↔ p <+: p' := by
  rw [List.prefix_concat_iff]
  constructor
  · rintro (rfl | h)
    · exact absurd (by simp) hp
    · exact h
  · exact Or.inr

theorem DatasetCalls.datasets {i : ObjId} {w0 w : World} {d : List Str → Option ObjId} (hs : Fine C w0)
    (hi : i < w0.next) (hnew : ∃ leaf, w0.heap i = Obj.new (Body.empty (.mtree leaf)))
    (h : DatasetCalls C i w0 w d) : ∃ d', Datasets C i w0 w d d' := by
  have hk : (w0.heap i).kind.isMtree = true := by obtain ⟨leaf, e⟩ := hnew; rw [e]; rfl
  induction h with
  | start =>
    refine ⟨fun _ => none, .start, fun _ _ => rfl, (fun q c h => by cases h), (fun q c h => by cases h),
      (fun q c h => by cases h), ?_⟩
    intro q x b hq _
    obtain ⟨leaf, hnew⟩ := hnew
    have hm : (w0.heap i).mapped = true := by rw [hnew]; rfl
    have hkids : (w0.heap i).body.kids = [] := by rw [hnew]; rfl
    cases q with
    | nil => simp
    | cons n q =>
      rw [show names (n :: q) = .name n :: names q from rfl,
        look_name_none hm (by rw [hkids]; rfl)] at hq
      cases hq
  | added w w' d p c hsub hc hck hcr hp hnp hadd ih =>
    obtain ⟨d', hd⟩ := ih
    have inv := hd.calls.inv hs hi hk hnew
    have hlt : ∀ j, j < w0.next → j < w.next := fun j hj => Nat.lt_of_lt_of_le hj inv.next
    have hck' : (w0.heap c).kind.isMtree = false := by rw [hck]; rfl
    refine ⟨fun q => if q = p ++ [rootRecordName] then some c else d' q,
      .added w w' d' (p ++ [rootRecordName]) c hd.calls hc hck' hcr (compOk_dataset hp) hadd, ?_, ?_, ?_, ?_, ?_⟩
    · intro p' hp'
      by_cases e : p' = p
      · subst e; simp
      · simp only [List.append_cancel_right_eq, e, if_false]; exact hd.entry p' hp'
    · intro q x hq
      split at hq
      · rename_i e; exact ⟨p, e, hnp⟩
      · exact hd.only q x hq
    · intro p' x hx
      split at hx
      · rename_i e; rw [e]; exact hnp
      · exact hd.ordinary p' x hx
    · intro p' x hx
      split at hx
      · cases hx; exact hck
      · exact hd.kind p' x hx
    · intro q x b hq hxk
      rcases added_found inv.fine (hlt i hi) (hlt c hc) (by rw [inv.kind i hi]; exact hk) inv.onePath
        (inv.apart c hc hck' hcr) (by rw [inv.kind c hc]; exact hck') (compOk_dataset hp) hadd hq with
        ⟨_, h1⟩ | ⟨r, hr, h1⟩ | h1
      · rw [h1] at hxk; cases hxk
      · intro hin
        rcases List.eq_nil_or_concat r with rfl | ⟨r', y, rfl⟩
        · exact hr rfl
        · rw [List.concat_eq_append, ← List.append_assoc] at h1
          have := List.append_inj_left' h1 rfl
          exact hnp (by rw [this]; exact List.mem_append_left _ hin)
      · exact hd.inner q x b h1 hxk
  | addFailed w w' d p c e hsub hp hadd ih =>
    obtain ⟨d', hd⟩ := ih
    have inv := hd.calls.inv hs hi hk hnew
    have hlt := Nat.lt_of_lt_of_le hi inv.next
    exact ⟨d', hd.same hlt (.addFailed w w' d' _ c e hd.calls (compOk_dataset hp) hadd)
      (C12_failed inv.fine hlt (compOk_dataset hp) hadd).1⟩
  | deleted w w' d p hsub hnp hdel ih =>
    obtain ⟨d', hd⟩ := ih
    have inv := hd.calls.inv hs hi hk hnew
    have hlt := Nat.lt_of_lt_of_le hi inv.next
    refine ⟨fun q => if p <+: q then none else d' q, .removed w w' d' p hd.calls hdel, ?_, ?_, ?_, ?_, ?_⟩
    · intro p' hp'
      simp only [prefix_dataset hnp]
      split
      · rfl
      · exact hd.entry p' hp'
    · intro q x hq
      split at hq
      · cases hq
      · exact hd.only q x hq
    · intro q x hq
      split at hq
      · cases hq
      · exact hd.ordinary q x hq
    · intro q x hq
      split at hq
      · cases hq
      · exact hd.kind q x hq
    · intro q x b hq
      obtain ⟨_, b', h1⟩ := removed_found inv.fine hlt inv.onePath hdel hq
      exact hd.inner q x b' h1
  | deleteFailed w w' d p e hsub hdel ih =>
    obtain ⟨d', hd⟩ := ih
    have inv := hd.calls.inv hs hi hk hnew
    have hlt := Nat.lt_of_lt_of_le hi inv.next
    exact ⟨d', hd.same hlt (.removeFailed w w' d' p e hd.calls hdel) (C13_failed inv.fine hlt hdel).1⟩
  | asked w w' d p r hsub hg ih =>
    obtain ⟨d', hd⟩ := ih
    have inv := hd.calls.inv hs hi hk hnew
    have hlt := Nat.lt_of_lt_of_le hi inv.next
    have e := hasDataset_state (C := C) p i w
    rw [hg] at e
    subst e
    exact ⟨d', hd.same hlt (.lookup w _ d' _ _ hd.calls rfl) (getObjectAt_any _ inv.fine hlt).content⟩
  | got w w' d p r hsub hg ih =>
    obtain ⟨d', hd⟩ := ih
    have inv := hd.calls.inv hs hi hk hnew
    have hlt := Nat.lt_of_lt_of_le hi inv.next
    have hl := getObjectAt_any (p ++ [rootRecordName]) inv.fine hlt
    rcases getRootRecord_state (C := C) p i w with e | ⟨j, w1, h1, _, e⟩
    · rw [hg] at e
      subst e
      exact ⟨d', hd.same hlt (.lookup w _ d' _ _ hd.calls rfl) hl.content⟩
    · rw [hg] at e
      subst e
      rw [h1] at hl
      have hj : j < w1.next := (getObjectAt_some _ inv.fine hlt h1).2
      exact ⟨d', hd.same hlt (.load w1 _ d' j _ (.lookup w w1 d' _ _ hd.calls h1) hj rfl)
        (hl.trans (hl.fine.loadsStep hj)).content⟩
  | list w w' d n r hsub hg ih =>
    obtain ⟨d', hd⟩ := ih
    have inv := hd.calls.inv hs hi hk hnew
    have hlt := Nat.lt_of_lt_of_le hi inv.next
    have e := datasetPaths_state (C := C) n i w
    rw [hg] at e
    subst e
    exact ⟨d', hd.same hlt (.list w _ d' false n _ hd.calls rfl) (getPaths_visits false n inv.fine hlt).loads.content⟩

/-- What is at the path of a dataset -/
theorem Datasets.at {i : ObjId} {w0 w : World} {d d' : List Str → Option ObjId} (hd : Datasets C i w0 w d d')
    (inv : TreeInv C i w0 w d') {p : List Str} (hp : rootRecordName ∉ p) :
    (∀ c, d p = some c → ∀ ks, look C w.repo.log w.heap (names (p ++ [rootRecordName]) ++ ks) [] (.mem i) =
        look C w0.repo.log w0.heap ks [] (.mem c)) ∧
      (d p = none → ∀ x b,
        look C w.repo.log w.heap (names (p ++ [rootRecordName])) [] (.mem i) ≠ .found [] x b) := by
  refine ⟨fun c hc => (inv.dict _ _ (by rw [hd.entry p hp]; exact hc)).2.2.2, fun hn x b hx => ?_⟩
  have := inv.only _ (by rw [hd.entry p hp]; exact hn) _ _ _ hx
  exact hd.inner _ _ _ hx this (by simp)

/-- C15: `path in tree` is true exactly for the datasets that were added and not deleted.
Nothing is claimed for paths that contain the name under which the code files the root
records, see `C15_false`. -/
theorem C15_contains_partial {i : ObjId} {w0 w w' : World} {d : List Str → Option ObjId} (hs : Fine C w0)
    (hi : i < w0.next) (hnew : ∃ leaf, w0.heap i = Obj.new (Body.empty (.mtree leaf)))
    (h : DatasetCalls C i w0 w d) {p : List Str} (hp : rootRecordName ∉ p) {b : Bool}
    (hc : hasDataset C i p w = (.ok b, w')) : b = (d p).isSome := by
  have hk : (w0.heap i).kind.isMtree = true := by obtain ⟨leaf, e⟩ := hnew; rw [e]; rfl
  obtain ⟨d', hd⟩ := h.datasets hs hi hnew
  have inv := hd.calls.inv hs hi hk hnew
  have hlt := Nat.lt_of_lt_of_le hi inv.next
  obtain ⟨h1, h2⟩ := hd.at inv hp
  unfold hasDataset at hc
  obtain ⟨c, w1, h3, h4⟩ := M.bind_ok hc
  cases h4
  obtain ⟨_, _, _, g1, g2⟩ := C11_lookup inv.fine hlt (p ++ [rootRecordName])
  rw [h3] at g1 g2
  cases hdp : d p with
  | none =>
    cases c with
    | none => rfl
    | some j =>
      exfalso
      have g3 := g1 j rfl []
      have hl := getObjectAt_any (p ++ [rootRecordName]) inv.fine hlt
      rw [h3] at hl
      obtain ⟨b', hb⟩ := view_ok_of_look (hl.fine.all j [] [])
      rw [List.append_nil, ← hl.log, look_nil [] hb] at g3
      rw [hl.log] at g3
      exact h2 hdp _ _ g3
  | some x =>
    cases c with
    | some j => rfl
    | none =>
      exfalso
      have g3 := h1 x hdp []
      rw [List.append_nil, g2 rfl] at g3
      obtain ⟨b', hb⟩ := view_ok_of_look (hs.all x [] [])
      rw [look_nil [] hb] at g3
      cases g3

/-- C15: looking up the root record of a dataset gives an object with the content of the
record that was added, or nothing if there is no dataset; it fails only if git fails. -/
theorem C15_record_partial {i : ObjId} {w0 w : World} {d : List Str → Option ObjId} (hs : Fine C w0)
    (hi : i < w0.next) (hnew : ∃ leaf, w0.heap i = Obj.new (Body.empty (.mtree leaf)))
    (h : DatasetCalls C i w0 w d) {p : List Str} (hp : rootRecordName ∉ p) :
    (∀ w', getRootRecord C i p w = (.ok none, w') → d p = none) ∧
      (∀ j w', getRootRecord C i p w = (.ok (some j), w') → ∃ c, d p = some c ∧
        ∀ ks, look C w'.repo.log w'.heap ks [] (.mem j) = look C w0.repo.log w0.heap ks [] (.mem c)) ∧
      (w.repo.faults = [] → ∃ r w', getRootRecord C i p w = (.ok r, w')) := by
  have hk : (w0.heap i).kind.isMtree = true := by obtain ⟨leaf, e⟩ := hnew; rw [e]; rfl
  obtain ⟨d', hd⟩ := h.datasets hs hi hnew
  have inv := hd.calls.inv hs hi hk hnew
  have hlt := Nat.lt_of_lt_of_le hi inv.next
  obtain ⟨h1, h2⟩ := hd.at inv hp
  have hl := getObjectAt_any (p ++ [rootRecordName]) inv.fine hlt
  obtain ⟨_, _, _, g1, g2⟩ := C11_lookup inv.fine hlt (p ++ [rootRecordName])
  -- what is found is the record
  have hfound : ∀ j w1, getObjectAt C (p ++ [rootRecordName]) i w = (.ok (some j), w1) →
      ∃ c, d p = some c ∧ (w1.heap j).kind = .mrr ∧ j < w1.next ∧
        ∀ ks, look C w1.repo.log w1.heap ks [] (.mem j) = look C w0.repo.log w0.heap ks [] (.mem c) := by
    intro j w1 hj
    rw [hj] at hl g1
    have hjl : j < w1.next := (getObjectAt_some _ inv.fine hlt hj).2
    have g3 := g1 j rfl
    obtain ⟨b', hb⟩ := view_ok_of_look (hl.fine.all j [] [])
    cases hdp : d p with
    | none =>
      exfalso
      have g4 := g3 []
      rw [List.append_nil, ← hl.log, look_nil [] hb] at g4
      rw [hl.log] at g4
      exact h2 hdp _ _ g4
    | some c =>
      have hcont : ∀ ks, look C w1.repo.log w1.heap ks [] (.mem j) = look C w0.repo.log w0.heap ks [] (.mem c) := by
        intro ks
        rw [← h1 c hdp ks, g3 ks, hl.log]
      refine ⟨c, rfl, ?_, hjl, hcont⟩
      have g5 := hcont []
      obtain ⟨b2, hb2⟩ := view_ok_of_look (hs.all c [] [])
      rw [look_nil [] hb, look_nil [] hb2] at g5
      injection g5 with _ g6
      rw [← view_class hb, g6, view_class hb2]
      exact hd.kind p c hdp
  refine ⟨?_, ?_, ?_⟩
  · intro w' hr
    unfold getRootRecord at hr
    obtain ⟨c, w1, h3, h4⟩ := M.bind_ok hr
    cases c with
    | none =>
      rw [h3] at g2
      cases hdp : d p with
      | none => rfl
      | some x =>
        exfalso
        have g3 := h1 x hdp []
        rw [List.append_nil, g2 rfl] at g3
        obtain ⟨b', hb⟩ := view_ok_of_look (hs.all x [] [])
        rw [look_nil [] hb] at g3
        cases g3
    | some j =>
      simp only at h4
      obtain ⟨o, w2, h5, h6⟩ := M.bind_ok h4
      obtain ⟨u, w3, h7, h8⟩ := M.bind_ok h6
      obtain ⟨b, w4, h9, h10⟩ := M.bind_ok h8
      cases h10
  · intro j w' hr
    unfold getRootRecord at hr
    obtain ⟨c, w1, h3, h4⟩ := M.bind_ok hr
    cases c with
    | none => cases h4
    | some j' =>
      simp only at h4
      obtain ⟨c, hc, hkj, hjl, hcont⟩ := hfound j' w1 h3
      rw [M.bind_of_ok (getObj_run j' w1), decide_eq_true hkj, M.bind_of_ok (M.assert_true w1)] at h4
      obtain ⟨b, w4, h9, h10⟩ := M.bind_ok h4
      cases h10
      refine ⟨c, hc, fun ks => ?_⟩
      rw [h3] at hl
      have hl2 := hl.fine.loadsStep hjl
      rw [h9] at hl2
      rw [← hl2.content j hjl, hcont ks]
  · intro hf
    obtain ⟨r, w1, h3, h4⟩ := getObjectAt_total (p ++ [rootRecordName]) inv.fine hf hlt
    unfold getRootRecord
    rw [M.bind_of_ok h3]
    cases r with
    | none => exact ⟨_, _, rfl⟩
    | some j =>
      obtain ⟨c, hc, hkj, hjl, hcont⟩ := hfound j w1 h3
      simp only
      rw [M.bind_of_ok (getObj_run j w1), decide_eq_true hkj, M.bind_of_ok (M.assert_true w1)]
      rw [h3] at hl
      obtain ⟨b, w2, h5, _⟩ := hl.fine.loads (by rw [h4]; exact hf) j
      rw [M.bind_of_ok h5]
      exact ⟨_, _, rfl⟩

theorem eachOk_map {α β : Type} {f : α → Except PyErr β} {g : α → β} {l : List α}
    (h : ∀ a ∈ l, f a = .ok (g a)) : eachOk f l = .ok (l.map g) := by
  induction l with
  | nil => rfl
  | cons a l ih =>
    simp only [eachOk, h a (List.mem_cons_self ..), ih fun x hx => h x (List.mem_cons_of_mem _ hx)]
    rfl

theorem flatten_singles {α β : Type} (f : α → β) (l : List α) :
    (l.map fun a => [f a]).flatten = l.map f := by
  induction l with
  | nil => rfl
  | cons a l ih => rw [List.map_cons, List.flatten_cons, ih]; rfl

/-- The entries from which the datasets are listed -/
theorem DatasetCalls.entries {i : ObjId} {w0 w w1 : World} {d d' : List Str → Option ObjId} (hs : Fine C w0)
    (hi : i < w0.next) (hnew : ∃ leaf, w0.heap i = Obj.new (Body.empty (.mtree leaf)))
    (hd : Datasets C i w0 w d d') {n : Nat} {l0 : List (PPath × ObjId)}
    (h1 : getPaths C false n i w = (.ok l0, w1)) :
    (∀ e ∈ l0, ∃ p, e.1 = ⟨[], p ++ [rootRecordName]⟩ ∧ rootRecordName ∉ p ∧ ∀ n ∈ p, CompOk n) ∧
      ∀ e ∈ l0, datasetPath e = .ok [(⟨[], e.1.comps.dropLast⟩, e.2)] := by
  have hk : (w0.heap i).kind.isMtree = true := by obtain ⟨leaf, e⟩ := hnew; rw [e]; rfl
  obtain ⟨g1, g2, g3⟩ := C14_dictionary_partial hs hi hnew hd.calls h1
  have inv := hd.calls.inv hs hi hk hnew
  have hcomp : ∀ e ∈ l0, e.1.root = [] ∧ ∀ n ∈ e.1.comps, CompOk n :=
    (getPaths_listed false n inv.fine (Nat.lt_of_lt_of_le hi inv.next) (by rw [inv.kind i hi]; exact hk)
      (fun q x b hq => hd.calls.found hs hi hnew hq) h1).2.2.paths
  have hform : ∀ e ∈ l0, ∃ p, e.1 = ⟨[], p ++ [rootRecordName]⟩ ∧ rootRecordName ∉ p ∧ ∀ n ∈ p, CompOk n := by
    intro e he
    obtain ⟨c, hc, _⟩ := g3 e he
    obtain ⟨p, hp, hnp⟩ := hd.only _ _ hc
    obtain ⟨hr, hn⟩ := hcomp e he
    refine ⟨p, ?_, hnp, fun n hn' => hn n (by rw [hp]; exact List.mem_append_left _ hn')⟩
    cases he1 : e.1 with
    | mk r cs => rw [he1] at hr hp; rw [show r = [] from hr, show cs = _ from hp]
  have hone : ∀ e ∈ l0, datasetPath e = .ok [(⟨[], e.1.comps.dropLast⟩, e.2)] := by
    intro e he
    obtain ⟨p, hp, _, hcp⟩ := hform e he
    unfold datasetPath
    have hparts : e.1.parts = p ++ [rootRecordName] := by rw [hp]; rfl
    have hmp : metadataPath [joinWith '/' p] = ⟨[], p⟩ := by
      unfold metadataPath
      rw [parseParts_joinWith hcp]
      exact parseParts_joinWith hcp
    rw [hparts, show (p ++ [rootRecordName]).getLast? = some rootRecordName by simp, hp]
    simp [hmp]
  exact ⟨hform, hone⟩

/-- C15: listing the datasets gives exactly the datasets that were added and not deleted,
each once, with objects that have the content of the records. -/
theorem C15_list_partial {i : ObjId} {w0 w w' : World} {d : List Str → Option ObjId} (hs : Fine C w0)
    (hi : i < w0.next) (hnew : ∃ leaf, w0.heap i = Obj.new (Body.empty (.mtree leaf)))
    (h : DatasetCalls C i w0 w d) {n : Nat} {l : List (PPath × ObjId)}
    (hl : datasetPaths C n i w = (.ok l, w')) :
    (l.map Prod.fst).Nodup ∧
      (∀ p, p ∈ l.map Prod.fst ↔ p.root = [] ∧ (d p.comps).isSome = true) ∧
      ∀ e ∈ l, ∃ c, d e.1.comps = some c ∧
        ∀ ks, look C w'.repo.log w'.heap ks [] (.mem e.2) = look C w0.repo.log w0.heap ks [] (.mem c) := by
  have hk : (w0.heap i).kind.isMtree = true := by obtain ⟨leaf, e⟩ := hnew; rw [e]; rfl
  obtain ⟨d', hd⟩ := h.datasets hs hi hnew
  unfold datasetPaths at hl
  obtain ⟨l0, w1, h1, h2⟩ := M.bind_ok hl
  obtain ⟨ls, w2, h3, h4⟩ := M.bind_ok h2
  cases h4
  obtain ⟨g1, g2, g3⟩ := C14_dictionary_partial hs hi hnew hd.calls h1
  obtain ⟨hform, hone⟩ := DatasetCalls.entries hs hi hnew hd h1
  rw [eachOk_map hone] at h3
  cases h3
  rw [flatten_singles]
  refine ⟨?_, ?_, ?_⟩
  · rw [List.map_map]
    rw [List.Nodup, List.pairwise_map] at g1 ⊢
    refine List.Pairwise.imp_of_mem ?_ g1
    intro a b ha hb hne heq
    obtain ⟨p, hp, _⟩ := hform a ha
    obtain ⟨q, hq, _⟩ := hform b hb
    rw [hp, hq] at hne
    simp only [Function.comp, hp, hq, List.dropLast_concat, PPath.mk.injEq, true_and] at heq
    exact hne (by rw [heq])
  · intro p
    constructor
    · intro hp
      obtain ⟨e', he', rfl⟩ := List.mem_map.mp hp
      obtain ⟨e, he, rfl⟩ := List.mem_map.mp he'
      obtain ⟨q, hq, hnq, _⟩ := hform e he
      obtain ⟨c, hc, _⟩ := g3 e he
      refine ⟨rfl, ?_⟩
      simp only [hq, List.dropLast_concat]
      rw [← hd.entry q hnq]
      rw [hq] at hc
      rw [hc]
      rfl
    · rintro ⟨hr, hs'⟩
      obtain ⟨c, hc⟩ := Option.isSome_iff_exists.mp hs'
      have hnp := hd.ordinary _ _ hc
      have hin := (g2 ⟨[], p.comps ++ [rootRecordName]⟩).mpr ⟨rfl, by
        show (d' (p.comps ++ [rootRecordName])).isSome = true
        rw [hd.entry _ hnp, hc]; rfl⟩
      obtain ⟨e, he, hep⟩ := List.mem_map.mp hin
      refine List.mem_map.mpr ⟨_, List.mem_map.mpr ⟨e, he, rfl⟩, ?_⟩
      simp only [hep, List.dropLast_concat]
      cases p with
      | mk r cs => rw [show r = [] from hr]
  · intro e' he'
    obtain ⟨e, he, rfl⟩ := List.mem_map.mp he'
    obtain ⟨q, hq, hnq, _⟩ := hform e he
    obtain ⟨c, hc, hk'⟩ := g3 e he
    refine ⟨c, ?_, hk'⟩
    simp only [hq, List.dropLast_concat]
    rw [← hd.entry q hnq]
    rw [hq] at hc
    exact hc

/-- C15: listing the datasets fails only where listing the elements of the tree fails,
see C14. -/
theorem C15_list_fails_partial {i : ObjId} {w0 w w' : World} {d : List Str → Option ObjId} (hs : Fine C w0)
    (hi : i < w0.next) (hnew : ∃ leaf, w0.heap i = Obj.new (Body.empty (.mtree leaf)))
    (h : DatasetCalls C i w0 w d) {n : Nat} {e : PyErr} (hl : datasetPaths C n i w = (.error e, w')) :
    getPaths C false n i w = (.error e, w') := by
  obtain ⟨d', hd⟩ := h.datasets hs hi hnew
  unfold datasetPaths at hl
  cases h1 : getPaths C false n i w with
  | mk r w1 =>
    cases r with
    | error e1 =>
      rw [M.bind_of_error h1] at hl
      exact hl
    | ok l0 =>
      obtain ⟨_, hone⟩ := DatasetCalls.entries hs hi hnew hd h1
      rw [M.bind_of_ok h1, eachOk_map hone] at hl
      cases hl

/-- What listing the datasets makes of one element -/
theorem datasetPath_run {e : PPath × ObjId} (hr : e.1.root = []) (hn : ∀ n ∈ e.1.comps, CompOk n)
    {l : List (PPath × ObjId)} (h : datasetPath e = .ok l) :
    l = if e.1.comps.getLast? = some rootRecordName then [(⟨[], e.1.comps.dropLast⟩, e.2)] else [] := by
  have hparts : e.1.parts = e.1.comps := by
    cases he : e.1 with
    | mk r cs => rw [he] at hr; cases (show r = [] from hr); rfl
  have hmp : metadataPath [joinWith '/' e.1.comps.dropLast] = ⟨[], e.1.comps.dropLast⟩ := by
    have hcp : ∀ n ∈ e.1.comps.dropLast, CompOk n := fun n h => hn n (List.dropLast_subset _ h)
    unfold metadataPath
    rw [parseParts_joinWith hcp]
    exact parseParts_joinWith hcp
  unfold datasetPath at h
  rw [hparts] at h
  cases hl : e.1.comps.getLast? with
  | none => rw [hl] at h; cases h
  | some x =>
    rw [hl] at h
    simp only [hmp] at h
    by_cases hx : x = rootRecordName
    · subst hx; rw [if_pos rfl] at h; rw [if_pos rfl]; cases h; rfl
    · rw [if_neg hx] at h; rw [if_neg (by simpa using hx)]; cases h; rfl

theorem eachOk_filter {l : List (PPath × ObjId)} (hp : ∀ e ∈ l, e.1.root = [] ∧ ∀ n ∈ e.1.comps, CompOk n)
    {ls : List (List (PPath × ObjId))} (h : eachOk datasetPath l = .ok ls) :
    ls.flatten = (l.filter fun e => e.1.comps.getLast? = some rootRecordName).map
      fun e => (⟨[], e.1.comps.dropLast⟩, e.2) := by
  induction l generalizing ls with
  | nil => cases h; rfl
  | cons e l ih =>
    simp only [eachOk] at h
    cases h1 : datasetPath e with
    | error x => rw [h1] at h; cases h
    | ok a =>
      rw [h1] at h
      cases h2 : eachOk datasetPath l with
      | error x => rw [h2] at h; cases h
      | ok b =>
        rw [h2] at h
        cases h
        have he := hp e (List.mem_cons_self ..)
        rw [List.flatten_cons, ih (fun x hx => hp x (List.mem_cons_of_mem _ hx)) h2, datasetPath_run he.1 he.2 h1,
          List.filter_cons]
        by_cases hc : e.1.comps.getLast? = some rootRecordName
        · rw [if_pos hc, if_pos (by simpa using hc)]; rfl
        · rw [if_neg hc, if_neg (by simpa using hc)]; rfl

/-- C15, for every dataset tree, in memory or stored, whatever else it holds: listing the datasets
gives the paths below which there is a root record, each once, and for each an object with the
content of that record. -/
theorem C15_elements_partial {w w' : World} (hs : Fine C w) {i : ObjId} (hi : i < w.next)
    (hk : (w.heap i).kind.isMtree = true) (hg : GoodNames C w i) {n : Nat} {l : List (PPath × ObjId)}
    (h : datasetPaths C n i w = (.ok l, w')) :
    (l.map Prod.fst).Nodup ∧
      (∀ p, p ∈ l.map Prod.fst ↔ p.root = [] ∧
        ∃ d b, look C w.repo.log w.heap (names (p.comps ++ [rootRecordName])) [] (.mem i) = .found [] d b ∧
          d.kind.isMtree = false) ∧
      ∀ e ∈ l, ∀ ks, look C w.repo.log w.heap (names (e.1.comps ++ [rootRecordName]) ++ ks) [] (.mem i) =
        look C w'.repo.log w'.heap ks [] (.mem e.2) := by
  unfold datasetPaths at h
  obtain ⟨l0, w1, h1, h2⟩ := M.bind_ok h
  obtain ⟨ls, w2, h3, h4⟩ := M.bind_ok h2
  cases h4
  have hof : eachOk datasetPath l0 = .ok ls ∧ w1 = w' := by
    cases he : eachOk datasetPath l0 with
    | error x => rw [he] at h3; cases h3
    | ok b => rw [he] at h3; cases h3; exact ⟨rfl, rfl⟩
  obtain ⟨hof, rfl⟩ := hof
  obtain ⟨g1, g2, g3, _⟩ := C14_listed_partial hs hi hk hg h1
  have hpaths := (getPaths_listed false n hs hi hk hg h1).2.2.paths
  rw [eachOk_filter hpaths hof]
  have last : ∀ {cs : List Str}, cs.getLast? = some rootRecordName → cs.dropLast ++ [rootRecordName] = cs :=
    fun {cs} hx => by
      obtain ⟨ys, rfl⟩ := List.getLast?_eq_some_iff.mp hx
      simp
  have mem : ∀ {e : PPath × ObjId}, e ∈ l0.filter (fun e => decide (e.1.comps.getLast? = some rootRecordName)) →
      e ∈ l0 ∧ e.1.comps.getLast? = some rootRecordName := fun {e} he => by
    have := List.mem_filter.mp he
    exact ⟨this.1, by simpa using this.2⟩
  refine ⟨?_, ?_, ?_⟩
  · rw [List.map_map]
    have g1' : ((l0.filter fun e => decide (e.1.comps.getLast? = some rootRecordName)).map Prod.fst).Nodup :=
      g1.sublist (List.filter_sublist.map _)
    rw [List.Nodup, List.pairwise_map] at g1' ⊢
    refine List.Pairwise.imp_of_mem ?_ g1'
    intro a b ha hb hne heq
    have ha' := mem ha
    have hb' := mem hb
    simp only [Function.comp, PPath.mk.injEq, true_and] at heq
    have hcs : a.1.comps = b.1.comps := by rw [← last ha'.2, ← last hb'.2, heq]
    refine hne ?_
    have r1 := (hpaths a ha'.1).1
    have r2 := (hpaths b hb'.1).1
    cases hA : a.1 with
    | mk ra ca => cases hB : b.1 with
      | mk rb cb =>
        rw [hA] at r1 hcs; rw [hB] at r2 hcs
        rw [show ra = [] from r1, show rb = [] from r2, show ca = cb from hcs]
  · intro p
    constructor
    · intro hp
      obtain ⟨e', he', rfl⟩ := List.mem_map.mp hp
      obtain ⟨e, he, rfl⟩ := List.mem_map.mp he'
      obtain ⟨m1, m2⟩ := mem he
      obtain ⟨_, d, b, hd, hc⟩ := (g2 e.1).mp (List.mem_map_of_mem m1)
      refine ⟨rfl, d, b, ?_, hc.resolve_left (by decide)⟩
      simp only [last m2]
      exact hd
    · rintro ⟨hr, d, b, hd, hc⟩
      obtain ⟨e, he, hep⟩ := List.mem_map.mp ((g2 ⟨[], p.comps ++ [rootRecordName]⟩).mpr ⟨rfl, d, b, hd, Or.inr hc⟩)
      refine List.mem_map.mpr ⟨_, List.mem_map.mpr ⟨e, List.mem_filter.mpr ⟨he, ?_⟩, rfl⟩, ?_⟩
      · rw [hep]; simp
      · simp only [hep, List.dropLast_concat]
        cases p with
        | mk r cs => rw [show r = [] from hr]
  · intro e' he' ks
    obtain ⟨e, he, rfl⟩ := List.mem_map.mp he'
    obtain ⟨m1, m2⟩ := mem he
    simp only [last m2]
    exact g3 e m1 ks

/-! ### Where C15 fails -/

/-- A new dataset tree (9) next to the objects of the example -/
def datasetWorld : World := populate (start ⟨[], []⟩) (sampleBodies ++ [⟨.mtree .mrr, []⟩])

/-- C15 does not hold for paths with the name under which the code files root records:
after a dataset was added at `x/.datalad_metadata_root_record`, the tree claims to contain a dataset at
`x`, which the listing does not show, and looking it up fails. -/
theorem C15_false :
    ∃ w, addDataset sampleCfg 9 [c!"x", rootRecordName] 4 datasetWorld = (.ok (), w) ∧
      (∃ w', hasDataset sampleCfg 9 [c!"x"] w = (.ok true, w')) ∧
      (∃ l w', datasetPaths sampleCfg 20 9 w = (.ok l, w') ∧ ⟨[], [c!"x"]⟩ ∉ l.map Prod.fst) ∧
      ∃ e w', getRootRecord sampleCfg 9 [c!"x"] w = (.error e, w') := by
  refine ⟨_, of_isOk_unit (by decide +kernel), ⟨_, of_okVal (by decide +kernel)⟩,
    ⟨[(⟨[], [c!"x", rootRecordName]⟩, 4)], _, of_okVal (by decide +kernel), by decide⟩,
    .assertion, _, of_errOf (by decide +kernel)⟩

/-! ### Examples -/

theorem datasetWorld_fine : Fine sampleCfg datasetWorld := by
  have h : Session sampleCfg sampleRealm datasetWorld :=
    (session_populate (sampleBodies ++ [⟨.mtree .mrr, []⟩]) (session_start ⟨[], []⟩) (fun _ => rfl)
      (by decide)).1
  refine (h.sane (by decide)).fine (by decide) ?_
  refine AllFormed.populate _ (AllFormed.start _) ?_
  intro b hb
  rcases List.mem_append.mp hb with hb | hb
  · exact sampleBodies_formed b hb
  · rw [List.mem_singleton.mp hb]; exact formed_of_check (by decide)

theorem compOk_some {n : Str} (h : n = c!"x" ∨ n = c!"y") : CompOk n := by
  rcases h with rfl | rfl <;> exact ⟨by decide, by decide, by decide⟩

theorem treeWorld_solid : Solid sampleCfg treeWorld 3 3 ∧ GoodNames sampleCfg treeWorld 3 := by
  have hs := treeWorld_fine
  have h1 : Solid sampleCfg treeWorld 1 1 ∧ GoodNames sampleCfg treeWorld 1 :=
    solid_leaf hs (by decide +kernel)
  have h2 : Solid sampleCfg treeWorld 2 2 ∧ GoodNames sampleCfg treeWorld 2 := by
    have e : (treeWorld.heap 2).body.kids = [(.name c!"b", [], 1)] := by decide +kernel
    refine solid_node hs (by decide +kernel) (by rw [e]; simp) ?_
    rw [e]
    intro x hx
    cases List.mem_singleton.mp hx
    exact ⟨⟨by decide, by decide, by decide⟩, h1⟩
  have e : (treeWorld.heap 3).body.kids = [(.name c!"a", [], 2)] := by decide +kernel
  refine solid_node hs (by decide +kernel) (by rw [e]; simp) ?_
  rw [e]
  intro x hx
  cases List.mem_singleton.mp hx
  exact ⟨⟨by decide, by decide, by decide⟩, h2⟩

/-- The hypotheses of the theorems on C14 hold for the file tree of the example, which
has metadata at the path `a/b`. -/
example : ∃ l w', Fine sampleCfg treeWorld ∧ 3 < treeWorld.next ∧ (treeWorld.heap 3).kind.isMtree = true ∧
    GoodNames sampleCfg treeWorld 3 ∧ Solid sampleCfg treeWorld 3 3 ∧ treeWorld.repo.faults = [] ∧
    getPaths sampleCfg true 5 3 treeWorld = (.ok l, w') ∧
    l.map Prod.fst = [⟨[], []⟩, ⟨[], [c!"a"]⟩, ⟨[], [c!"a", c!"b"]⟩] := by
  have hs := treeWorld_fine
  have h3 := treeWorld_solid
  refine ⟨_, _, hs, by decide +kernel, by decide +kernel, h3.2, h3.1, by decide +kernel,
    of_okVal (a := [(⟨[], []⟩, 3), (⟨[], [c!"a"]⟩, 2), (⟨[], [c!"a", c!"b"]⟩, 1)]) (by decide +kernel), rfl⟩

/-- A dataset tree with a dataset at `x` and a root record that is filed under another name: the
hypotheses of `C15_elements_partial` hold, only the dataset is listed. -/
def mixedWorld : World := populate (start ⟨[], []⟩) (sampleBodies ++
  [⟨.mtree .mrr, [(.name rootRecordName, [], 4), (.name c!"other", [], 4)]⟩, ⟨.mtree .mrr, [(.name c!"x", [], 9)]⟩])

theorem mixedWorld_fine : Fine sampleCfg mixedWorld := by
  have h : Session sampleCfg sampleRealm mixedWorld :=
    (session_populate _ (session_start ⟨[], []⟩) (fun _ => rfl) (by decide)).1
  refine (h.sane (by decide)).fine (by decide) ?_
  refine AllFormed.populate _ (AllFormed.start _) ?_
  intro b hb
  rcases List.mem_append.mp hb with hb | hb
  · exact sampleBodies_formed b hb
  · simp only [List.mem_cons, List.not_mem_nil, or_false] at hb
    rcases hb with rfl | rfl <;> exact formed_of_check (by decide)

example : Fine sampleCfg mixedWorld ∧ 10 < mixedWorld.next ∧ (mixedWorld.heap 10).kind.isMtree = true ∧
    GoodNames sampleCfg mixedWorld 10 ∧ (∃ l w', getPaths sampleCfg false 20 10 mixedWorld = (.ok l, w') ∧ l.length = 2) ∧
    ∃ w', datasetPaths sampleCfg 20 10 mixedWorld = (.ok [(⟨[], [c!"x"]⟩, 4)], w') := by
  have hs := mixedWorld_fine
  have h4 := solid_leaf hs (i := 4) (by decide +kernel)
  have h9 : Solid sampleCfg mixedWorld 9 2 ∧ GoodNames sampleCfg mixedWorld 9 := by
    have e : (mixedWorld.heap 9).body.kids = [(.name rootRecordName, [], 4), (.name c!"other", [], 4)] := by decide +kernel
    refine solid_node hs (by decide +kernel) (by rw [e]; simp) ?_
    rw [e]
    intro x hx
    simp only [List.mem_cons, List.not_mem_nil, or_false] at hx
    rcases hx with rfl | rfl <;> exact ⟨⟨by decide, by decide, by decide⟩, h4⟩
  have h10 : Solid sampleCfg mixedWorld 10 3 ∧ GoodNames sampleCfg mixedWorld 10 := by
    have e : (mixedWorld.heap 10).body.kids = [(.name c!"x", [], 9)] := by decide +kernel
    refine solid_node hs (by decide +kernel) (by rw [e]; simp) ?_
    rw [e]
    intro x hx
    cases List.mem_singleton.mp hx
    exact ⟨⟨by decide, by decide, by decide⟩, h9⟩
  exact ⟨hs, by decide +kernel, by decide +kernel, h10.2,
    ⟨[(⟨[], [c!"x", rootRecordName]⟩, 4), (⟨[], [c!"x", c!"other"]⟩, 4)], _, of_okVal (by decide +kernel), rfl⟩,
    _, of_okVal (by decide +kernel)⟩

/-- The hypotheses of the theorems on C15 hold for a new dataset tree to which the same
record was added at two paths, one of which was deleted; the listing succeeds. -/
example : ∃ w d l w', DatasetCalls sampleCfg 9 datasetWorld w d ∧ Fine sampleCfg datasetWorld ∧
    9 < datasetWorld.next ∧ (∃ leaf, datasetWorld.heap 9 = Obj.new (Body.empty (.mtree leaf))) ∧
    d [c!"y"] = some 4 ∧ d [] = some 4 ∧ d [c!"x"] = none ∧
    datasetPaths sampleCfg 20 9 w = (.ok l, w') ∧ l.length = 2 := by
  have hr : ¬ Reach datasetWorld.heap 4 9 := by
    intro h
    have : (9 : ObjId) < 5 := reach_closed (S := fun p => p < 5) (by
      intro p hp _ k hk
      have : ∀ p, p < 5 → ∀ k ∈ (datasetWorld.heap p).body.subs, k < 5 := by decide +kernel
      exact this p hp k hk) h (by decide)
    exact absurd this (by decide)
  have h0 : DatasetCalls sampleCfg 9 datasetWorld _ _ := .added _ _ _ [] 4 .start (by decide +kernel)
    (by decide +kernel) hr (fun n hn => by cases hn) (by decide) (of_isOk_unit (by decide +kernel))
  have h1 := DatasetCalls.added _ _ _ [c!"x"] 4 h0 (by decide +kernel) (by decide +kernel) hr
    (fun n hn => compOk_some (Or.inl (List.mem_singleton.mp hn))) (by decide) (of_isOk_unit (by decide +kernel))
  have h2 := DatasetCalls.added _ _ _ [c!"y"] 4 h1 (by decide +kernel) (by decide +kernel) hr
    (fun n hn => compOk_some (Or.inr (List.mem_singleton.mp hn))) (by decide) (of_isOk_unit (by decide +kernel))
  have h3 := DatasetCalls.deleted _ _ _ [c!"x"] h2 (by decide) (of_isOk_unit (by decide +kernel))
  exact ⟨_, _, [(⟨[], []⟩, 4), (⟨[], [c!"y"]⟩, 4)], _, h3, datasetWorld_fine, by decide +kernel,
    ⟨.mrr, rfl⟩, by decide, by decide, by decide, of_okVal (by decide +kernel), rfl⟩

end MM
