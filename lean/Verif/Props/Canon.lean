/-
C30: references do not depend on insertion order.
-/
import Verif.Neat
import Verif.Parts
import Verif.Props.Session
import Verif.Props.Batch
import Verif.Check

namespace MM

section
variable {C : Cfg} {r r' : Realm}

/-- A tree that can be stored holds only trees, metadata and root records. -/
theorem inTree_reach {recs : Bool} {h : Heap} {i j : ObjId} (hr : Reach h i j) (hsto : Storable h i)
    (hk : (h i).kind.inTree recs = true) : (h j).kind.inTree recs = true := by
  induction hr with
  | refl i => exact hk
  | step i k j hm hkm hr' ih =>
    refine ih (fun x hx => hsto x (Reach.step i k x hm hkm hx)) ?_
    obtain ⟨e, he, rfl⟩ := List.mem_map.mp hkm
    have hs := (hsto i (Reach.refl i) hm).slots e he
    have hki : (h i).kind = (h i).body.data.kind := rfl
    rw [hki] at hk
    cases hd : (h i).body.data.kind <;> rw [hd] at hs hk <;> cases hk1 : e.1 <;> rw [hk1] at hs <;>
      simp only [SlotOk] at hs <;> simp only [Kind.inTree, Bool.false_eq_true] at hk
    · rename_i leaf n
      cases leaf <;> rcases hs.2.2 with h1 | h1 <;> rw [h1] <;> first | rfl | exact hk | cases hk
    · rw [hs.2]; rfl
    · rw [hs.2]; rfl

/-- What is asked of the root records in a tree: their file trees are not empty, and the references of
saved parts have the class names that writing gives them. -/
def RecordsOk (recs : Bool) (r : Realm) (h : Heap) (i : ObjId) : Prop :=
  recs = true → ∀ j, Reach h i j → AsWritten recs r (h j) ∧
    ((h j).mapped = true → (h j).body.data = .mtree .metadata → (h j).body.kids ≠ [])

theorem plain_of_records {recs : Bool} {h : Heap} {i j : ObjId} (ho : RecordsOk recs r h i) (hsto : Storable h i)
    (hk : (h i).kind.inTree recs = true) (hr : Reach h i j) (hm : (h j).mapped = true) : (h j).body.plain recs := by
  have hj : (h j).body.data.kind.inTree recs = true := inTree_reach hr hsto hk
  refine ⟨fun e => ?_, fun e => ?_, fun e => (ho e j hr).2 hm⟩
  · rw [e] at hj; cases hj
  · rw [e] at hj; cases hj

/-- Whatever the outcome, writing a tree keeps the repository tidy. -/
theorem C30_tidy_partial {recs : Bool} (hr : r ≠ []) {w : World} (hs : Session C r w) {via : Via} {n : Nat}
    {force : Bool} {i : ObjId} (hk : (w.heap i).kind.inTree recs = true) (hsto : Storable w.heap i)
    (ho : RecordsOk recs r w.heap i) (ht : Tidy C w.repo.log r recs) :
    Tidy C (writeAs C via n (some r) force i w).2.eff r recs ∧
      ∀ ref, (writeAs C via n (some r) force i w).1 = .ok ref → RefOk (w.heap i).kind ref := by
  have key := Tame.writeAs (C := C) (recs := recs) (P := Neatly C recs) (fun _ h => h) hr via n force (Reach.refl i)
    w (neat_reach (hs.flags hr) (fun j hj e => (ho e j hj).1 e) hsto
      (fun j hj hm => Or.inl (plain_of_records ho hsto hk hj hm))
      (by rw [(hs.sane hr).eff]; exact tidy_iff.mp ht))
  exact ⟨tidy_iff.mpr key.1.tidy, fun ref h => (key.2 ref h).ok⟩

/-- C30: two trees with the same content, written in two processes, to one or two repositories and in
any way, get the same location.  `recs` is set for trees of datasets. -/
theorem C30_partial {recs : Bool} (hr : r ≠ []) (hr' : r' ≠ []) {w w1 v v1 : World} (hs : Session C r w)
    (hs' : Session C r' v) {via via' : Via} {n n' : Nat} {force force' : Bool} {i i' : ObjId} {ref ref' : Ref}
    (h : writeAs C via n (some r) force i w = (.ok ref, w1))
    (h' : writeAs C via' n' (some r') force' i' v = (.ok ref', v1))
    (hc : CollisionFree C w1.repo.log) (hc' : CollisionFree C v1.repo.log)
    (hsto : Storable w.heap i) (hsto' : Storable v.heap i')
    (hk : (w.heap i).kind.inTree recs = true) (hkk : (v.heap i').kind = (w.heap i).kind)
    (ho : RecordsOk recs r w.heap i) (ho' : RecordsOk recs r' v.heap i')
    (ht : Tidy C w.repo.log r recs) (ht' : Tidy C v.repo.log r' recs)
    (hd : ∃ d, Depth C w.repo.log w.heap d (.mem i))
    (hsame : SameContent C w.repo.log w.heap (.mem i) v.repo.log v.heap (.mem i')) : ref.loc = ref'.loc := by
  have hpub : ∀ {k : Kind}, k.inTree recs = true → pubName k = none := by
    intro k hk; cases k <;> first | rfl | cases hk
  have hnorm : ∀ {k : Kind} (x : Ref), k.inTree recs = true → normRef k x = x := by
    intro k x hk
    unfold normRef
    rw [if_neg (by rintro rfl; cases hk)]
  have hk' : (v.heap i').kind.inTree recs = true := by rw [hkk]; exact hk
  have hal : Alone r w.heap i := by intro nm hn; rw [hpub hk] at hn; cases hn
  have hal' : Alone r' v.heap i' := by intro nm hn; rw [hpub hk'] at hn; cases hn
  obtain ⟨t1, l1⟩ := C30_tidy_partial (via := via) (n := n) (force := force) hr hs hk hsto ho ht
  obtain ⟨t2, l2⟩ := C30_tidy_partial (via := via') (n := n') (force := force') hr' hs' hk' hsto' ho' ht'
  rw [h] at t1 l1
  rw [h'] at t2 l2
  rw [((hs.sane hr).write_plain hr h).2.1] at t1
  rw [((hs'.sane hr').write_plain hr' h').2.1] at t2
  obtain ⟨s1, f1⟩ := C17_read_back_partial hr (hs.history hr) h hc hsto hal ((hs.sane hr).trusted i)
    ((hs.sane hr).owned i) w.heap
  obtain ⟨s2, f2⟩ := C17_read_back_partial hr' (hs'.history hr') h' hc' hsto' hal' ((hs'.sane hr').trusted i')
    ((hs'.sane hr').owned i') w.heap
  rw [hnorm _ hk] at s1 f1
  rw [hnorm _ hk'] at s2 f2
  obtain ⟨d, hd⟩ := hd
  have loc : ∀ {k : Kind} {x : Ref}, k.inTree recs = true → RefOk k x → ∃ l, x.loc = some l ∧ LocOk k l := by
    intro k x hk hx
    obtain ⟨l, e1, e2⟩ := hx.loc
    rw [hpub hk] at e2
    exact ⟨l, e1, e2.imp id fun e => e.elim id (fun e => by cases e)⟩
  obtain ⟨l, e1, e2⟩ := loc hk (l1 ref rfl)
  obtain ⟨l', e1', e2'⟩ := loc hk' (l2 ref' rfl)
  have := (same_loc t1 t2 d hk e1 e1' e2 e2' f1 ((s1.symm.trans hsame).trans s2)
    (fun ks t hl => by rw [← s1 ks t]; exact hd ks t hl)).2
  rw [e1, e1', this]

/-! ### The order of the elements -/

/-- The same objects, but every object may hold its parts in another order. -/
def Shuffled (h h' : Heap) : Prop :=
  ∀ j, (dkeys (h j).body.kids).Nodup ∧ ∃ ks, ks.Perm (h j).body.kids ∧ h' j = { h j with body := ⟨(h j).body.data, ks⟩ }

theorem Shuffled.same {h h' : Heap} {L : Log} (hs : Shuffled h h') (i : ObjId) :
    SameContent C L h (.mem i) L h' (.mem i) := by
  have hview : ∀ i, (∃ b b', view C L h (.mem i) = .ok b ∧ view C L h' (.mem i) = .ok b' ∧ b'.data = b.data ∧
      b'.blank = b.blank ∧ ((b' = b ∧ ∀ e ∈ b.kids, ∃ x l, e.2.2 = .sto x l) ∨
        (b = (h i).body.map .mem ∧ ∀ k, dget b'.kids k = dget b.kids k))) ∨
      ∃ e, view C L h (.mem i) = .error e ∧ view C L h' (.mem i) = .error e := by
    intro i
    obtain ⟨hn, ks, hp, he⟩ := hs i
    by_cases hm : (h i).mapped = true
    · left
      have hm' : (h' i).mapped = true := by rw [he]; exact hm
      refine ⟨_, _, view_mapped hm, view_mapped hm', by rw [he]; rfl, ?_, Or.inr ⟨rfl, fun k => ?_⟩⟩
      · rw [he]
        simp only [Body.blank, Body.map]
        congr 1
        cases hk : (h i).body.kids with
        | nil => rw [hk] at hp; rw [hp.eq_nil]
        | cons a l =>
          rw [hk] at hp
          cases hks : ks with
          | nil => rw [hks] at hp; exact absurd hp.symm.eq_nil (by simp)
          | cons _ _ => rfl
      · rw [Body.dget_map, Body.dget_map, he]
        simp only
        rw [dget_perm hp.symm hn]
    · have hm0 : (h i).mapped = false := by simpa using hm
      have heq : view C L h' (.mem i) = view C L h (.mem i) := by
        have hkind : (h' i).kind = (h i).kind := by rw [he]; rfl
        simp only [view, he, hm0, Bool.false_eq_true, if_false]
        rfl
      cases hv : view C L h (.mem i) with
      | error e => exact Or.inr ⟨e, rfl, by rw [heq, hv]⟩
      | ok b =>
        refine Or.inl ⟨b, b, rfl, by rw [heq, hv], rfl, rfl, Or.inl ⟨rfl, fun e hmem => ?_⟩⟩
        obtain ⟨x, rf, a, _, _, _, rfl⟩ := (view_away hm0).mp hv
        simp only [Body.map] at hmem
        obtain ⟨e', _, rfl⟩ := List.mem_map.mp hmem
        exact ⟨x, e'.2.2, rfl⟩
  intro ks
  induction ks generalizing i with
  | nil =>
    intro t
    rcases hview i with ⟨b, b', h1, h2, h3, h4, _⟩ | ⟨e, h1, h2⟩
    · rw [look_nil t h1, look_nil t h2, h3, h4]
    · simp [look, h1, h2]
  | cons k ks ih =>
    intro t
    rcases hview i with ⟨b, b', h1, h2, h3, h4, h5⟩ | ⟨e, h1, h2⟩
    · rw [look_cons h1, look_cons h2]
      rcases h5 with ⟨rfl, h5⟩ | ⟨rfl, h5⟩
      · cases hd : dget b'.kids k with
        | none => rfl
        | some e =>
          obtain ⟨t', c⟩ := e
          obtain ⟨x, l, hc⟩ := h5 _ (mem_of_dget hd)
          simp only at hc
          subst hc
          simp only
          rw [look_sto_heap x l (h := h) (h' := h') ks t']
          rfl
      · rw [h5 k, Body.dget_map]
        cases hd : dget (h i).body.kids k with
        | none => rfl
        | some e =>
          simp only [Option.map_some]
          rcases hview e.2 with ⟨c, c', g1, g2, _, g4, _⟩ | ⟨x, g1, g2⟩
          · rw [g1, g2]
            simp only [g4]
            rw [ih e.2 e.1]
          · rw [g1, g2]
    · simp [look, h1, h2]

/-- The content of loaded objects does not depend on the repositories. -/
theorem look_loaded {h : Heap} {L L' : Log} (ks : List Key) : ∀ {i : ObjId}, (∀ j, Reach h i j → (h j).mapped = true) →
    ∀ t, look C L h ks t (.mem i) = look C L' h ks t (.mem i) := by
  induction ks with
  | nil =>
    intro i hl t
    rw [look_nil t (view_mapped (hl i (Reach.refl i))), look_nil t (view_mapped (hl i (Reach.refl i)))]
  | cons k ks ih =>
    intro i hl t
    have hm := hl i (Reach.refl i)
    rw [look_cons (view_mapped hm), look_cons (view_mapped hm), Body.dget_map]
    cases hd : dget (h i).body.kids k with
    | none => rfl
    | some e =>
      have hk : ∀ j, Reach h e.2 j → (h j).mapped = true := fun j hj =>
        hl j (Reach.step i e.2 j hm (List.mem_map.mpr ⟨_, mem_of_dget hd, rfl⟩) hj)
      have hm' := hk e.2 (Reach.refl _)
      simp only [Option.map_some]
      rw [view_mapped hm', view_mapped hm', ih hk e.1]

/-- Loaded objects are not nested without end. -/
theorem depth_loaded {h : Heap} {L : Log} {rank : ObjId → Nat} (hrk : Ranked rank h) : ∀ (d : Nat) {i : ObjId},
    rank i ≤ d → (∀ j, Reach h i j → (h j).mapped = true) → Depth C L h d (.mem i) := by
  intro d
  induction d with
  | zero =>
    intro i hi hl ks t hks
    have hm := hl i (Reach.refl i)
    cases ks with
    | nil => cases hks
    | cons k ks =>
      rw [look_cons (view_mapped hm), Body.dget_map]
      cases hd : dget (h i).body.kids k with
      | none => rfl
      | some e =>
        have := hrk i hm e.2 (List.mem_map.mpr ⟨_, mem_of_dget hd, rfl⟩)
        omega
  | succ d ih =>
    intro i hi hl ks t hks
    have hm := hl i (Reach.refl i)
    cases ks with
    | nil => cases hks
    | cons k ks =>
      rw [look_cons (view_mapped hm), Body.dget_map]
      cases hd : dget (h i).body.kids k with
      | none => rfl
      | some e =>
        have hlt := hrk i hm e.2 (List.mem_map.mpr ⟨_, mem_of_dget hd, rfl⟩)
        have hk : ∀ j, Reach h e.2 j → (h j).mapped = true := fun j hj =>
          hl j (Reach.step i e.2 j hm (List.mem_map.mpr ⟨_, mem_of_dget hd, rfl⟩) hj)
        simp only [Option.map_some]
        rw [view_mapped (hk e.2 (Reach.refl _))]
        simp only
        split
        · rfl
        · exact ih (by omega) hk ks e.1 (by simpa using hks)

/-- C30: trees whose elements were put in in different orders get the same location, in one or two tidy
repositories.  `Shuffled` allows another order in every node of the tree. -/
theorem C30_order_partial {recs : Bool} (hr : r ≠ []) (hr' : r' ≠ []) {w w1 v v1 : World} (hs : Session C r w)
    (hs' : Session C r' v) {via via' : Via} {n n' : Nat} {force force' : Bool} {i : ObjId} {ref ref' : Ref}
    (h : writeAs C via n (some r) force i w = (.ok ref, w1))
    (h' : writeAs C via' n' (some r') force' i v = (.ok ref', v1))
    (hc : CollisionFree C w1.repo.log) (hc' : CollisionFree C v1.repo.log)
    (hsto : Storable w.heap i) (hsto' : Storable v.heap i)
    (hk : (w.heap i).kind.inTree recs = true)
    (ho : RecordsOk recs r w.heap i) (ho' : RecordsOk recs r' v.heap i)
    (ht : Tidy C w.repo.log r recs) (ht' : Tidy C v.repo.log r' recs)
    (hl : ∀ j, Reach w.heap i j → (w.heap j).mapped = true) (hsh : Shuffled w.heap v.heap) : ref.loc = ref'.loc := by
  obtain ⟨rank, hrk⟩ := (hs.sane hr).ranked
  have hkk : (v.heap i).kind = (w.heap i).kind := by
    obtain ⟨_, ks, _, he⟩ := hsh i; rw [he]; rfl
  refine C30_partial hr hr' hs hs' h h' hc hc' hsto hsto' hk hkk ho ho' ht ht'
    ⟨rank i, depth_loaded hrk _ (Nat.le_refl _) hl⟩ fun ks t => ?_
  rw [look_loaded (L' := v.repo.log) ks hl t]
  exact hsh.same i ks t

end

/-! ### Cases that meet the hypotheses -/

/-- The objects of `fourBodies`, put in in another order -/
def fourMixed : List (Body ObjId) :=
  [⟨.metadata [], []⟩, ⟨.metadata [], []⟩, ⟨.metadata [(c!"e", ⟨[], []⟩)], []⟩, ⟨.metadata [(c!"f", ⟨[], []⟩)], []⟩,
   ⟨.mtree .metadata, [(.name c!"b", [], 1), (.name c!"a", [], 0)]⟩,
   ⟨.mtree .metadata, [(.name c!"a", [], 3), (.name c!"c", [], 2)]⟩,
   ⟨.mtree .metadata, [(.name c!"x", [], 5), (.name c!"y", [], 4)]⟩]

/-- Writing it to another repository -/
def fourMixedFile : Except PyErr Ref × World :=
  writeAs sampleCfg .file 20 (some c!"/other") false 6 (populate (MM.start ⟨[], []⟩) fourMixed)

theorem tidy_empty (C : Cfg) (r : Realm) (recs : Bool) : Tidy C [] r recs :=
  ⟨(fun _ h => by cases h), (fun _ _ h => by cases h), (fun _ _ h => by cases h), (fun _ _ _ _ h => by cases h)⟩

theorem four_session {bs : List (Body ObjId)} (r : Realm) (hb : bs = fourBodies ∨ bs = fourMixed) :
    Session sampleCfg r (populate (MM.start ⟨[], []⟩) bs) ∧ ∀ j, ((populate (MM.start ⟨[], []⟩) bs).heap j).savedOn = [] :=
  session_populate bs (session_start _) (fun _ => rfl) (by rcases hb with rfl | rfl <;> decide)

/-- Only the first objects of a process were created. -/
theorem populate_rest (bs : List (Body ObjId)) : ∀ (w : World) (j : ObjId), j < w.next ∨ w.next + bs.length ≤ j →
    (populate w bs).heap j = w.heap j := by
  induction bs with
  | nil => intro w j _; rfl
  | cons b bs ih =>
    intro w j hj
    have e : populate w (b :: bs) = populate (create (Obj.new b) w) bs := rfl
    have hn : (create (Obj.new b) w).next = w.next + 1 := rfl
    rw [e, ih _ j (by rw [hn]; simp only [List.length_cons] at hj; oomega), create_ne]
    simp only [List.length_cons] at hj
    intro h
    rw [h] at hj
    oomega

theorem four_shuffled : Shuffled (populate (MM.start ⟨[], []⟩) fourBodies).heap
    (populate (MM.start ⟨[], []⟩) fourMixed).heap := by
  intro j
  by_cases hj : j < 7
  · have hj' : j = 0 ∨ j = 1 ∨ j = 2 ∨ j = 3 ∨ j = 4 ∨ j = 5 ∨ j = 6 := by oomega
    rcases hj' with rfl | rfl | rfl | rfl | rfl | rfl | rfl
    · exact ⟨by decide +kernel, [], .refl _, rfl⟩
    · exact ⟨by decide +kernel, [], .refl _, rfl⟩
    · exact ⟨by decide +kernel, [], .refl _, rfl⟩
    · exact ⟨by decide +kernel, [], .refl _, rfl⟩
    · exact ⟨by decide +kernel, _, .swap _ _ _, rfl⟩
    · exact ⟨by decide +kernel, _, .swap _ _ _, rfl⟩
    · exact ⟨by decide +kernel, _, .swap _ _ _, rfl⟩
  · have h1 := populate_rest fourBodies (MM.start ⟨[], []⟩) j (Or.inr (by show 0 + 7 ≤ j; oomega))
    have h2 := populate_rest fourMixed (MM.start ⟨[], []⟩) j (Or.inr (by show 0 + 7 ≤ j; oomega))
    rw [h1, h2]
    exact ⟨List.nodup_nil, [], .refl _, rfl⟩

/-- The hypotheses of `C30_order_partial` are met: the elements are in another order in all three nodes,
one tree is written directly and the other through the cache to another repository. -/
example : okRef fourOwn = okRef fourMixedFile ∧ (okRef fourOwn).loc = (okRef fourMixedFile).loc := by
  refine ⟨by decide +kernel, ?_⟩
  have h1 : fourOwn = (.ok (okRef fourOwn), fourOwn.2) := of_isOk (by decide +kernel)
  have h2 : fourMixedFile = (.ok (okRef fourMixedFile), fourMixedFile.2) := of_isOk (by decide +kernel)
  have hl : ∀ j, ((populate (MM.start ⟨[], []⟩) fourBodies).heap j).mapped = true := by
    intro j
    by_cases hj : j < 7
    · have : ∀ p, p < 7 → ((populate (MM.start ⟨[], []⟩) fourBodies).heap p).mapped = true := by decide +kernel
      exact this j hj
    · rw [populate_rest fourBodies (MM.start ⟨[], []⟩) j (Or.inr (by show 0 + 7 ≤ j; oomega))]; rfl
  exact C30_order_partial (recs := false) (r := sampleRealm) (r' := c!"/other") (by decide) (by decide)
    (four_session _ (Or.inl rfl)).1 (four_session _ (Or.inr rfl)).1 h1 h2
    (collisionFree_of_check (by decide +kernel)) (collisionFree_of_check (by decide +kernel))
    (storable_of_check (n := 7) (by decide +kernel) (by decide)) (storable_of_check (n := 7) (by decide +kernel) (by decide))
    rfl (fun h => by cases h) (fun h => by cases h) (tidy_empty ..) (tidy_empty ..) (fun j _ => hl j) four_shuffled

/-- The dataset tree of the example meets the condition on root records, and it has one with metadata
and a file tree. -/
example : (sampleWorld.heap 5).kind.inTree true = true ∧ RecordsOk true sampleRealm sampleWorld.heap 5 := by
  refine ⟨rfl, fun _ j hr => ?_⟩
  have hj : j < 9 := by
    refine reach_closed (S := fun p => p < 9) ?_ hr (by decide)
    have : ∀ p, p < 9 → ∀ k ∈ (sampleWorld.heap p).body.subs, k < 9 := by decide +kernel
    exact fun p hp _ k hk => this p hp k hk
  have h1 : ∀ p, p < 9 → (sampleWorld.heap p).savedOn = [] := by decide +kernel
  have h2 : ∀ p, p < 9 → (sampleWorld.heap p).kind = .mtree .metadata → (sampleWorld.heap p).body.kids ≠ [] := by
    decide +kernel
  exact ⟨fun _ h => (by rw [h1 j hj] at h; cases h), fun _ e => h2 j hj (by unfold Obj.kind; rw [e]; rfl)⟩

/-! ### An empty file tree -/

/-- A dataset tree with a root record that has no file tree -/
def noFiles : List (Body ObjId) :=
  [⟨.mtree .metadata, []⟩, ⟨.mrr (some sampleUuid) (some c!"v1"), []⟩,
   ⟨.mtree .mrr, [(.name c!".datalad_metadata", [], 1)]⟩]

/-- The same with an empty file tree -/
def emptyFiles : List (Body ObjId) :=
  [⟨.mtree .metadata, []⟩, ⟨.mrr (some sampleUuid) (some c!"v1"), [(.ft, [], 0)]⟩,
   ⟨.mtree .mrr, [(.name c!".datalad_metadata", [], 1)]⟩]

def noFilesWrite : Except PyErr Ref × World :=
  writeAs sampleCfg .dataset 20 (some sampleRealm) false 2 (populate (MM.start ⟨[], []⟩) noFiles)

def emptyFilesWrite : Except PyErr Ref × World :=
  writeAs sampleCfg .dataset 20 (some sampleRealm) false 2 (populate (MM.start ⟨[], []⟩) emptyFiles)

theorem files_same (L : Log) : SameContent sampleCfg L (populate (MM.start ⟨[], []⟩) noFiles).heap (.mem 2) L
    (populate (MM.start ⟨[], []⟩) emptyFiles).heap (.mem 2) := by
  have a2 := view_mapped (C := sampleCfg) (L := L) (h := (populate (MM.start ⟨[], []⟩) noFiles).heap) (i := 2) rfl
  have b2 := view_mapped (C := sampleCfg) (L := L) (h := (populate (MM.start ⟨[], []⟩) emptyFiles).heap) (i := 2) rfl
  have a1 := view_mapped (C := sampleCfg) (L := L) (h := (populate (MM.start ⟨[], []⟩) noFiles).heap) (i := 1) rfl
  have b1 := view_mapped (C := sampleCfg) (L := L) (h := (populate (MM.start ⟨[], []⟩) emptyFiles).heap) (i := 1) rfl
  have b0 := view_mapped (C := sampleCfg) (L := L) (h := (populate (MM.start ⟨[], []⟩) emptyFiles).heap) (i := 0) rfl
  have one : SameContent sampleCfg L (populate (MM.start ⟨[], []⟩) noFiles).heap (.mem 1) L
      (populate (MM.start ⟨[], []⟩) emptyFiles).heap (.mem 1) := by
    intro ks t
    cases ks with
    | nil => rw [look_nil t a1, look_nil t b1]; rfl
    | cons k ks =>
      rw [look_cons_none a1 rfl]
      by_cases hk : k = .ft
      · subst hk
        rw [look_cons_blank b1 rfl b0 rfl]
      · rw [look_cons_none b1]
        rw [Body.dget_map]
        have : dget ((populate (MM.start ⟨[], []⟩) emptyFiles).heap 1).body.kids k = none := by
          show dget [(Key.ft, ([] : Str), (0 : ObjId))] k = none
          rw [dget_cons, if_neg (fun h => hk h.symm)]; rfl
        rw [this]; rfl
  intro ks t
  cases ks with
  | nil => rw [look_nil t a2, look_nil t b2]; rfl
  | cons k ks =>
    by_cases hk : k = .name c!".datalad_metadata"
    · subst hk
      rw [look_cons_some a2 (t' := []) (c := .mem 1) rfl (by decide), look_cons_some b2 (t' := []) (c := .mem 1) rfl (by decide)]
      exact one ks _
    · have hn : dget [(Key.name c!".datalad_metadata", ([] : Str), (1 : ObjId))] k = none := by
        rw [dget_cons, if_neg (fun h => hk h.symm)]; rfl
      rw [look_cons_none a2, look_cons_none b2]
      · rw [Body.dget_map]
        show (dget [(Key.name c!".datalad_metadata", ([] : Str), (1 : ObjId))] k).map _ = none
        rw [hn]; rfl
      · rw [Body.dget_map]
        show (dget [(Key.name c!".datalad_metadata", ([] : Str), (1 : ObjId))] k).map _ = none
        rw [hn]; rfl

/-- C30 is false for root records with an empty file tree: it is stored as if there was none, but the
class name in the reference differs (metadatarootrecordmapper.py 69-81). -/
theorem C30_false : ∃ (w w1 v v1 : World) (ref ref' : Ref), Session sampleCfg sampleRealm w ∧ Session sampleCfg sampleRealm v ∧
    w.repo.log = [] ∧ v.repo.log = [] ∧
    writeAs sampleCfg .dataset 20 (some sampleRealm) false 2 w = (.ok ref, w1) ∧
    writeAs sampleCfg .dataset 20 (some sampleRealm) false 2 v = (.ok ref', v1) ∧
    CollisionFree sampleCfg w1.repo.log ∧ CollisionFree sampleCfg v1.repo.log ∧
    Storable w.heap 2 ∧ Storable v.heap 2 ∧
    SameContent sampleCfg w.repo.log w.heap (.mem 2) v.repo.log v.heap (.mem 2) ∧ ref.loc ≠ ref'.loc := by
  have h1 : noFilesWrite = (.ok (okRef noFilesWrite), noFilesWrite.2) := of_isOk (by decide +kernel)
  have h2 : emptyFilesWrite = (.ok (okRef emptyFilesWrite), emptyFilesWrite.2) := of_isOk (by decide +kernel)
  exact ⟨populate (MM.start ⟨[], []⟩) noFiles, noFilesWrite.2, populate (MM.start ⟨[], []⟩) emptyFiles, emptyFilesWrite.2,
    okRef noFilesWrite, okRef emptyFilesWrite,
    (session_populate _ (session_start _) (fun _ => rfl) (by decide)).1,
    (session_populate _ (session_start _) (fun _ => rfl) (by decide)).1, rfl, rfl, h1, h2,
    collisionFree_of_check (by decide +kernel), collisionFree_of_check (by decide +kernel),
    storable_of_check (n := 3) (by decide +kernel) (by decide), storable_of_check (n := 3) (by decide +kernel) (by decide),
    files_same [], by decide +kernel⟩

end MM
