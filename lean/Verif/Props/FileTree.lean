/-
C16: adding extractor runs to file trees.
-/
import Verif.Edit
import Verif.Props.Listing
import Verif.Props.Saved

namespace MM

variable {C : Cfg}

theorem Leads.last {h : Heap} {i j : ObjId} {ks : List Key} {k : Key} (hl : Leads h i (ks ++ [k]) j) :
    ∃ m t, Leads h i ks m ∧ (h m).mapped = true ∧ dget (h m).body.kids k = some (t, j) := by
  obtain ⟨m, h1, h2⟩ := hl.split
  cases h2 with
  | cons t c hm hd h3 => cases h3; exact ⟨m, t, h1, hm, hd⟩

/-- The object at a path of a tree is found under no other keys. -/
def Sole (h : Heap) (i : ObjId) (p : List Str) : Prop :=
  ∀ j, Leads h i (names p) j → ∀ ks, Leads h i ks j → ks = names p

/-- Loading keeps this: the objects that are made when a node is loaded are in one place. -/
theorem Loads.sole {w w' : World} (hl : Loads C w w') {i : ObjId} (hi : i < w.next)
    (hone : OnePath w.heap i) {p : List Str} (hs : Sole w.heap i p) : Sole w'.heap i p := by
  intro j h1 ks h2
  have hi' := Nat.lt_of_lt_of_le hi hl.next
  by_cases hj : j < w.next
  · exact hs j (hl.back i _ j hi hj h1) ks (hl.back i _ j hi hj h2)
  · have hj := Nat.not_lt.mp hj
    have hne : j ≠ i := by rintro rfl; exact absurd hi (Nat.not_lt.mpr hj)
    rcases List.eq_nil_or_concat p with rfl | ⟨p0, n, rfl⟩
    · cases h1; exact absurd rfl hne
    rcases List.eq_nil_or_concat ks with rfl | ⟨ks0, k, rfl⟩
    · cases h2; exact absurd rfl hne
    rw [List.concat_eq_append] at h1 h2 ⊢
    rw [List.concat_eq_append]
    rw [names_append] at h1 ⊢
    obtain ⟨m, t, a1, a2, a3⟩ := h1.last
    obtain ⟨m', t', b1, b2, b3⟩ := h2.last
    obtain ⟨e1, e2⟩ := hl.single m m' _ _ t t' j hj (Reach.lt hl.fine.kids hi' a1.reach)
      (Reach.lt hl.fine.kids hi' b1.reach) a2 b2 a3 b3
    subst e1
    have hfit := (hl.fine.formed m a2).fits _ (mem_of_dget a3)
    rw [hl.onePath i hi hone p0 ks0 m a1 (fits_name hfit) b1, ← e2]
    rfl

/-- Why looking up metadata fails -/
theorem getMetadata_error {w w' : World} (hs : Fine C w) {i : ObjId} (hi : i < w.next) {p : List Str} {e : PyErr}
    (h : getMetadata C i p w = (.error e, w')) : Loads C w w' ∧ (e = .runtime ∨ e = .assertion) := by
  have hany := getObjectAt_any p hs hi
  unfold getMetadata at h
  cases h1 : getObjectAt C p i w with
  | mk r w1 =>
    rw [h1] at hany
    cases r with
    | error e1 =>
      rw [M.bind_of_error h1] at h
      cases h
      exact ⟨hany, Or.inl (getObjectAt_error p hs hi h1)⟩
    | ok c =>
      rw [M.bind_of_ok h1] at h
      cases c with
      | none => cases h
      | some j =>
        have hj := (getObjectAt_some p hs hi h1).2
        simp only at h
        rw [M.bind_of_ok (getObj_run j w1)] at h
        by_cases hk : (w1.heap j).kind = .metadata
        · rw [decide_eq_true hk, M.bind_of_ok (M.assert_true w1)] at h
          cases h2 : ensureMapped C j w1 with
          | mk r2 w2 =>
            have hst := hany.fine.loadsStep hj
            rw [h2] at hst
            cases r2 with
            | error e2 =>
              rw [M.bind_of_error h2] at h
              cases h
              exact ⟨hany.trans hst, Or.inl (hany.fine.loadError h2)⟩
            | ok b => rw [M.bind_of_ok h2] at h; cases h
        · rw [decide_eq_false hk] at h
          cases h
          exact ⟨hany, Or.inr rfl⟩

/-- What looking up metadata gives -/
theorem getMetadata_ok {w w' : World} (hs : Fine C w) {i : ObjId} (hi : i < w.next) {p : List Str}
    {r : Option ObjId} (h : getMetadata C i p w = (.ok r, w')) :
    Loads C w w' ∧ (r = none → ∀ ks, look C w.repo.log w.heap (names p ++ ks) [] (.mem i) = .absent) ∧
      ∀ j, r = some j → j < w'.next ∧ Leads w'.heap i (names p) j ∧ (w'.heap j).mapped = true ∧
        (w'.heap j).kind = .metadata := by
  have hany := getObjectAt_any p hs hi
  unfold getMetadata at h
  obtain ⟨c, w1, h1, h2⟩ := M.bind_ok h
  rw [h1] at hany
  cases c with
  | none =>
    cases h2
    exact ⟨hany, fun _ => getObjectAt_none p hs hi h1, fun j hj => by cases hj⟩
  | some j =>
    obtain ⟨hl, hj⟩ := getObjectAt_some p hs hi h1
    simp only at h2
    rw [M.bind_of_ok (getObj_run j w1)] at h2
    by_cases hk : (w1.heap j).kind = .metadata
    · rw [decide_eq_true hk, M.bind_of_ok (M.assert_true w1)] at h2
      obtain ⟨b, w2, h3, h4⟩ := M.bind_ok h2
      cases h4
      obtain ⟨hl2, hm⟩ := hany.fine.loaded hj h3
      refine ⟨hany.trans hl2, (fun e => by cases e), ?_⟩
      rintro j' ⟨⟩
      exact ⟨Nat.lt_of_lt_of_le hj hl2.next, hl2.leads hany.fine (Nat.lt_of_lt_of_le hi hany.next) hl, hm,
        by rw [hl2.kind j hj]; exact hk⟩
    · rw [decide_eq_false hk] at h2
      cases h2

/-- C16 does not hold: adding a run for a path without metadata fails in every file
tree, and nothing is recorded.  When git works, the failure is an `AttributeError`. -/
theorem C16_false {w : World} (hs : Fine C w) {i : ObjId} (hi : i < w.next) {p : List Str}
    (hp : look C w.repo.log w.heap (names p) [] (.mem i) = .absent) (ext : Str) (run : Instance) :
    ∃ e w', addExtractorRunAt C i p ext run w = (.error e, w') ∧ (w.repo.faults = [] → e = .attribute) ∧
      ∀ j, j < w.next → SameContent C w.repo.log w.heap (.mem j) w'.repo.log w'.heap (.mem j) := by
  unfold addExtractorRunAt
  cases h1 : getMetadata C i p w with
  | mk r w1 =>
    cases r with
    | error e1 =>
      obtain ⟨hl, he⟩ := getMetadata_error hs hi h1
      have hc : M.catchAttribute (getMetadata C i p) (do
          let j ← alloc (Obj.new (Body.empty .metadata))
          addChildAt C j p i
          pure (some j)) w = (.error e1, w1) := by
        unfold M.catchAttribute
        rw [h1]
        rcases he with rfl | rfl <;> rfl
      rw [M.bind_of_error hc]
      refine ⟨e1, w1, rfl, ?_, hl.content⟩
      intro hf
      exfalso
      obtain ⟨x, w2, h3, _⟩ := getObjectAt_total p hs hf hi
      unfold getMetadata at h1
      rw [M.bind_of_ok h3] at h1
      cases x with
      | none => cases h1
      | some j =>
        obtain ⟨g1, g2⟩ := getObjectAt_some p hs hi h3
        have hl2 := getObjectAt_any p hs hi
        rw [h3] at hl2
        rw [hl2.content i hi, ← List.append_nil (names p), g1.look hl2.fine.plain] at hp
        obtain ⟨b, hb⟩ := view_ok_of_look (hl2.fine.all j [] [])
        rw [look_nil [] hb] at hp
        cases hp
    | ok x =>
      obtain ⟨hl, _, hsome⟩ := getMetadata_ok hs hi h1
      have hc : M.catchAttribute (getMetadata C i p) (do
          let j ← alloc (Obj.new (Body.empty .metadata))
          addChildAt C j p i
          pure (some j)) w = (.ok x, w1) := by
        unfold M.catchAttribute
        rw [h1]
      rw [M.bind_of_ok hc]
      cases x with
      | none => exact ⟨.attribute, w1, rfl, fun _ => rfl, hl.content⟩
      | some j =>
        exfalso
        obtain ⟨_, g1, g2, _⟩ := hsome j rfl
        rw [hl.content i hi, ← List.append_nil (names p), g1.look hl.fine.plain, look_self g2] at hp
        cases hp

/-- The run is recorded in an object of a tree that was found under a path. -/
theorem addExtractorRun_mapped {w w' : World} {j : ObjId} (hm : (w.heap j).mapped = true) {ext : Str}
    {run : Instance} (h : addExtractorRun C j ext run w = (.ok (), w')) :
    ∃ m, (w.heap j).body.data = .metadata m ∧
      w' = MM.edit j ⟨.metadata (m.addRun ext run), (w.heap j).body.kids⟩ w := by
  unfold addExtractorRun at h
  rw [M.bind_of_ok (ensureMapped_mapped hm), M.bind_of_ok (getObj_run j w)] at h
  cases hd : (w.heap j).body.data with
  | metadata m =>
    rw [hd] at h
    simp only at h
    rw [change_run] at h
    cases h
    exact ⟨m, rfl, rfl⟩
  | _ => rw [hd] at h; cases h

/-- C16: a run that was added for a path is recorded in the metadata of this path, after
the runs that were there; nothing else changes in the tree, and the tree is no longer
taken for saved.  This needs metadata at the path: without, adding always fails, see
`C16_false`. -/
theorem C16_recorded_partial {w w' : World} (hs : Fine C w) {i : ObjId} (hi : i < w.next) {p : List Str}
    (hone : OnePath w.heap i) (hsole : Sole w.heap i p) {ext : Str} {run : Instance}
    (h : addExtractorRunAt C i p ext run w = (.ok (), w')) :
    ∃ m, look C w.repo.log w.heap (names p) [] (.mem i) = .found [] (.metadata m) false ∧
      look C w'.repo.log w'.heap (names p) [] (.mem i) = .found [] (.metadata (m.addRun ext run)) false ∧
      (∀ ks, ks ≠ names p →
        look C w'.repo.log w'.heap ks [] (.mem i) = look C w.repo.log w.heap ks [] (.mem i)) ∧
      (∀ n x, isSavedOn n w'.heap x i ≠ .ok true) ∧ Fine C w' ∧ w'.repo.log = w.repo.log := by
  unfold addExtractorRunAt at h
  cases h1 : getMetadata C i p w with
  | mk r w1 =>
    cases r with
    | error e1 =>
      obtain ⟨_, he⟩ := getMetadata_error hs hi h1
      have hc : M.catchAttribute (getMetadata C i p) (do
          let j ← alloc (Obj.new (Body.empty .metadata))
          addChildAt C j p i
          pure (some j)) w = (.error e1, w1) := by
        unfold M.catchAttribute
        rw [h1]
        rcases he with rfl | rfl <;> rfl
      rw [M.bind_of_error hc] at h
      cases h
    | ok x =>
      obtain ⟨hl, _, hsome⟩ := getMetadata_ok hs hi h1
      have hc : M.catchAttribute (getMetadata C i p) (do
          let j ← alloc (Obj.new (Body.empty .metadata))
          addChildAt C j p i
          pure (some j)) w = (.ok x, w1) := by
        unfold M.catchAttribute
        rw [h1]
      rw [M.bind_of_ok hc] at h
      cases x with
      | none => cases h
      | some j =>
        obtain ⟨hj, hlead, hm, hk⟩ := hsome j rfl
        simp only at h
        obtain ⟨m, hd, rfl⟩ := addExtractorRun_mapped hm h
        have hso := hl.sole hi hone hsole
        have hdc : DataChanged j (.metadata (m.addRun ext run)) w1.heap
            (MM.edit j ⟨.metadata (m.addRun ext run), (w1.heap j).body.kids⟩ w1).heap := by
          refine ⟨hm, by rw [edit_self]; exact hm, by rw [edit_self], by rw [edit_self], ?_, ?_⟩
          · rw [hd]; rfl
          · intro a ha; exact edit_ne _ _ ha
        have hfm := hl.fine.formed j hm
        have hform : Formed (⟨.metadata (m.addRun ext run), (w1.heap j).body.kids⟩ : Body ObjId) := by
          refine ⟨hfm.keys, ?_, ?_⟩
          · intro e he
            have := hfm.fits e he
            rw [hd] at this
            exact this
          · intro _
            exact hfm.stamps (by rw [hd]; rfl)
        have hfine := hl.fine.edit hm hform (fun k hk => hl.fine.kids j hm k hk)
          (fun k hk => hl.fine.irrefl hm hk)
        have hblank : (w1.heap j).body.blank = false := by
          unfold Body.blank; rw [hd]; rfl
        have hfound : look C w1.repo.log w1.heap (names p) [] (.mem i) = .found [] (.metadata m) false := by
          rw [← List.append_nil (names p), hlead.look hl.fine.plain, look_self hm, hd, hblank]
        refine ⟨m, ?_, ?_, ?_, ?_, hfine, hl.log⟩
        · rw [hl.content i hi]; exact hfound
        · rw [show (MM.edit j ⟨.metadata (m.addRun ext run), (w1.heap j).body.kids⟩ w1).repo.log = w1.repo.log
            from rfl, (hdc.look (C := C) (L := w1.repo.log) (names p) [] i).1 hlead, hfound]
          rfl
        · intro ks hks
          rw [hl.content i hi, show (MM.edit j ⟨.metadata (m.addRun ext run), (w1.heap j).body.kids⟩ w1).repo.log =
            w1.repo.log from rfl]
          refine (hdc.look (C := C) (L := w1.repo.log) ks [] i).2 fun hl' => hks (hso j hlead ks hl')
        · intro n x
          refine C20_noticed _ _ _ _ _ ?_
          have key : ∀ {a b : ObjId}, Reach w1.heap a b → b = j →
              Reach (MM.edit j ⟨.metadata (m.addRun ext run), (w1.heap j).body.kids⟩ w1).heap a j := by
            intro a b hr
            induction hr with
            | refl a => rintro rfl; exact Reach.refl _
            | step a c b hma hca _ ih =>
              intro hb
              by_cases haj : a = j
              · subst haj; exact Reach.refl _
              · refine Reach.step a c j ?_ ?_ (ih hb) <;> rw [edit_ne _ _ haj]
                · exact hma
                · exact hca
          exact key hlead.reach rfl

/-- C16: when git works, adding a run for a path with metadata succeeds. -/
theorem C16_succeeds_partial {w : World} (hs : Fine C w) (hf : w.repo.faults = []) {i : ObjId}
    (hi : i < w.next) {p : List Str} {m : Sets} {b : Bool}
    (hp : look C w.repo.log w.heap (names p) [] (.mem i) = .found [] (.metadata m) b) (ext : Str) (run : Instance) :
    ∃ w', addExtractorRunAt C i p ext run w = (.ok (), w') := by
  obtain ⟨x, w1, h1, hrep⟩ := getObjectAt_total p hs hf hi
  have hany := getObjectAt_any p hs hi
  rw [h1] at hany
  cases x with
  | none =>
    have := getObjectAt_none p hs hi h1 []
    rw [List.append_nil, hp] at this
    cases this
  | some j =>
    obtain ⟨hl, hj⟩ := getObjectAt_some p hs hi h1
    have hp1 := hp
    rw [hany.content i hi, ← List.append_nil (names p), hl.look hany.fine.plain] at hp1
    obtain ⟨bj, hbj⟩ := view_ok_of_look (hany.fine.all j [] [])
    rw [look_nil [] hbj] at hp1
    injection hp1 with _ hd _
    have hk : (w1.heap j).kind = .metadata := by rw [← view_class hbj, hd]; rfl
    obtain ⟨bb, w2, h2, hrep2⟩ := hany.fine.loads (by rw [hrep]; exact hf) j
    have hget : getMetadata C i p w = (.ok (some j), w2) := by
      unfold getMetadata
      rw [M.bind_of_ok h1]
      simp only
      rw [M.bind_of_ok (getObj_run j w1), decide_eq_true hk, M.bind_of_ok (M.assert_true w1), M.bind_of_ok h2]
      rfl
    obtain ⟨hl2, hm2⟩ := hany.fine.loaded hj h2
    have hk2 : (w2.heap j).kind = .metadata := by rw [hl2.kind j hj]; exact hk
    unfold addExtractorRunAt
    have hc : M.catchAttribute (getMetadata C i p) (do
        let j ← alloc (Obj.new (Body.empty .metadata))
        addChildAt C j p i
        pure (some j)) w = (.ok (some j), w2) := by
      unfold M.catchAttribute
      rw [hget]
    rw [M.bind_of_ok hc]
    simp only
    unfold addExtractorRun
    rw [M.bind_of_ok (ensureMapped_mapped hm2), M.bind_of_ok (getObj_run j w2)]
    cases hdd : (w2.heap j).body.data with
    | metadata m' => simp only; rw [change_run]; exact ⟨_, rfl⟩
    | _ => unfold Obj.kind at hk2; rw [hdd] at hk2; cases hk2

/-! ### Examples -/

/-- A run for the examples -/
def sampleRun : Instance := 
  ⟨.int 3, .str c!"Bob", .str c!"bob@example.com", ⟨.str c!"2.0", []⟩, .obj []⟩

/-- C16 is not met by a new file tree: the first run cannot be added. -/
example : Fine sampleCfg treeWorld ∧ look sampleCfg treeWorld.repo.log treeWorld.heap (names [c!"f"]) [] (.mem 9) = .absent ∧
    errOf (addExtractorRunAt sampleCfg 9 [c!"f"] c!"core" sampleRun treeWorld) = some .attribute :=
  ⟨treeWorld_fine, rfl, by decide +kernel⟩

theorem treeWorld_leads {ks : List Key} {j : ObjId} (h : Leads treeWorld.heap 3 ks j) :
    (ks = [] ∧ j = 3) ∨ (ks = [.name c!"a"] ∧ j = 2) ∨ (ks = [.name c!"a", .name c!"b"] ∧ j = 1) := by
  have h3 : (treeWorld.heap 3).body.kids = [(.name c!"a", [], 2)] := by decide +kernel
  have h2 : (treeWorld.heap 2).body.kids = [(.name c!"b", [], 1)] := by decide +kernel
  have h1 : (treeWorld.heap 1).body.kids = [] := by decide +kernel
  have one : ∀ {k k0 : Key} {t : Str} {c c0 : ObjId}, dget [(k0, ([] : Str), c0)] k = some (t, c) → k = k0 ∧ c = c0 := by
    intro k k0 t c c0 hd
    have := mem_of_dget hd
    rcases List.mem_singleton.mp this with h
    injection h with e1 e2
    injection e2 with _ e3
    exact ⟨e1, e3⟩
  cases h with
  | nil => exact Or.inl ⟨rfl, rfl⟩
  | cons t c _ hd hl =>
    rw [h3] at hd
    obtain ⟨rfl, rfl⟩ := one hd
    refine Or.inr ?_
    cases hl with
    | nil => exact Or.inl ⟨rfl, rfl⟩
    | cons t c _ hd hl =>
      rw [h2] at hd
      obtain ⟨rfl, rfl⟩ := one hd
      refine Or.inr ?_
      cases hl with
      | nil => exact ⟨rfl, rfl⟩
      | cons t c _ hd hl => rw [h1] at hd; cases hd

/-- The hypotheses of the theorems on C16 hold for the file tree of the examples, in
memory and when it was written and forgotten. -/
example : (∃ w', Fine sampleCfg treeWorld ∧ 3 < treeWorld.next ∧ OnePath treeWorld.heap 3 ∧
      Sole treeWorld.heap 3 [c!"a", c!"b"] ∧
      addExtractorRunAt sampleCfg 3 [c!"a", c!"b"] c!"core" sampleRun treeWorld = (.ok (), w')) ∧
    ∃ w', Fine sampleCfg awayWorld ∧ 3 < awayWorld.next ∧ OnePath awayWorld.heap 3 ∧
      Sole awayWorld.heap 3 [c!"a", c!"b"] ∧ (awayWorld.heap 3).mapped = false ∧
      addExtractorRunAt sampleCfg 3 [c!"a", c!"b"] c!"core" sampleRun awayWorld = (.ok (), w') := by
  have hm : (awayWorld.heap 3).mapped = false := by decide +kernel
  refine ⟨⟨_, treeWorld_fine, by decide, ?_, ?_, of_isOk_unit (by decide +kernel)⟩,
    _, awayWorld_fine, by decide +kernel, onePath_away hm, ?_, hm, of_isOk_unit (by decide +kernel)⟩
  · intro p ks m h1 _ h2
    rcases treeWorld_leads h1 with ⟨e1, e2⟩ | ⟨e1, e2⟩ | ⟨e1, e2⟩ <;>
      rcases treeWorld_leads h2 with ⟨f1, f2⟩ | ⟨f1, f2⟩ | ⟨f1, f2⟩ <;>
      first | exact f1.trans e1.symm | (rw [e2] at f2; exact absurd f2 (by decide))
  · intro j h1 ks h2
    rcases treeWorld_leads h1 with ⟨e1, e2⟩ | ⟨e1, e2⟩ | ⟨e1, e2⟩
    · cases e1
    · cases e1
    · rcases treeWorld_leads h2 with ⟨f1, f2⟩ | ⟨f1, f2⟩ | ⟨f1, f2⟩ <;>
      first | exact f1.trans e1.symm | (rw [e2] at f2; exact absurd f2 (by decide))
  · intro j h1
    cases h1 with
    | cons t c h _ _ => rw [hm] at h; cases h

end MM
