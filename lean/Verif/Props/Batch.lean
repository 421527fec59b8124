/-
C28: batched writing equals immediate writing.
-/
import Verif.Batch
import Verif.Props.Success

namespace MM

variable {C : Cfg} {r : Realm}

/-- C28: in a state without blob caches, write the tree node `i` through `FileTree`, which
collects the blobs of the metadata objects and stores `C.maxsize` of them at a time, and write
it without collecting.  If both succeed, they give the same reference, the repositories hold
the same objects and names, and the objects in memory are the same; no blob stays behind. -/
theorem C28 (hr : r ≠ []) {w w1 w2 : World} {n : Nat} {force : Bool} {i : ObjId} {ref1 ref2 : Ref}
    (hc : w.caches = []) (h1 : writeAs C .own n (some r) force i w = (.ok ref1, w1))
    (h2 : writeAs C .file n (some r) force i w = (.ok ref2, w2)) :
    ref1 = ref2 ∧ (∀ x o, Stored w1.repo.log x o ↔ Stored w2.repo.log x o) ∧
      (∀ x m, refOf w1.repo.log x m = refOf w2.repo.log x m) ∧ w1.heap = w2.heap ∧ w2.caches = [] := by
  have h2 : fileTreeWrite C (some r) (writeOut C n (some r) force i) w = (.ok ref2, w2) := by
    rw [← writeFileTree_eq hr]; exact h2
  have h1 : writeOut C n (some r) force i w = (.ok ref1, w1) := h1
  obtain ⟨u, v, e1, h2⟩ := M.bind_ok h2
  obtain ⟨ref, v1, e2, h2⟩ := M.bind_ok h2
  obtain ⟨u', v2, e3, h2⟩ := M.bind_ok h2
  have hb : Batched r w v := by
    obtain ⟨_, _, g⟩ := cacheRealm_quiet e1
    unfold cacheRealm at e1
    simp only [hc, dget] at e1
    cases e1
    exact ⟨rfl, rfl, rfl, hc, ⟨[], rfl⟩, fun x o => by simp [Stored, World.eff, pending], fun _ _ => rfl⟩
  obtain ⟨rfl, hb1⟩ := Agree.writeOut hr n force i w v ref1 w1 ref v1 hb h1 e2
  obtain ⟨g1, g2, g3, g4, g5, g6⟩ := hb1.done e3
  have key : ref1 = ref2 ∧ w2.heap = v2.heap ∧ w2.repo = v2.repo ∧ w2.caches = v2.caches := by
    split at h2
    · cases h2; exact ⟨rfl, rfl, rfl, rfl⟩
    · obtain ⟨u'', v3, e4, h2⟩ := M.bind_ok h2
      cases h2
      unfold addRef at e4
      cases hl : ref1.loc with
      | none => rw [hl] at e4; cases e4
      | some l =>
        rw [hl] at e4
        simp only at e4
        split at e4 <;> (cases e4; exact ⟨rfl, rfl, rfl, rfl⟩)
  obtain ⟨k1, k2, k3, k4⟩ := key
  refine ⟨k1, fun x o => ?_, fun x m => ?_, by rw [k2, g1], by rw [k4, g4]⟩
  · rw [k3]; exact (g5 x o).symm
  · rw [k3]; exact (g6 x m).symm

/-- C28: in every state of a process and while git works, both ways of writing a file tree
that can be stored and has no holes succeed, with the same result. -/
theorem C28_both (hr : r ≠ []) (hrem : Ref.isRemote r = false) {w : World} (hs : Session C r w)
    {force : Bool} {i : ObjId} (hk : (w.heap i).kind = .mtree .metadata)
    (hsto : Storable w.heap i) (hal : Alone r w.heap i)
    (hh : NoHole C w i) (hf : w.repo.faults = []) :
    ∃ N, ∀ n, N ≤ n → CollisionFree C (writeAs C .own n (some r) force i w).2.eff →
      CollisionFree C (writeAs C .file n (some r) force i w).2.eff →
      ∃ ref w1 w2, writeAs C .own n (some r) force i w = (.ok ref, w1) ∧
        writeAs C .file n (some r) force i w = (.ok ref, w2) ∧
        ∀ x o, Stored w1.repo.log x o ↔ Stored w2.repo.log x o := by
  obtain ⟨N1, g1⟩ := C57_partial (via := .own) (force := force) hr hrem hs (by intro h; cases h) hsto hal hh hf
  obtain ⟨N2, g2⟩ := C57_partial (via := .file) (force := force) hr hrem hs (fun _ => hk) hsto hal hh hf
  refine ⟨max N1 N2, fun n hn hc1 hc2 => ?_⟩
  obtain ⟨ref1, w1, e1, _⟩ := g1 n (Nat.le_trans (Nat.le_max_left ..) hn) hc1
  obtain ⟨ref2, w2, e2, _⟩ := g2 n (Nat.le_trans (Nat.le_max_right ..) hn) hc2
  obtain ⟨rfl, k, _⟩ := C28 hr (hs.sane hr).caches e1 e2
  exact ⟨ref1, w1, w2, e1, e2, k⟩

/-! ### Cases that meet the hypotheses -/

/-- A tree with four metadata objects in three directories.  Each gives two blobs, and the
cache of the example is flushed whenever it holds one. -/
def fourBodies : List (Body ObjId) :=
  [⟨.metadata [], []⟩, ⟨.metadata [], []⟩, ⟨.metadata [(c!"e", ⟨[], []⟩)], []⟩, ⟨.metadata [(c!"f", ⟨[], []⟩)], []⟩,
   ⟨.mtree .metadata, [(.name c!"a", [], 0), (.name c!"b", [], 1)]⟩,
   ⟨.mtree .metadata, [(.name c!"c", [], 2), (.name c!"a", [], 3)]⟩,
   ⟨.mtree .metadata, [(.name c!"y", [], 4), (.name c!"x", [], 5)]⟩]

/-- Writing it at once -/
def fourOwn : Except PyErr Ref × World :=
  writeAs sampleCfg .own 20 (some sampleRealm) false 6 (populate (MM.start ⟨[], []⟩) fourBodies)

/-- Writing it through the cache -/
def fourFile : Except PyErr Ref × World :=
  writeAs sampleCfg .file 20 (some sampleRealm) false 6 (populate (MM.start ⟨[], []⟩) fourBodies)

/-- Both succeed.  The commands come in a different order: the logs are not the same. -/
example : (populate (MM.start ⟨[], []⟩) fourBodies).caches = [] ∧ isOk fourOwn = true ∧ isOk fourFile = true ∧
    okRef fourOwn = okRef fourFile ∧ (fourOwn.2.repo.log = fourFile.2.repo.log) = False :=
  ⟨rfl, by decide +kernel, by decide +kernel, by decide +kernel, by simp; decide +kernel⟩

/-- The hypotheses of `C28_both` for the file tree of the example. -/
example : Session sampleCfg sampleRealm sampleWorld ∧ (sampleWorld.heap 3).kind = .mtree .metadata ∧
    Storable sampleWorld.heap 3 ∧ Alone sampleRealm sampleWorld.heap 3 ∧
    NoHole sampleCfg sampleWorld 3 ∧ sampleWorld.repo.faults = [] :=
  ⟨sample_session.1, rfl, sample_storable (by decide), sample_alone _, sample_noHole (by decide), rfl⟩

end MM
