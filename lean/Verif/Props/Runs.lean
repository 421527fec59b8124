/-
C08 for metadata objects: adding and reading extractor runs of objects that may be in
memory or stored.
-/
import Verif.Props.FileTree
import Verif.Props.MetadataMap

namespace MM

variable {C : Cfg}

/-- The metadata object `i` holds the runs `m`, in memory or stored. -/
def Holds (C : Cfg) (w : World) (i : ObjId) (m : Sets) : Prop :=
  look C w.repo.log w.heap [] [] (.mem i) = .found [] (.metadata m) false

theorem holds_data {w : World} {i : ObjId} {m : Sets} (hm : (w.heap i).mapped = true) (h : Holds C w i m) :
    (w.heap i).body.data = .metadata m := by
  unfold Holds at h
  rw [look_self hm] at h
  injection h

/-- C08: reading the runs of a metadata object gives what it holds and changes nothing.  It fails
only when git fails. -/
theorem C08_read {w : World} (hs : Fine C w) {i : ObjId} (hi : i < w.next) {m : Sets} (h : Holds C w i m) :
    (∀ j, j < w.next → SameContent C w.repo.log w.heap (.mem j)
        (getSets C i w).2.repo.log (getSets C i w).2.heap (.mem j)) ∧
      Fine C (getSets C i w).2 ∧
      ((getSets C i w).1 = .ok m ∨ (getSets C i w).1 = .error .runtime) ∧
      (w.repo.faults = [] → (getSets C i w).1 = .ok m) := by
  have hst := hs.loadsStep hi
  cases h1 : ensureMapped C i w with
  | mk r w1 =>
    rw [h1] at hst
    cases r with
    | error e =>
      have he := hs.loadError h1
      have : getSets C i w = (.error e, w1) := M.bind_of_error h1
      rw [this]
      refine ⟨hst.content, hst.fine, Or.inr (by rw [he]), fun hf => ?_⟩
      obtain ⟨b, w2, h2, _⟩ := hs.loads hf i
      rw [h1] at h2; cases h2
    | ok b =>
      obtain ⟨hl, hm⟩ := hs.loaded hi h1
      have hd : (w1.heap i).body.data = .metadata m :=
        holds_data (C := C) hm (by unfold Holds; rw [← hl.content i hi]; exact h)
      have : getSets C i w = (.ok m, w1) := by
        unfold getSets
        rw [M.bind_of_ok h1, M.bind_of_ok (getObj_run i w1), hd]
        rfl
      rw [this]
      exact ⟨hst.content, hst.fine, Or.inl rfl, fun _ => rfl⟩

/-- C08: adding a run to a metadata object, in memory or stored: the object holds the run
afterwards, is not taken for saved, and objects that do not contain it are not changed.  It fails
only when git fails, and then nothing changes. -/
theorem C08_recorded {w : World} (hs : Fine C w) {i : ObjId} (hi : i < w.next) {m : Sets} (h : Holds C w i m)
    (ext : Str) (run : Instance) :
    Fine C (addExtractorRun C i ext run w).2 ∧ w.next ≤ (addExtractorRun C i ext run w).2.next ∧
      (addExtractorRun C i ext run w).2.repo.log = w.repo.log ∧
      ((addExtractorRun C i ext run w).1 = .ok () → Holds C (addExtractorRun C i ext run w).2 i (m.addRun ext run) ∧
        (∀ n x, isSavedOn n (addExtractorRun C i ext run w).2.heap x i ≠ .ok true) ∧
        ∀ j, j < w.next → ¬ Reach w.heap j i → SameContent C w.repo.log w.heap (.mem j)
          (addExtractorRun C i ext run w).2.repo.log (addExtractorRun C i ext run w).2.heap (.mem j)) ∧
      (∀ e, (addExtractorRun C i ext run w).1 = .error e → e = .runtime ∧ w.repo.faults ≠ [] ∧
        ∀ j, j < w.next → SameContent C w.repo.log w.heap (.mem j)
          (addExtractorRun C i ext run w).2.repo.log (addExtractorRun C i ext run w).2.heap (.mem j)) := by
  have hst := hs.loadsStep hi
  cases h1 : ensureMapped C i w with
  | mk r w1 =>
    rw [h1] at hst
    cases r with
    | error e =>
      have he := hs.loadError h1
      have : addExtractorRun C i ext run w = (.error e, w1) := M.bind_of_error h1
      rw [this]
      refine ⟨hst.fine, hst.next, hst.log, (fun x => by cases x), fun e' x => ?_⟩
      cases x
      refine ⟨he, fun hf => ?_, hst.content⟩
      obtain ⟨b, w2, h2, _⟩ := hs.loads hf i
      rw [h1] at h2; cases h2
    | ok b =>
      obtain ⟨hl, hm⟩ := hs.loaded hi h1
      have hd : (w1.heap i).body.data = .metadata m :=
        holds_data (C := C) hm (by unfold Holds; rw [← hl.content i hi]; exact h)
      have hrun : addExtractorRun C i ext run w =
          (.ok (), MM.edit i ⟨.metadata (m.addRun ext run), (w1.heap i).body.kids⟩ w1) := by
        unfold addExtractorRun
        rw [M.bind_of_ok h1, M.bind_of_ok (getObj_run i w1), hd]
        exact change_run ..
      rw [hrun]
      have hdc : DataChanged i (.metadata (m.addRun ext run)) w1.heap
          (MM.edit i ⟨.metadata (m.addRun ext run), (w1.heap i).body.kids⟩ w1).heap := by
        refine ⟨hm, by rw [edit_self]; exact hm, by rw [edit_self], by rw [edit_self], ?_, ?_⟩
        · rw [hd]; rfl
        · intro a ha; exact edit_ne _ _ ha
      have hfm := hl.fine.formed i hm
      have hform : Formed (⟨.metadata (m.addRun ext run), (w1.heap i).body.kids⟩ : Body ObjId) := by
        refine ⟨hfm.keys, ?_, ?_⟩
        · intro e he
          have := hfm.fits e he
          rw [hd] at this
          exact this
        · intro _
          exact hfm.stamps (by rw [hd]; rfl)
      have hfine := hl.fine.edit hm hform (fun k hk => hl.fine.kids i hm k hk)
        (fun k hk => hl.fine.irrefl hm hk)
      refine ⟨hfine, hl.next, hl.log, fun _ => ⟨?_, ?_, ?_⟩, (fun e x => by cases x)⟩
      · unfold Holds
        rw [look_self (by rw [edit_self]; exact hm), edit_self]
        rfl
      · intro n x
        exact C20_noticed _ _ _ _ _ (Reach.refl _)
      · intro j hj hr ks t
        rw [hl.content j hj]
        refine ((hdc.look (C := C) (L := w1.repo.log) ks t j).2 fun hlead => ?_).symm
        exact hr (hl.back j ks i hj hi hlead).reach

/-- A process that adds runs to the object `i`: the runs that were added by calls that succeeded, in
this order.  Between the calls anything may happen that keeps the content of the object, such as
reading it, writing it out, or removing it from memory. -/
inductive RunCalls (C : Cfg) (i : ObjId) (w0 : World) : List Run → World → Prop
  | start : RunCalls C i w0 [] w0
  | add (h : List Run) (w w' : World) (ext : Str) (run : Instance) : RunCalls C i w0 h w →
      addExtractorRun C i ext run w = (.ok (), w') → RunCalls C i w0 (h ++ [(ext, run)]) w'
  | other (h : List Run) (w w' : World) : RunCalls C i w0 h w → Fine C w' → w.next ≤ w'.next →
      SameContent C w.repo.log w.heap (.mem i) w'.repo.log w'.heap (.mem i) → RunCalls C i w0 h w'

/-- C08 for a metadata object that is read, written and removed from memory between the calls: it
answers a query with the most recent run for the extractor and the configuration. -/
theorem C08_object {i : ObjId} {w0 w w' : World} (hs : Fine C w0) (hi : i < w0.next) {h0 h : List Run}
    (hold : Holds C w0 i (build h0)) (hc : RunCalls C i w0 h w) {m : Sets} (hg : getSets C i w = (.ok m, w')) :
    m = build (h0 ++ h) ∧
      ((∀ r ∈ h0 ++ h, r.2.WF) → ∀ e c, c.WF → (ask m e c).toOption = lastRun (h0 ++ h) e c) := by
  have inv : ∀ {h w}, RunCalls C i w0 h w → Fine C w ∧ i < w.next ∧ Holds C w i (build (h0 ++ h)) := by
    intro h w hc
    induction hc with
    | start => exact ⟨hs, hi, by rw [List.append_nil]; exact hold⟩
    | add h w w' ext run _ ha ih =>
      obtain ⟨a1, a2, _, a4, _⟩ := C08_recorded ih.1 ih.2.1 ih.2.2 ext run
      rw [ha] at a1 a2 a4
      refine ⟨a1, Nat.lt_of_lt_of_le ih.2.1 a2, ?_⟩
      have := (a4 rfl).1
      rw [← List.append_assoc, build_append]
      exact this
    | other h w w' _ hf hn hsame ih =>
      refine ⟨hf, Nat.lt_of_lt_of_le ih.2.1 hn, ?_⟩
      unfold Holds
      rw [← hsame]
      exact ih.2.2
  obtain ⟨f1, f2, f3⟩ := inv hc
  obtain ⟨_, _, g3, _⟩ := C08_read f1 f2 f3
  rw [hg] at g3
  have hm : m = build (h0 ++ h) := by
    rcases g3 with g3 | g3
    · cases g3; rfl
    · cases g3
  exact ⟨hm, fun hw e c hcf => by rw [hm]; exact C08_map _ hw e c hcf⟩

/-- The hypotheses of the theorems on C08 hold for metadata in memory, and for metadata that was
written and removed from memory; to the second a run is added. -/
example : (∃ m, Holds sampleCfg treeWorld 1 m) ∧
    ∃ m w', Fine sampleCfg awayWorld ∧ 0 < awayWorld.next ∧ (awayWorld.heap 0).mapped = false ∧
      Holds sampleCfg awayWorld 0 m ∧ addExtractorRun sampleCfg 0 c!"core" sampleRun awayWorld = (.ok (), w') ∧
      RunCalls sampleCfg 0 awayWorld [(c!"core", sampleRun)] w' := by
  have key : ∀ w i, (match look sampleCfg w.repo.log w.heap [] [] (.mem i) with
      | .found [] (.metadata _) false => true | _ => false) = true → ∃ m, Holds sampleCfg w i m := by
    intro w i h
    unfold Holds
    split at h
    · next m hx => exact ⟨m, hx⟩
    · cases h
  obtain ⟨m, hm⟩ := key awayWorld 0 (by decide +kernel)
  have ha : addExtractorRun sampleCfg 0 c!"core" sampleRun awayWorld = (.ok (), _) := of_isOk_unit (by decide +kernel)
  exact ⟨key _ _ (by decide +kernel), m, _, awayWorld_fine, by decide +kernel, by decide +kernel, hm, ha,
    .add [] _ _ _ _ .start ha⟩

end MM
