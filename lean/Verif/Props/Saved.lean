/-
C19, C20, C21, C22, C23, C25, C26 and C48: what counts as saved, purging, and what is
written where.
-/
import Verif.Props.Session

namespace MM

variable {C : Cfg} {r : Realm}

/-! ### C19 -/

/-- C19: purging, with any outcome, keeps all content readable and unchanged.  Partial: what passes
for saved must be stored as it is (`Purgeable`), see `C21_false` and `C25_false`. -/
theorem C19_content_partial {w : World} (hr : r ≠ []) (hs : History C r w) (n : Nat) (i : ObjId)
    (ho : Purgeable C r w i) (j : ObjId) :
    SameContent C w.repo.log w.heap (.mem j) (purge n i w).2.repo.log (purge n i w).2.heap (.mem j) ∧
      Full C (purge n i w).2.repo.log (purge n i w).2.heap (.mem j) := by
  have h := C18_purge_partial hr hs n i ho j
  exact ⟨h, Full.of_same h ((hs.intact hr).full j)⟩

/-- C19: purging an object fails if a loaded part, at any depth, is not saved
anywhere.  This needs no assumptions about the objects. -/
theorem C19_fails {w : World} {n : Nat} {i j : ObjId} (hr : Reach w.heap i j)
    (hm : (w.heap j).mapped = true) (hu : (w.heap j).savedOn = []) :
    ∃ e, (purge n i w).1 = .error e := by
  cases h : (purge n i w).1 with
  | error e => exact ⟨e, rfl⟩
  | ok u => exact absurd hu (purge_marked (w' := (purge n i w).2) (Prod.ext h rfl) j hr hm)

/-- C19: purging, with any outcome, leaves every object that is not saved anywhere
exactly as it is.  This needs no assumptions about the objects. -/
theorem C19_unsaved_kept (w : World) (n : Nat) (i j : ObjId) (hu : (w.heap j).savedOn = []) :
    (purge n i w).2.heap j = w.heap j := (purge_purged n i w).unsaved j hu

/-- In the example, a modified tree in a saved tree version list makes purging fail. -/
example : (∃ e, (purge 20 6 (edit 3 ⟨.mtree .metadata, []⟩ sampleWrite.2)).1 = .error e) ∧
    ((sampleWrite.2).heap 6).savedOn ≠ [] := by
  refine ⟨C19_fails (j := 3) ?_ ?_ ?_, by decide +kernel⟩
  · refine Reach.step 6 5 3 (by decide +kernel) (by decide +kernel)
      (Reach.step 5 4 3 (by decide +kernel) (by decide +kernel)
        (Reach.step 4 3 3 (by decide +kernel) (by decide +kernel) (Reach.refl 3)))
  · decide +kernel
  · decide +kernel

/-- In the example, purging the saved dataset tree works. -/
example : isOk (purge 20 5 sampleWrite.2) = true ∧
    (∀ j, Reach sampleWrite.2.heap 5 j → OwnName sampleWrite.2.heap j) ∧
    ((purge 20 5 sampleWrite.2).2.heap 3).mapped = false := by
  refine ⟨by decide +kernel, ?_, by decide +kernel⟩
  intro j hr
  have hj : j < 6 := by
    refine reach_closed (S := fun p => p < 6) ?_ hr (by decide)
    have : ∀ p, p < 6 → ∀ k ∈ (sampleWrite.2.heap p).body.subs, k < 6 := by decide +kernel
    exact fun p hp _ k hk => this p hp k hk
  have : ∀ p, p < 6 → (sampleWrite.2.heap p).kind ≠ .tvl := by decide +kernel
  intro ref _
  unfold normRef
  rw [if_neg (this j hj)]

/-! ### C20 -/

/-- C20: after an object was modified, neither it nor any object that contains it, at
any depth, reports itself as saved on any realm.  This needs no assumptions about the
objects. -/
theorem C20_noticed (w : World) (i : ObjId) (b : Body ObjId) (n : Nat) (x : Realm) {j : ObjId}
    (hj : Reach (edit i b w).heap j i) : isSavedOn n (edit i b w).heap x j ≠ .ok true := by
  intro h
  have hc := clean_of_isSavedOn h
  have : ∀ {a c : ObjId}, Reach (edit i b w).heap a c → Clean x (edit i b w).heap a →
      Clean x (edit i b w).heap c := by
    intro a c hr
    induction hr with
    | refl => exact id
    | step a k c hm hk _ ih => exact fun hc => ih (hc.kid hm hk)
  have hi := (this hj hc).flag
  rw [edit_self] at hi
  cases hi

/-- C20: objects that do not contain the modified object report the same as before. -/
theorem C20_others (w : World) (i : ObjId) (b : Body ObjId) (x : Realm) : ∀ (n : Nat) {j : ObjId},
    ¬ Reach (edit i b w).heap j i →
    isSavedOn n (edit i b w).heap x j = isSavedOn n w.heap x j := by
  intro n
  induction n with
  | zero => intro j _; rfl
  | succ n ih =>
    intro j hj
    have hji : j ≠ i := by rintro rfl; exact hj (Reach.refl _)
    rw [isSavedOn_succ, isSavedOn_succ, edit_ne b w hji]
    by_cases hm : (w.heap j).mapped = true
    · rw [if_pos hm, if_pos hm]
      have : allOk (isSavedOn n (edit i b w).heap x) (w.heap j).body.subs =
          allOk (isSavedOn n w.heap x) (w.heap j).body.subs := by
        have hk : ∀ k ∈ (w.heap j).body.subs, isSavedOn n (edit i b w).heap x k = isSavedOn n w.heap x k := by
          intro k hk
          refine ih fun hr => hj (Reach.step j k i ?_ ?_ hr) <;> rw [edit_ne b w hji]
          · exact hm
          · exact hk
        generalize (w.heap j).body.subs = l at hk
        induction l with
        | nil => rfl
        | cons k l ih' =>
          unfold allOk
          rw [hk k (List.mem_cons_self ..), ih' fun k' h' => hk k' (List.mem_cons_of_mem _ h')]
      rw [this]
    · rw [if_neg hm, if_neg hm]

/-- In the example, everything is saved before a tree is modified, and the tree
version list that contains it is not saved after this. -/
example : isSavedOn 20 sampleWrite.2.heap sampleRealm 6 = .ok true ∧
    isSavedOn 20 (edit 3 ⟨.mtree .metadata, []⟩ sampleWrite.2).heap sampleRealm 6 ≠ .ok true := by
  constructor
  · have h : (match isSavedOn 20 sampleWrite.2.heap sampleRealm 6 with | .ok b => b | _ => false) = true := by
      decide +kernel
    cases h' : isSavedOn 20 sampleWrite.2.heap sampleRealm 6 with
    | error e => rw [h'] at h; cases h
    | ok b => rw [h'] at h; rw [show b = true from h]
  · refine C20_noticed _ _ _ _ _ (Reach.step 6 5 3 (by decide +kernel) (by decide +kernel)
      (Reach.step 5 4 3 (by decide +kernel) (by decide +kernel)
        (Reach.step 4 3 3 (by decide +kernel) (by decide +kernel) (Reach.refl 3))))

/-! ### C22 -/

theorem isSavedOn_more {h : Heap} : ∀ {n m : Nat} {j : ObjId}, n ≤ m → isSavedOn n h r j = .ok true →
    isSavedOn m h r j = .ok true := by
  intro n
  induction n with
  | zero => intro m j _ hs; cases hs
  | succ n ih =>
    intro m j hnm hs
    cases m with
    | zero => exact absurd hnm (Nat.not_succ_le_zero _)
    | succ m =>
      obtain ⟨h1, h2⟩ := isSavedOn_true.mp hs
      exact isSavedOn_true.mpr ⟨h1, fun hm k hk => ih (Nat.le_of_succ_le_succ hnm) (h2 hm k hk)⟩

/-- An object that is saved, with its reference: writing it again returns the
reference and does nothing at all. -/
theorem write_saved {w : World} (hr : r ≠ []) {n : Nat} {i : ObjId} {ref : Ref}
    (hrem : Ref.isRemote r = false) (hsv : isSavedOn n w.heap r i = .ok true)
    (hf : (w.heap i).ref = some ref) (hrl : (w.heap i).realm = some r) :
    writeOut C n (some r) false i w = (.ok ref, w) := by
  cases n with
  | zero => cases hsv
  | succ n =>
    by_cases hm : (w.heap i).mapped = true
    · have hw : ({ w with heap := w.heap.set i { w.heap i with realm := some r } } : World) = w := by
        have : w.heap.set i { w.heap i with realm := some r } = w.heap := by
          funext j
          by_cases hj : j = i
          · subst hj; rw [Heap.set_self, ← hrl]
          · exact Heap.set_ne hj
        rw [this]
      rw [writeOut_mapped hr hm hw.symm, hrem, hsv, hf]
      rfl
    · rw [writeOut_away (by simpa using hm), hrl, hf]
      simp only
      rw [if_pos (isSavedOn_true.mp hsv).1]

/-- What can be written is not remote. -/
theorem not_remote {w w' : World} (hr : r ≠ []) {n : Nat} {force : Bool} {i : ObjId} {ref : Ref}
    (hm : (w.heap i).mapped = true) (h : writeOut C n (some r) force i w = (.ok ref, w')) :
    Ref.isRemote r = false := by
  cases n with
  | zero => cases h
  | succ n =>
    rw [writeOut_mapped hr hm rfl] at h
    cases hrem : Ref.isRemote r with
    | false => rfl
    | true => rw [hrem] at h; cases h

/-- C22: after an object was written, writing it again returns the same reference and
changes nothing, neither in the repository nor in memory, and runs no git command.

`hal`, `hsto`, `hc`, `ht`, `ho`: as in C17. -/
theorem C22_write_twice_partial {w w' : World} (hr : r ≠ []) (hs : History C r w) {n m : Nat}
    {force : Bool} {i : ObjId} {ref : Ref} (h : writeOut C n (some r) force i w = (.ok ref, w'))
    (hc : CollisionFree C w'.repo.log) (hm : (w.heap i).mapped = true) (hsto : Storable w.heap i)
    (hal : Alone r w.heap i) (ht : Trusted C r w i) (ho : Owned r w.heap i) (hnm : n ≤ m) :
    writeOut C m (some r) false i w' = (.ok ref, w') := by
  have int := hs.intact hr
  obtain ⟨rank, post⟩ := int.post hr (via := .own) h hc hsto hal ht ho
  have home' := (int.done hr (via := .own) h hc hsto hal ht ho).intact.home
  exact write_saved hr (not_remote hr hm h) (isSavedOn_more hnm post.saved) post.hasRef
    (home' i r (clean_of_isSavedOn post.saved).flag).2

theorem addRef_again {t : Bool} {l : Option Str} {u : Unit} {w w' : World}
    (h : addRef t l w = (.ok u, w')) : addRef t l w' = (.ok (), w') := by
  unfold addRef at h ⊢
  cases l with
  | none => cases h
  | some l =>
    simp only at h ⊢
    split at h
    · rename_i hx; cases h; rw [if_pos hx]
    · cases h
      simp

/-- The same through the wrapper `DatasetTree`. -/
theorem C22_dataset_tree_partial {w w' : World} (hr : r ≠ []) (hs : History C r w) {n m : Nat}
    {force : Bool} {i : ObjId} {ref : Ref}
    (h : writeDatasetTree C n (some r) force i w = (.ok ref, w'))
    (hc : CollisionFree C w'.repo.log) (hm : (w.heap i).mapped = true) (hsto : Storable w.heap i)
    (hal : Alone r w.heap i) (ht : Trusted C r w i) (ho : Owned r w.heap i) (hnm : n ≤ m) :
    writeDatasetTree C m (some r) false i w' = (.ok ref, w') := by
  have int := hs.intact hr
  obtain ⟨rank, post⟩ := int.post hr (via := .dataset) h hc hsto hal ht ho
  have home' := (int.done hr (via := .dataset) h hc hsto hal ht ho).intact.home
  unfold writeDatasetTree proxyWrite at h
  obtain ⟨ref1, w1, e1, h⟩ := M.bind_ok h
  have hrem := not_remote hr hm e1
  have e : ref1 = ref ∧ (ref1.isNone = false → addRef true ref1.loc w' = (.ok (), w')) := by
    split at h
    · rename_i hn
      cases h
      exact ⟨rfl, fun h => by rw [hn] at h; cases h⟩
    · obtain ⟨_, w2, e2, h⟩ := M.bind_ok h
      cases h
      exact ⟨rfl, fun _ => addRef_again e2⟩
  obtain ⟨rfl, hadd⟩ := e
  unfold writeDatasetTree proxyWrite
  rw [M.bind_of_ok (write_saved hr hrem (isSavedOn_more hnm post.saved) post.hasRef
    (home' i r (clean_of_isSavedOn post.saved).flag).2)]
  cases hn : ref1.isNone with
  | true => rfl
  | false =>
    rw [if_neg (by simp), M.bind_of_ok (hadd hn)]
    rfl

/-- In the example, the tree version list is written twice. -/
example : writeOut sampleCfg 20 (some sampleRealm) false 6 sampleWrite.2 =
    (.ok (okRef sampleWrite), sampleWrite.2) :=
  C22_write_twice_partial (by decide) sample_history sampleWrite_ok sampleWrite_distinct
    (by decide +kernel) (sample_storable (by decide)) (sample_alone _) (sample_trusted _) (sample_owned _)
    (Nat.le_refl _)

end MM
