/-
What a flush of the object references changes in the repositories, from any state and with any outcome.
-/
import Verif.ObjRef

namespace MM

variable {C : Cfg} {r : Realm}

/-- The changes of the repositories by a flush: objects are stored, the name of the object references is set,
the names of the legacy stores are deleted. -/
def FlushOp (r : Realm) (op : GitOp) : Prop :=
  (∃ o, op = .save r o) ∨ (∃ h, op = .setRef r objectRefName h) ∨ op = .delRef r legacyTreesName ∨ op = .delRef r legacyBlobsName

/-- Only such changes were made. -/
def FlushOps (r : Realm) (s s' : RefState) : Prop := ∃ K, s'.repo.log = K ++ s.repo.log ∧ ∀ op ∈ K, FlushOp r op

theorem FlushOps.refl (s : RefState) : FlushOps r s s := ⟨[], rfl, fun _ h => by cases h⟩

theorem FlushOps.trans (a b c : RefState) (h : FlushOps r a b) (h' : FlushOps r b c) : FlushOps r a c := by
  obtain ⟨K, e, f⟩ := h
  obtain ⟨K', e', f'⟩ := h'
  refine ⟨K' ++ K, by rw [e', e, List.append_assoc], fun op hop => ?_⟩
  rcases List.mem_append.mp hop with hop | hop
  · exact f' op hop
  · exact f op hop

theorem FlushOps.bind {α β : Type} {x : M RefState α} {f : α → M RefState β} (hx : M.Keeps x (FlushOps r))
    (hf : ∀ a, M.Keeps (f a) (FlushOps r)) : M.Keeps (x >>= f) (FlushOps r) :=
  M.Keeps.bind (R := FlushOps r) FlushOps.trans hx hf

theorem FlushOps.same {α : Type} {x : M RefState α} (h : ∀ s, (x s).2.repo.log = s.repo.log) : M.Keeps x (FlushOps r) :=
  fun s => ⟨[], h s, fun _ h => by cases h⟩

theorem FlushOps.catch {α : Type} {x y : M RefState α} (hx : M.Keeps x (FlushOps r)) (hy : M.Keeps y (FlushOps r)) :
    M.Keeps (M.catchRuntime x y) (FlushOps r) := by
  intro s
  have h1 := hx s
  unfold M.catchRuntime
  cases he : x s with
  | mk res s1 =>
    rw [he] at h1
    cases res with
    | ok a => exact h1
    | error e => cases e <;> first | exact h1 | exact FlushOps.trans _ _ _ h1 (hy s1)

theorem FlushOps.lift {α : Type} {g : G α} (h : M.Keeps g (OnlySaves r)) : M.Keeps (liftR g) (FlushOps r) := by
  intro s
  obtain ⟨K, e, f⟩ := h s.repo
  exact ⟨K, e, fun op hop => Or.inl (f op hop)⟩

theorem FlushOps.legacy (name : Str) (isTree : Bool) : M.Keeps (addLegacyFrom C r name isTree) (FlushOps r) := by
  refine FlushOps.catch (FlushOps.bind (FlushOps.lift (gitCmd_onlySaves fun _ op h => by cases h)) fun lines =>
    FlushOps.bind (M.Keeps.forEach FlushOps.refl FlushOps.trans fun l _ => ?_) fun _ => FlushOps.refl) FlushOps.refl
  exact FlushOps.bind (M.Keeps.ofExcept FlushOps.refl _) fun _ => FlushOps.same fun _ => rfl

theorem FlushOps.drop (name : Str) (hn : name = legacyTreesName ∨ name = legacyBlobsName) (added : Bool) :
    M.Keeps (dropLegacy r name added) (FlushOps r) := by
  intro s
  obtain ⟨_, _, h⟩ := dropLegacy_any (r := r) (name := name) (added := added) (s := s) rfl
  rcases h with h | ⟨_, h⟩
  · exact ⟨[], h, fun _ h => by cases h⟩
  · refine ⟨[.delRef r name], h, fun op hop => ?_⟩
    cases List.mem_singleton.mp hop
    rcases hn with rfl | rfl
    · exact Or.inr (Or.inr (Or.inl rfl))
    · exact Or.inr (Or.inr (Or.inr rfl))

theorem FlushOps.store (infos : List PathInfo) : M.Keeps (storeRefs C r infos) (FlushOps r) := by
  refine FlushOps.bind (FlushOps.catch (FlushOps.lift (getDir_any C r r _)) FlushOps.refl) fun root =>
    FlushOps.bind (FlushOps.lift (addPaths_any C r 1000 infos root)) fun h => ?_
  intro s
  rcases gitUpdateRef_outcome (C := C) (r := r) (name := objectRefName) (h := h) (s := s.repo) with e | e
  · exact ⟨[], e, fun _ h => by cases h⟩
  · refine ⟨[.setRef r objectRefName h], e, fun op hop => ?_⟩
    cases List.mem_singleton.mp hop
    exact Or.inr (Or.inl ⟨h, rfl⟩)

theorem FlushOps.cached : M.Keeps (flushCached C r) (FlushOps r) := by
  refine FlushOps.bind (M.Keeps.get FlushOps.refl) fun s => ?_
  split
  · exact FlushOps.refl
  · exact FlushOps.bind (M.Keeps.ofExcept FlushOps.refl _) fun infos =>
      FlushOps.bind (FlushOps.store infos) fun _ => FlushOps.same fun _ => rfl

/-- A flush from any state, with any outcome -/
theorem flush_ops : M.Keeps (flush C r) (FlushOps r) := by
  refine FlushOps.bind ?_ fun x => FlushOps.bind FlushOps.cached fun _ =>
    FlushOps.bind (FlushOps.drop _ (Or.inl rfl) _) fun _ => FlushOps.drop _ (Or.inr rfl) _
  refine FlushOps.bind (M.Keeps.get FlushOps.refl) fun s => ?_
  split
  · exact FlushOps.refl
  · exact FlushOps.bind (FlushOps.same fun _ => rfl) fun _ => FlushOps.bind (FlushOps.legacy _ _) fun _ =>
      FlushOps.bind (FlushOps.legacy _ _) fun _ => FlushOps.refl

theorem FlushOps.grows {s s' : RefState} (h : FlushOps r s s') : Grows s.repo.log s'.repo.log := by
  obtain ⟨K, e, _⟩ := h
  rw [e]
  exact grows_append K _

theorem FlushOps.refs {s s' : RefState} (h : FlushOps r s s') (r' : Realm) (name : Str)
    (hn : r' = r → name ≠ objectRefName ∧ name ≠ legacyTreesName ∧ name ≠ legacyBlobsName) :
    refOf s'.repo.log r' name = refOf s.repo.log r' name := by
  obtain ⟨K, e, f⟩ := h
  rw [e]
  clear e
  induction K with
  | nil => rfl
  | cons op K ih =>
    have ih := ih fun op hop => f op (List.mem_cons_of_mem _ hop)
    rw [List.cons_append]
    rcases f op (List.mem_cons_self ..) with ⟨o, rfl⟩ | ⟨h, rfl⟩ | rfl | rfl
    · exact ih
    · exact (if_neg (fun q => (hn q.1.symm).1 q.2.symm)).trans ih
    · exact (if_neg (fun q => (hn q.1.symm).2.1 q.2.symm)).trans ih
    · exact (if_neg (fun q => (hn q.1.symm).2.2 q.2.symm)).trans ih

end MM
