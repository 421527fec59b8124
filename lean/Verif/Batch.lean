/-
Writing through the blob cache of a repository against writing every blob at once.
-/
import Verif.Session

namespace MM

/-- Two states of which the first has no blob cache and the second has one for the
repository `r`: they are the same, if the waiting blobs count as stored. -/
structure Batched (r : Realm) (w v : World) : Prop where
  heap : v.heap = w.heap
  next : v.next = w.next
  refs : v.refs = w.refs
  direct : w.caches = []
  cache : ∃ bs, v.caches = [(r, bs)]
  stored : ∀ x o, Stored v.eff x o ↔ Stored w.repo.log x o
  names : ∀ x n, refOf v.repo.log x n = refOf w.repo.log x n

/-- When both runs succeed, they give the same. -/
def Agree {α : Type} (r : Realm) (x : W α) : Prop :=
  ∀ w v a w' b v', Batched r w v → x w = (.ok a, w') → x v = (.ok b, v') → a = b ∧ Batched r w' v'

section
variable {C : Cfg} {r : Realm}

theorem Agree.bind {α β : Type} {x : W α} {f : α → W β} (hx : Agree r x) (hf : ∀ a, Agree r (f a)) :
    Agree r (x >>= f) := by
  intro w v b w' b' v' hb h1 h2
  obtain ⟨a, w1, e1, h1⟩ := M.bind_ok h1
  obtain ⟨a', v1, e2, h2⟩ := M.bind_ok h2
  obtain ⟨rfl, hb1⟩ := hx w v a w1 a' v1 hb e1 e2
  exact hf a w1 v1 b w' b' v' hb1 h1 h2

theorem Agree.pure {α : Type} (a : α) : Agree r (Pure.pure a : W α) := by
  intro w v b w' b' v' hb h1 h2
  cases h1; cases h2
  exact ⟨rfl, hb⟩

theorem Agree.raise {α : Type} (e : PyErr) : Agree r (M.raise e : W α) := by
  intro w v b w' b' v' hb h1 h2
  cases h1

theorem Agree.ofExcept {α : Type} (e : Except PyErr α) : Agree r (M.ofExcept e : W α) := by
  cases e with
  | ok a => exact Agree.pure a
  | error e => exact Agree.raise e

theorem Agree.forEach {α β : Type} {f : α → W β} : ∀ {l : List α}, (∀ a ∈ l, Agree r (f a)) →
    Agree r (M.forEach f l) := by
  intro l
  induction l with
  | nil => intro _; exact Agree.pure []
  | cons a l ih =>
    intro h
    rw [M.forEach_cons]
    exact Agree.bind (h a (List.mem_cons_self ..)) fun b =>
      Agree.bind (ih fun x hx => h x (List.mem_cons_of_mem _ hx)) fun bs => Agree.pure _

/-- Code that looks at the objects only. -/
theorem Agree.getObj (i : ObjId) : Agree r (getObj i) := by
  intro w v a w' b v' hb h1 h2
  rw [getObj_run] at h1 h2
  cases h1; cases h2
  exact ⟨by rw [hb.heap], hb⟩

theorem Agree.updObj (i : ObjId) (f : Obj → Obj) : Agree r (updObj i f) := by
  intro w v a w' b v' hb h1 h2
  rw [updObj_run] at h1 h2
  cases h1; cases h2
  exact ⟨rfl, by simp only [hb.heap], hb.next, hb.refs, hb.direct, hb.cache, hb.stored, hb.names⟩

theorem Agree.saved (n : Nat) (i : ObjId) (x : Realm) {α : Type} {f : Bool → W α}
    (hf : ∀ b, Agree r (f b)) :
    Agree r (do let w ← M.get; let saved ← M.ofExcept (isSavedOn n w.heap x i); f saved) := by
  intro w v a w' b v' hb h1 h2
  rw [M.bind_of_ok (M.get_run w)] at h1
  rw [M.bind_of_ok (M.get_run v), hb.heap] at h2
  exact Agree.bind (Agree.ofExcept _) hf w v a w' b v' hb h1 h2

theorem Agree.addRef (t : Bool) (h : Option Str) : Agree r (addRef t h) := by
  intro w v a w' b v' hb h1 h2
  refine ⟨by cases a; cases b; rfl, ?_⟩
  unfold MM.addRef at h1 h2
  cases h with
  | none => cases h1
  | some h =>
    simp only [hb.refs] at h1 h2
    by_cases hc : h = noneLocation ∨ (t, h) ∈ w.refs
    · rw [if_pos hc] at h1 h2
      cases h1; cases h2
      exact hb
    · rw [if_neg hc] at h1 h2
      cases h1; cases h2
      exact ⟨hb.heap, hb.next, by simp only, hb.direct, hb.cache, hb.stored, hb.names⟩

/-- The same changes in both. -/
theorem Batched.ops {w v : World} (hb : Batched r w v) (ops : Log) (f f' : List Fault) :
    Batched r { w with repo := ⟨ops ++ w.repo.log, f⟩ } { v with repo := ⟨ops ++ v.repo.log, f'⟩ } := by
  refine ⟨hb.heap, hb.next, hb.refs, hb.direct, hb.cache, ?_, ?_⟩
  · intro x o
    have := hb.stored x o
    simp only [Stored, World.eff, List.mem_append] at this ⊢
    rw [← this]
    constructor
    · rintro (h | h | h)
      · exact Or.inr (Or.inl h)
      · exact Or.inl h
      · exact Or.inr (Or.inr h)
    · rintro (h | h | h)
      · exact Or.inr (Or.inl h)
      · exact Or.inl h
      · exact Or.inr (Or.inr h)
  · intro x n
    have := hb.names x n
    simp only
    induction ops with
    | nil => exact this
    | cons op ops ih => cases op <;> simp only [List.cons_append, refOf, ih]

/-- A command that does the same in every state of the repository. -/
theorem Agree.fixed {α : Type} (ops : List GitOp) (res : Except PyErr α) :
    Agree r (liftG (gitCmd fun _ => (ops, res))) := by
  intro w v a w' b v' hb h1 h2
  obtain ⟨s, e1, rfl⟩ := liftG_ok h1
  obtain ⟨s', e2, rfl⟩ := liftG_ok h2
  obtain ⟨g1, g2⟩ := gitCmd_ok e1
  obtain ⟨g1', g2'⟩ := gitCmd_ok e2
  simp only at g1 g1' g2 g2'
  rw [g1] at g1'
  cases g1'
  refine ⟨rfl, ?_⟩
  obtain ⟨l, f⟩ := s
  obtain ⟨l', f'⟩ := s'
  simp only at g2 g2'
  subst g2 g2'
  exact hb.ops _ f f'

theorem Agree.str (s : Str) : Agree r (liftG (gitSaveStr C r s)) := Agree.fixed _ _

theorem Agree.tree (es : List TreeEntry) : Agree r (liftG (gitSaveTree C r es)) := by
  unfold gitSaveTree
  cases mktree (treeSpec es) with
  | some es' => exact Agree.fixed _ _
  | none => exact Agree.fixed _ _

theorem updateRef_ok {nm hash : Str} {w w' : World} (h : liftG (gitUpdateRef C r nm hash) w = (.ok (), w')) :
    ∃ f, w' = { w with repo := ⟨.setRef r nm hash :: w.repo.log, f⟩ } := by
  obtain ⟨s, e1, rfl⟩ := liftG_ok h
  obtain ⟨g1, g2⟩ := gitCmd_ok e1
  obtain ⟨l, f⟩ := s
  refine ⟨f, ?_⟩
  cases hr : resolve C w.repo.log r hash with
  | none => simp [hr] at g1
  | some o =>
    simp only [hr] at g2
    rw [g2]
    rfl

theorem Agree.name (nm hash : Str) : Agree r (liftG (gitUpdateRef C r nm hash)) := by
  intro w v a w' b v' hb h1 h2
  obtain ⟨f, rfl⟩ := updateRef_ok h1
  obtain ⟨f', rfl⟩ := updateRef_ok h2
  exact ⟨by cases a; cases b; rfl, hb.ops [.setRef r nm hash] f f'⟩

/-- Storing the waiting blobs. -/
theorem flushCache_same {bs : List Str} {v v' : World} (hc : v.caches = [(r, bs)])
    (h : flushCache C r v = (.ok (), v')) :
    ∃ f, v' = { v with repo := ⟨(bs.map fun s => GitOp.save r (.blob s)).reverse ++ v.repo.log, f⟩,
                       caches := [(r, [])] } := by
  unfold flushCache at h
  rw [M.bind_of_ok (M.get_run v)] at h
  simp only [hc, dget, if_true] at h
  obtain ⟨hs, v1, e1, h⟩ := M.bind_ok h
  obtain ⟨s, e2, rfl⟩ := liftG_ok e1
  obtain ⟨_, g2⟩ := gitCmd_ok e2
  obtain ⟨l, f⟩ := s
  simp only at g2
  subst g2
  rw [M.modify_run] at h
  cases h
  exact ⟨f, by simp [hc, dset]⟩

theorem refOf_blobs (bs : List Str) (L : Log) (x : Realm) (n : Str) :
    refOf ((bs.map fun s => GitOp.save r (.blob s)).reverse ++ L) x n = refOf L x n := by
  refine refOf_append_saves ?_ L x n
  intro op hop
  rw [List.mem_reverse] at hop
  obtain ⟨s, _, rfl⟩ := List.mem_map.mp hop
  exact ⟨_, _, rfl⟩

theorem Batched.flush {w v v' : World} (hb : Batched r w v) (h : flushCache C r v = (.ok (), v')) :
    Batched r w v' ∧ v'.caches = [(r, [])] := by
  obtain ⟨bs, hc⟩ := hb.cache
  obtain ⟨f, rfl⟩ := flushCache_same hc h
  refine ⟨⟨hb.heap, hb.next, hb.refs, hb.direct, ⟨[], rfl⟩, ?_, ?_⟩, rfl⟩
  · intro x o
    rw [← hb.stored x o]
    simp only [Stored, World.eff, hc, pending, List.flatMap_cons, List.flatMap_nil, List.map_nil,
      List.nil_append, List.append_nil, List.mem_append, List.mem_reverse]
  · intro x n
    show refOf (_ ++ _) x n = _
    rw [refOf_blobs]
    exact hb.names x n

/-- A blob is put into the cache in one run and stored in the other. -/
theorem Agree.blob (s : Str) : Agree r (saveBlob C r s) := by
  intro w v a w' b v' hb h1 h2
  unfold saveBlob at h1 h2
  rw [M.bind_of_ok (M.get_run w)] at h1
  rw [M.bind_of_ok (M.get_run v)] at h2
  obtain ⟨bs, hc⟩ := hb.cache
  simp only [hb.direct, dget] at h1
  simp only [hc, dget, if_true] at h2
  obtain ⟨s1, e1, rfl⟩ := liftG_ok h1
  obtain ⟨g1, g2⟩ := gitCmd_ok e1
  obtain ⟨l, f⟩ := s1
  simp only at g1 g2
  subst g2
  cases g1
  have main : ∀ v1 : World, Batched r w v1 →
      ((do M.modify fun w => { w with caches := dset w.caches r ((dget w.caches r).getD [] ++ [s]) }
           Pure.pure (C.hash (.blob s))) : W Str) v1 = (.ok b, v') →
      C.hash (.blob s) = b ∧ Batched r { w with repo := ⟨[GitOp.save r (.blob s)].reverse ++ w.repo.log, f⟩ } v' := by
    intro v1 hb1 h
    rw [M.bind_of_ok (M.modify_run _ v1)] at h
    cases h
    obtain ⟨bs1, hc1⟩ := hb1.cache
    refine ⟨rfl, hb1.heap, hb1.next, hb1.refs, hb1.direct, ⟨bs1 ++ [s], by simp [hc1, dset, dget]⟩, ?_, hb1.names⟩
    intro x o
    have := hb1.stored x o
    simp only [Stored, World.eff, hc1, pending, List.flatMap_cons, List.flatMap_nil, List.append_nil,
      List.mem_append, List.mem_map, List.reverse_singleton, List.mem_singleton, dset, dget, if_true,
      Option.getD_some, List.map_append, List.map_cons, List.map_nil] at this ⊢
    rw [← this]
    constructor
    · rintro ((h | h) | h)
      · exact Or.inr (Or.inl h)
      · exact Or.inl h
      · exact Or.inr (Or.inr h)
    · rintro (h | h | h)
      · exact Or.inl (Or.inr h)
      · exact Or.inl (Or.inl h)
      · exact Or.inr h
  unfold cacheBlob at h2
  rw [M.bind_of_ok (M.get_run v)] at h2
  split at h2
  · obtain ⟨u, v1, e2, h2⟩ := M.bind_ok h2
    exact main v1 (hb.flush e2).1 h2
  · exact main v hb h2

/-- Inside a file tree written through its wrapper, no other file tree can be written
through its wrapper. -/
theorem Agree.files (wr : W Ref) : Agree r (fileTreeWrite C (some r) wr) := by
  intro w v a w' b v' hb h1 h2
  obtain ⟨bs, hc⟩ := hb.cache
  obtain ⟨u, v1, e, _⟩ := M.bind_ok h2
  unfold cacheRealm at e
  simp [hc, dget] at e

theorem Agree.proxy {wr : W Ref} (h : Agree r wr) : Agree r (proxyWrite wr) := by
  refine Agree.bind h fun ref => ?_
  split
  · exact Agree.pure _
  · exact Agree.bind (Agree.addRef _ _) fun _ => Agree.pure _

theorem Agree.versions {wr : ObjId → W Ref} (h : ∀ j, Agree r (wr j)) (kids : List (Key × (Str × ObjId))) :
    Agree r (writeVersionList C wr r kids) := by
  refine Agree.bind (Agree.forEach fun e _ => Agree.bind ?_ fun _ => Agree.pure _) fun js => Agree.str _
  refine Agree.bind (Agree.getObj _) fun o => ?_
  split
  · exact Agree.proxy (h _)
  · exact h _

theorem Agree.mapOut {wr : Bool → ObjId → W Ref} (h : ∀ f j, Agree r (wr f j)) (force : Bool)
    (b : Body ObjId) : Agree r (mapOut C wr r force b) := by
  unfold MM.mapOut
  split
  · exact Agree.bind (Agree.str _) fun _ => Agree.pure _
  · exact Agree.bind (Agree.blob _) fun _ => Agree.bind (Agree.addRef _ _) fun _ =>
      Agree.bind (Agree.blob _) fun _ => Agree.pure _
  · split
    · exact Agree.pure _
    · refine Agree.bind (Agree.forEach fun e _ => ?_) fun es => Agree.bind (Agree.tree _) fun _ => Agree.pure _
      exact Agree.bind (h _ _) fun _ => Agree.bind (Agree.getObj _) fun _ => Agree.pure _
  · refine Agree.bind ?_ fun ft => Agree.bind ?_ fun dlm => Agree.bind (Agree.str _) fun _ => Agree.pure _
    · cases dget b.kids .ft with
      | none => exact Agree.pure _
      | some e =>
        refine Agree.bind (Agree.files _) fun ref => ?_
        split
        · exact Agree.pure _
        · exact Agree.bind (Agree.addRef _ _) fun _ => Agree.pure _
    · cases dget b.kids .dlm with
      | none => exact Agree.pure _
      | some e => exact Agree.bind (h _ _) fun ref => Agree.bind (Agree.addRef _ _) fun _ => Agree.pure _
  · exact Agree.bind (Agree.versions (h _) _) fun _ => Agree.pure _
  · exact Agree.bind (Agree.versions (h _) _) fun _ => Agree.bind (Agree.name _ _) fun _ => Agree.pure _
  · refine Agree.bind (Agree.forEach fun e _ => Agree.bind (h _ _) fun _ => Agree.pure _) fun es =>
      Agree.bind (Agree.tree _) fun _ => Agree.bind (Agree.name _ _) fun _ => Agree.pure _

theorem Agree.writeOut (hr : r ≠ []) (n : Nat) : ∀ (force : Bool) (i : ObjId),
    Agree r (writeOut C n (some r) force i) := by
  induction n with
  | zero => intro force i; exact Agree.raise _
  | succ n ih =>
    intro force i
    rw [MM.writeOut]
    refine Agree.bind (Agree.getObj i) fun o => ?_
    split
    · rw [destOf_some hr]
      simp only
      split
      · exact Agree.raise _
      · refine Agree.bind (Agree.updObj _ _) fun _ => Agree.saved _ _ _ fun saved => ?_
        split
        · cases o.ref with
          | some ref => exact Agree.pure _
          | none => exact Agree.raise _
        · exact Agree.bind (Agree.mapOut ih force o.body) fun ref => Agree.bind (Agree.updObj _ _) fun _ =>
            Agree.pure _
    · split
      · simp only
        split
        · exact Agree.pure _
        · exact Agree.raise _
      · exact Agree.raise _

/-- Storing the blobs that still wait at the end. -/
theorem Batched.done {w v v' : World} (hb : Batched r w v) (h : flushRealm C r v = (.ok (), v')) :
    v'.heap = w.heap ∧ v'.next = w.next ∧ v'.refs = w.refs ∧ v'.caches = [] ∧
      (∀ x o, Stored v'.repo.log x o ↔ Stored w.repo.log x o) ∧
      ∀ x n, refOf v'.repo.log x n = refOf w.repo.log x n := by
  unfold flushRealm at h
  rw [M.bind_of_ok (M.get_run v)] at h
  obtain ⟨bs, hc⟩ := hb.cache
  simp only [hc, dget, if_true] at h
  obtain ⟨u, v1, e, h⟩ := M.bind_ok h
  obtain ⟨hb1, hc1⟩ := hb.flush e
  rw [M.modify_run] at h
  cases h
  refine ⟨hb1.heap, hb1.next, hb1.refs, by simp [hc1, ddel], ?_, hb1.names⟩
  intro x o
  have := hb1.stored x o
  simpa [Stored, World.eff, hc1, pending] using this

end

end MM
