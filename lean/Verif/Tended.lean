/-
Sessions and garbage collection: what the calls of a session do is a course of steps in the sense of `Lifetime`.
-/
import Verif.Lifetime
import Verif.Props.Again

namespace MM

variable {C : Cfg} {r : Realm} {t u : ObjId}

/-- Steps of a process that uses one repository -/
def Lives (C : Cfg) (r : Realm) (w w' : World) : Prop := ∀ ks, Lifetime C r w ks → Lifetime C r w' ks

theorem lives_bind {α β : Type} {x : W α} {f : α → W β} (hx : M.Keeps x (Lives C r)) (hf : ∀ a, M.Keeps (f a) (Lives C r)) :
    M.Keeps (x >>= f) (Lives C r) :=
  M.Keeps.bind (R := Lives C r) (fun _ _ _ h1 h2 ks h => h2 ks (h1 ks h)) hx hf

theorem lives_pure {α : Type} (a : α) : M.Keeps (pure a : W α) (Lives C r) := M.Keeps.pure (R := Lives C r) (fun _ _ h => h) a

theorem lives_raise {α : Type} (e : PyErr) : M.Keeps (M.raise e : W α) (Lives C r) := M.Keeps.raise (R := Lives C r) (fun _ _ h => h) e

theorem lives_ensure (i : ObjId) : M.Keeps (ensureMapped C i) (Lives C r) := fun w ks h => .read w ks i h

theorem lives_get (i : ObjId) : M.Keeps (getObj i) (Lives C r) := fun _ _ h => h

theorem lives_alloc (b : Body ObjId) : M.Keeps (alloc (Obj.new b)) (Lives C r) := fun w ks h => .new w ks b h

theorem lives_change (i : ObjId) (b : Body ObjId) : M.Keeps (change i b) (Lives C r) := fun w ks h => by
  rw [change_run]; exact .edit w ks i b h

theorem lives_readIn (i : ObjId) : M.Keeps (readIn C i) (Lives C r) := fun w ks h => .readIn w ks i h

theorem lives_getChild (i : ObjId) (n : Str) : M.Keeps (getChild C i n) (Lives C r) := by
  unfold getChild
  exact lives_bind (lives_ensure i) fun _ => lives_bind (lives_get i) fun _ => lives_pure _

theorem lives_addChild (i : ObjId) (n : Str) (c : ObjId) : M.Keeps (addChild C i n c) (Lives C r) := by
  unfold addChild
  refine lives_bind (M.Keeps.assert (R := Lives C r) (fun _ _ h => h) _) fun _ => ?_
  refine lives_bind (M.Keeps.assert (R := Lives C r) (fun _ _ h => h) _) fun _ => ?_
  refine lives_bind (lives_ensure i) fun _ => lives_bind (lives_get i) fun o => ?_
  cases dget o.body.kids (.name n) with
  | some _ => exact lives_raise _
  | none => exact lives_change _ _

theorem lives_addChildAt (c : ObjId) (path : List Str) : ∀ i, M.Keeps (addChildAt C c path i) (Lives C r) := by
  induction path with
  | nil => intro i; exact lives_raise _
  | cons n path ih =>
    intro i
    cases path with
    | nil =>
      unfold addChildAt
      refine lives_bind (lives_getChild i n) fun o => ?_
      cases o with
      | none => exact lives_addChild _ _ _
      | some e =>
        refine lives_bind (lives_get e) fun o => ?_
        by_cases h : o.kind.isMtree = true
        · simp only [if_pos h]; exact lives_raise _
        · simp only [if_neg h]; exact lives_addChild _ _ _
    | cons m path =>
      unfold addChildAt
      refine lives_bind (lives_getChild i n) fun o => ?_
      cases o with
      | none =>
        refine lives_bind (lives_get i) fun o => lives_bind (lives_alloc _) fun e => ?_
        exact lives_bind (lives_addChild _ _ _) fun _ => ih e
      | some e =>
        refine lives_bind (lives_get e) fun o => ?_
        by_cases h : o.kind.isMtree = true
        · simp only [if_pos h]; exact ih e
        · simp only [if_neg h]; exact lives_raise _

theorem lives_getObjectAt (path : List Str) : ∀ i, M.Keeps (getObjectAt C path i) (Lives C r) := by
  induction path with
  | nil => intro i; exact lives_pure _
  | cons n path ih =>
    intro i
    unfold getObjectAt
    refine lives_bind (lives_get i) fun o => ?_
    by_cases h : o.kind.isMtree = true
    · simp only [if_pos h]
      refine lives_bind (lives_getChild i n) fun c => ?_
      cases c with
      | none => exact lives_pure _
      | some j => exact ih j
    · simp only [if_neg h]; exact lives_pure _

theorem lives_setVersioned (i : ObjId) (v t : Str) (p : PPath) (x : ObjId) :
    M.Keeps (setVersioned C i v t p x) (Lives C r) := by
  unfold setVersioned
  exact lives_bind (lives_ensure i) fun _ => lives_bind (lives_get i) fun _ => lives_change _ _

theorem lives_listFor (auto : Option Bool) (us : ObjId) (u : Uuid) : M.Keeps (listFor C auto us u) (Lives C r) := by
  unfold listFor
  refine lives_bind ?_ fun l => ?_
  · unfold uuids
    exact lives_bind (lives_ensure us) fun _ => lives_bind (lives_get us) fun _ => lives_pure _
  · by_cases h : u ∈ l
    · simp only [if_pos h]
      refine lives_bind ?_ fun x => lives_pure _
      unfold getVersionList
      refine lives_bind (lives_ensure us) fun _ => lives_bind (lives_get us) fun o => ?_
      cases dget o.body.kids (.uuid u) with
      | none => exact lives_raise _
      | some y => exact lives_bind (lives_readIn _) fun _ => lives_pure _
    · simp only [if_neg h]
      by_cases hn : noCreate auto = true
      · simp only [if_pos hn]; exact lives_pure _
      · simp only [if_neg hn]
        refine lives_bind (lives_alloc _) fun x => lives_bind ?_ fun _ => lives_pure _
        unfold setVersionList
        intro w ks h
        have := setVersionList_run us u x w
        unfold setVersionList at this
        rw [this]
        exact .edit w ks us _ h

theorem lives_treeFor (auto : Option Bool) (now : Str) (tvl : ObjId) (v : Str) (p : PPath) :
    M.Keeps (treeFor C auto now tvl v p) (Lives C r) := by
  unfold treeFor
  refine lives_bind ?_ fun l => ?_
  · unfold versionsAndPaths
    exact lives_bind (lives_ensure _) fun _ => lives_bind (lives_get _) fun _ => lives_pure _
  · by_cases h : (v, p) ∈ l
    · simp only [if_pos h]
      refine lives_bind ?_ fun x => lives_pure _
      unfold getVersioned
      refine lives_bind (lives_ensure _) fun _ => lives_bind (lives_get _) fun o => ?_
      cases dget o.body.kids (.ver v p) with
      | none => exact lives_raise _
      | some y => exact lives_bind (lives_readIn _) fun _ => lives_pure _
    · simp only [if_neg h]
      by_cases hn : noCreate auto = true
      · simp only [if_pos hn]; exact lives_pure _
      · simp only [if_neg hn]
        exact lives_bind (lives_alloc _) fun x => lives_bind (lives_setVersioned _ _ _ _ _) fun _ => lives_pure _

theorem lives_recordFor (auto : Option Bool) (dt : ObjId) (path : List Str) (id : Uuid) (v : Str) :
    M.Keeps (recordFor C auto dt path id v) (Lives C r) := by
  unfold recordFor
  refine lives_bind (lives_get dt) fun o => ?_
  by_cases hk : (!o.kind.isMtree) = true
  · simp only [if_pos hk]; exact lives_raise _
  · simp only [if_neg hk]
    refine lives_bind ?_ fun b => ?_
    · unfold hasDataset
      exact lives_bind (lives_getObjectAt _ _) fun _ => lives_pure _
    · cases b with
      | true =>
        simp only [if_true]
        unfold getRootRecord
        refine lives_bind (lives_getObjectAt _ _) fun x => ?_
        cases x with
        | none => exact lives_pure _
        | some m =>
          refine lives_bind (lives_get m) fun o => ?_
          refine lives_bind (M.Keeps.assert (R := Lives C r) (fun _ _ h => h) _) fun _ => ?_
          exact lives_bind (lives_ensure _) fun _ => lives_pure _
      | false =>
        simp only [Bool.false_eq_true, if_false]
        by_cases hn : noCreate auto = true
        · simp only [if_pos hn]; exact lives_pure _
        · simp only [if_neg hn]
          refine lives_bind (lives_alloc _) fun m => lives_bind (lives_alloc _) fun f => ?_
          refine lives_bind (lives_alloc _) fun x => lives_bind ?_ fun _ => lives_pure _
          exact lives_addChildAt _ _ _

theorem lives_entryFor (vl : ObjId) (v now : Str) (p : PPath) (x : ObjId) :
    M.Keeps (entryFor C vl v now p x) (Lives C r) := by
  unfold entryFor
  refine lives_bind ?_ fun l => ?_
  · unfold versionsAndPaths
    exact lives_bind (lives_ensure _) fun _ => lives_bind (lives_get _) fun _ => lives_pure _
  · by_cases h : (v, p) ∈ l
    · simp only [if_pos h]; exact lives_pure _
    · simp only [if_neg h]; exact lives_setVersioned _ _ _ _ _

theorem lives_rootRecord (auto : Option Bool) (now : Str) (tvl us : ObjId) (id : Uuid) (v : Str) (pre : PPath)
    (path : List Str) (root : Option Uuid) (rv : Option Str) :
    M.Keeps (rootRecord C auto now tvl us id v pre path root rv) (Lives C r) := by
  have own : ∀ dt id v pre, M.Keeps (ownPart C auto now us dt id v pre path) (Lives C r) := by
    intro dt id v pre
    unfold ownPart
    refine lives_bind (lives_listFor _ _ _) fun o => ?_
    cases o with
    | none => exact lives_pure _
    | some vl =>
      refine lives_bind (lives_recordFor _ _ _ _ _) fun o => ?_
      cases o with
      | none => exact lives_pure _
      | some m => exact lives_bind (lives_entryFor _ _ _ _ _) fun _ => lives_pure _
  unfold rootRecord
  by_cases hp : path = []
  · rw [if_pos hp]
    refine lives_bind (lives_treeFor _ _ _ _ _) fun o => ?_
    cases o with
    | none => exact lives_pure _
    | some dt => exact own _ _ _ _
  · rw [if_neg hp]
    cases root with
    | none => exact lives_raise _
    | some u =>
      cases rv with
      | none => exact lives_raise _
      | some rv =>
        refine lives_bind ?_ fun o => ?_
        · unfold rootPart
          refine lives_bind (lives_listFor _ _ _) fun o => ?_
          cases o with
          | none => exact lives_pure _
          | some vl =>
            refine lives_bind (lives_treeFor _ _ _ _ _) fun o => ?_
            cases o with
            | none => exact lives_pure _
            | some dt =>
              refine lives_bind (lives_recordFor _ _ _ _ _) fun o => ?_
              cases o with
              | none => exact lives_pure _
              | some m => exact lives_bind (lives_entryFor _ _ _ _ _) fun _ => lives_pure _
        · cases o with
          | none => exact lives_pure _
          | some dt => exact own _ _ _ _

theorem lives_getVersioned (i : ObjId) (v : Str) (p : PPath) : M.Keeps (getVersioned C i v p) (Lives C r) := by
  unfold getVersioned
  refine lives_bind (lives_ensure i) fun _ => lives_bind (lives_get i) fun o => ?_
  split
  · exact lives_raise _
  · exact lives_bind (lives_readIn _) fun _ => lives_pure _

theorem lives_getVersionList (i : ObjId) (u : Uuid) : M.Keeps (getVersionList C i u) (Lives C r) := by
  unfold getVersionList
  refine lives_bind (lives_ensure i) fun _ => lives_bind (lives_get i) fun o => ?_
  split
  · exact lives_raise _
  · exact lives_bind (lives_readIn _) fun _ => lives_pure _

theorem lives_addExtractorRun (i : ObjId) (ext : Str) (run : Instance) :
    M.Keeps (addExtractorRun C i ext run) (Lives C r) := by
  unfold addExtractorRun
  refine lives_bind (lives_ensure i) fun _ => lives_bind (lives_get i) fun o => ?_
  split
  · exact lives_change _ _
  · exact lives_raise _


theorem lives_load {l : Link} {nm : Str} (hl : Named l nm) : M.Keeps (alloc (l.obj r)) (Lives C r) := fun w ks h => by
  refine .load w ks l h (Or.inr ⟨nm, ?_, ?_⟩)
  · rcases hl with ⟨rfl, rfl⟩ | ⟨rfl, rfl⟩ <;> rfl
  · rcases hl with ⟨rfl, rfl⟩ | ⟨rfl, rfl⟩ <;> rfl

theorem lives_topLevel : M.Keeps (topLevel C r) (Lives C r) := by
  unfold topLevel
  refine lives_bind (lives_load (Or.inl ⟨rfl, rfl⟩)) fun t => lives_bind (lives_load (Or.inr ⟨rfl, rfl⟩)) fun u => ?_
  have h : M.Keeps (do readIn C t; readIn C u; pure (some (t, u)) : W (Option (ObjId × ObjId))) (Lives C r) :=
    lives_bind (lives_readIn t) fun _ => lives_bind (lives_readIn u) fun _ => lives_pure _
  intro w
  have := h w
  unfold M.catchRuntime
  split
  · rename_i s' he; rw [he] at this; exact this
  · exact this

theorem Busy.lives {g : ObjId} {w w' : World} (h : Busy C g t u w w') : Lives C r w w' := by
  intro ks hw
  induction h with
  | refl => exact hw
  | loaded w' i _ _ _ ih => exact lives_ensure i w' ks ih
  | read w' i _ _ _ ih => exact lives_readIn i w' ks ih
  | looked w' i p _ _ _ ih => exact lives_getObjectAt p i w' ks ih
  | listed w' i id _ _ _ ih => exact lives_getVersionList i id w' ks ih
  | element w' i v p _ _ _ ih => exact lives_getVersioned i v p w' ks ih
  | asked w' auto now id v pre path root rv _ _ _ ih => exact lives_rootRecord auto now t u id v pre path root rv w' ks ih
  | new w' b _ _ _ ih => exact .new w' ks b ih
  | ran w' i ext run _ _ _ _ ih => exact lives_addExtractorRun i ext run w' ks ih
  | filed w' leaf i x p _ _ _ _ _ _ _ _ _ ih => exact lives_addChildAt x p i w' ks ih
  | part w' k i x _ _ _ _ h1 _ _ _ h2 _ ih =>
    rw [setPart_run (h2.imp And.left And.left) h1]
    exact .edit w' ks i _ ih

end MM
