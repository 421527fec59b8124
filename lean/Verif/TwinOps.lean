/-
The operations that add metadata depend only on the objects that can be reached from the objects they
are called for.
-/
import Verif.Local
import Verif.TreeOps
import Verif.Common

namespace MM

variable {C : Cfg} {A : ObjId → Prop}

/-- Code that loads an object and goes on with what it holds -/
theorem Twin.load {β : Type} {Q : β → Prop} {i : ObjId} (hi : A i) {k : Obj → W β}
    (hk : ∀ o, o.mapped = true → (∀ x ∈ o.body.subs, A x) → Twin A Q (k o)) :
    Twin A Q (ensureMapped C i >>= fun _ => MM.getObj i >>= k) := by
  intro w v hs
  obtain ⟨h1, h2, h3, _⟩ := twin_ensureMapped (C := C) hi w v hs
  cases e : ensureMapped C i w with
  | mk res w1 =>
    cases e' : ensureMapped C i v with
    | mk res' v1 =>
      rw [e, e'] at h1 h2 h3
      simp only at h1 h2 h3
      subst h1
      cases res' with
      | error er =>
        rw [M.bind_of_error e, M.bind_of_error e']
        exact ⟨rfl, h2, h3, fun b hb => by cases hb⟩
      | ok b =>
        rw [M.bind_of_ok e, M.bind_of_ok e', M.bind_of_ok (getObj_run i w1), M.bind_of_ok (getObj_run i v1), h2.heap i hi]
        have hm : (w1.heap i).mapped = true := by
          by_cases hm : (w.heap i).mapped = true
          · rw [ensureMapped_mapped hm] at e; cases e; exact hm
          · have hc := ensureMapped_cases C i w (by simpa using hm)
            rw [e] at hc
            cases hc with
            | none r ref _ _ _ _ _ _ _ hh => rw [hh, Heap.set_self]
            | read r ref loc b is so _ _ _ _ _ _ _ _ _ _ _ _ _ _ _ hobj => rw [hobj]
        obtain ⟨g1, g2, g3, g4⟩ := hk _ hm (h2.subs i hi hm) w1 v1 h2
        exact ⟨g1, g2, fun j hj => ⟨(g3 j hj).1.trans (h3 j hj).1, (g3 j hj).2.trans (h3 j hj).2⟩, g4⟩

theorem twin_change {i : ObjId} (hi : A i) {b : Body ObjId} (hb : ∀ x ∈ b.subs, A x) :
    Twin A (fun _ => True) (change i b) := by
  unfold change touch
  exact Twin.bind (Twin.updObj hi fun o ho => ho) fun _ _ => Twin.updObj hi fun o _ _ => hb

theorem sub_of_dget {b : Body ObjId} {k : Key} {x : Str × ObjId} (hA : ∀ x ∈ b.subs, A x) (h : dget b.kids k = some x) : A x.2 :=
  hA _ (dget_sub (t := x.1) (c := x.2) h)

/-- What is in an optional result -/
def InOpt (A : ObjId → Prop) (o : Option ObjId) : Prop := ∀ x, o = some x → A x

theorem twin_getChild {i : ObjId} (hi : A i) (n : Str) : Twin A (InOpt A) (getChild C i n) := by
  unfold getChild
  refine Twin.load hi fun o _ ho => Twin.pure fun x hx => ?_
  cases hd : dget o.body.kids (.name n) with
  | none => rw [hd] at hx; cases hx
  | some e =>
    rw [hd] at hx
    injection hx with hx
    rw [← hx]
    exact sub_of_dget ho hd

theorem twin_addChild {i c : ObjId} (hi : A i) (hc : A c) (n : Str) : Twin A (fun _ => True) (addChild C i n c) := by
  unfold addChild
  refine Twin.bind (Twin.assert _) fun _ _ => Twin.bind (Twin.assert _) fun _ _ => Twin.load hi fun o _ ho => ?_
  cases dget o.body.kids (.name n) with
  | some e => exact Twin.raise _
  | none =>
    refine twin_change hi fun x hx => ?_
    obtain ⟨e, he, rfl⟩ := List.mem_map.mp hx
    rcases List.mem_append.mp he with he | he
    · exact ho _ (List.mem_map.mpr ⟨e, he, rfl⟩)
    · rw [List.mem_singleton.mp he]; exact hc

theorem inside_empty (k : Kind) : Inside A (Obj.new (Body.empty k)) := fun _ x hx => by cases hx

theorem twin_addChildAt {c : ObjId} (hc : A c) (p : List Str) : ∀ {i : ObjId}, A i →
    Twin A (fun _ => True) (addChildAt C c p i) := by
  induction p with
  | nil => intro i _; exact Twin.raise _
  | cons n p ih =>
    intro i hi
    cases p with
    | nil =>
      unfold addChildAt
      refine Twin.bind (twin_getChild hi n) fun x hx => ?_
      cases x with
      | none => exact twin_addChild hi hc n
      | some e =>
        refine Twin.bind (Twin.getObj (hx e rfl)) fun o _ => ?_
        split
        · exact Twin.raise _
        · exact twin_addChild hi hc n
    | cons n2 p =>
      unfold addChildAt
      refine Twin.bind (twin_getChild hi n) fun x hx => ?_
      cases x with
      | some e =>
        refine Twin.bind (Twin.getObj (hx e rfl)) fun o _ => ?_
        split
        · exact ih (hx e rfl)
        · exact Twin.raise _
      | none =>
        refine Twin.bind (Twin.getObj hi) fun o _ => Twin.bind (Twin.alloc (inside_empty _)) fun e he => ?_
        exact Twin.bind (twin_addChild hi he n) fun _ _ => ih he

theorem twin_getObjectAt (p : List Str) : ∀ {i : ObjId}, A i → Twin A (InOpt A) (getObjectAt C p i) := by
  induction p with
  | nil => intro i hi; exact Twin.pure fun x hx => by cases hx; exact hi
  | cons n p ih =>
    intro i hi
    unfold getObjectAt
    refine Twin.bind (Twin.getObj hi) fun o _ => ?_
    split
    · refine Twin.bind (twin_getChild hi n) fun x hx => ?_
      cases x with
      | none => exact Twin.pure fun x hx => by cases hx
      | some e => exact ih (hx e rfl)
    · exact Twin.pure fun x hx => by cases hx

theorem twin_addExtractorRun {i : ObjId} (hi : A i) (ext : Str) (run : Instance) :
    Twin A (fun _ => True) (addExtractorRun C i ext run) := by
  unfold addExtractorRun
  refine Twin.load hi fun o _ ho => ?_
  cases o.body.data with
  | metadata m => exact twin_change hi ho
  | _ => exact Twin.raise _

/-! ### Finding or creating a root record -/

theorem twin_uuids {i : ObjId} (hi : A i) : Twin A (fun _ => True) (uuids C i) := by
  unfold uuids
  exact Twin.load hi fun o _ _ => Twin.pure trivial

theorem twin_versionsAndPaths {i : ObjId} (hi : A i) : Twin A (fun _ => True) (versionsAndPaths C i) := by
  unfold versionsAndPaths
  exact Twin.load hi fun o _ _ => Twin.pure trivial

theorem twin_getVersionList {i : ObjId} (hi : A i) (u : Uuid) : Twin A A (getVersionList C i u) := by
  unfold getVersionList
  refine Twin.load hi fun o _ ho => ?_
  cases hd : dget o.body.kids (.uuid u) with
  | none => exact Twin.raise _
  | some e =>
    have := sub_of_dget ho hd
    exact Twin.bind (twin_readIn this) fun _ _ => Twin.pure this

theorem twin_getVersioned {i : ObjId} (hi : A i) (v : Str) (p : PPath) : Twin A (fun x => A x.2.2) (getVersioned C i v p) := by
  unfold getVersioned
  refine Twin.load hi fun o _ ho => ?_
  cases hd : dget o.body.kids (.ver v p) with
  | none => exact Twin.raise _
  | some e =>
    have := sub_of_dget ho hd
    exact Twin.bind (twin_readIn this) fun _ _ => Twin.pure this

theorem twin_setVersioned {i x : ObjId} (hi : A i) (hx : A x) (v s : Str) (p : PPath) :
    Twin A (fun _ => True) (setVersioned C i v s p x) := by
  unfold setVersioned
  refine Twin.load hi fun o _ ho => twin_change hi fun y hy => ?_
  obtain ⟨e, he, rfl⟩ := List.mem_map.mp hy
  rcases mem_vset he with he | he
  · rw [he]; exact hx
  · exact ho _ (List.mem_map.mpr ⟨e, he, rfl⟩)

theorem twin_setVersionList {i x : ObjId} (hi : A i) (hx : A x) (u : Uuid) :
    Twin A (fun _ => True) (setVersionList i u x) := by
  unfold setVersionList touch
  refine Twin.bind (Twin.updObj hi fun o ho => ho) fun _ _ => Twin.updObj hi fun o ho hm y hy => ?_
  obtain ⟨e, he, rfl⟩ := List.mem_map.mp hy
  rcases mem_dset he with he | he
  · rw [he]; exact hx
  · exact ho hm _ (List.mem_map.mpr ⟨e, he, rfl⟩)

theorem twin_listFor {us : ObjId} (hi : A us) (auto : Option Bool) (u : Uuid) : Twin A (InOpt A) (listFor C auto us u) := by
  unfold listFor
  refine Twin.bind (twin_uuids hi) fun l _ => ?_
  split
  · exact Twin.bind (twin_getVersionList hi u) fun x hx => Twin.pure fun y hy => by cases hy; exact hx
  · split
    · exact Twin.pure fun y hy => by cases hy
    · refine Twin.bind (Twin.alloc (inside_empty _)) fun x hx => ?_
      exact Twin.bind (twin_setVersionList hi hx u) fun _ _ => Twin.pure fun y hy => by cases hy; exact hx

theorem twin_treeFor {t : ObjId} (hi : A t) (auto : Option Bool) (now v : Str) (p : PPath) :
    Twin A (InOpt A) (treeFor C auto now t v p) := by
  unfold treeFor
  refine Twin.bind (twin_versionsAndPaths hi) fun l _ => ?_
  split
  · exact Twin.bind (twin_getVersioned hi v p) fun x hx => Twin.pure fun y hy => by cases hy; exact hx
  · split
    · exact Twin.pure fun y hy => by cases hy
    · refine Twin.bind (Twin.alloc (inside_empty _)) fun x hx => ?_
      exact Twin.bind (twin_setVersioned hi hx v now p) fun _ _ => Twin.pure fun y hy => by cases hy; exact hx

theorem twin_getRootRecord {i : ObjId} (hi : A i) (path : List Str) : Twin A (InOpt A) (getRootRecord C i path) := by
  unfold getRootRecord
  refine Twin.bind (twin_getObjectAt _ hi) fun x hx => ?_
  cases x with
  | none => exact Twin.pure fun y hy => by cases hy
  | some j =>
    refine Twin.bind (Twin.getObj (hx j rfl)) fun o _ => Twin.bind (Twin.assert _) fun _ _ => ?_
    exact Twin.bind (twin_ensureMapped (hx j rfl)) fun _ _ => Twin.pure fun y hy => by cases hy; exact hx j rfl

theorem twin_recordFor {dt : ObjId} (hi : A dt) (auto : Option Bool) (path : List Str) (id : Uuid) (v : Str) :
    Twin A (InOpt A) (recordFor C auto dt path id v) := by
  unfold recordFor
  refine Twin.bind (Twin.getObj hi) fun o _ => ?_
  split
  · exact Twin.raise _
  · unfold hasDataset
    refine Twin.bind (Twin.bind (twin_getObjectAt _ hi) fun x _ => Twin.pure (P := fun _ => True) trivial) fun b _ => ?_
    split
    · exact twin_getRootRecord hi path
    · split
      · exact Twin.pure fun y hy => by cases hy
      · refine Twin.bind (Twin.alloc (inside_empty _)) fun m hm => Twin.bind (Twin.alloc (inside_empty _)) fun f hf => ?_
        refine Twin.bind (Twin.alloc ?_) fun x hx => ?_
        · intro _ y hy
          obtain ⟨e, he, rfl⟩ := List.mem_map.mp hy
          rcases List.mem_cons.mp he with he | he
          · rw [he]; exact hm
          · rw [List.mem_singleton.mp he]; exact hf
        · exact Twin.bind (twin_addChildAt hx _ hi) fun _ _ => Twin.pure fun y hy => by cases hy; exact hx

theorem twin_entryFor {vl x : ObjId} (hi : A vl) (hx : A x) (v now : Str) (p : PPath) :
    Twin A (fun _ => True) (entryFor C vl v now p x) := by
  unfold entryFor
  refine Twin.bind (twin_versionsAndPaths hi) fun l _ => ?_
  split
  · exact Twin.pure trivial
  · exact twin_setVersioned hi hx v now p

theorem twin_ownPart {us dt : ObjId} (hu : A us) (hd : A dt) (auto : Option Bool) (now : Str) (id : Uuid) (v : Str)
    (pre : PPath) (path : List Str) : Twin A (InOpt A) (ownPart C auto now us dt id v pre path) := by
  unfold ownPart
  refine Twin.bind (twin_listFor hu auto id) fun x hx => ?_
  cases x with
  | none => exact Twin.pure fun y hy => by cases hy
  | some vl =>
    refine Twin.bind (twin_recordFor hd auto path id v) fun y hy => ?_
    cases y with
    | none => exact Twin.pure fun y hy => by cases hy
    | some m => exact Twin.bind (twin_entryFor (hx vl rfl) (hy m rfl) v now pre) fun _ _ => Twin.pure hy

theorem twin_rootPart {t us : ObjId} (ht : A t) (hu : A us) (auto : Option Bool) (now : Str) (id : Uuid) (v : Str)
    (pre : PPath) : Twin A (InOpt A) (rootPart C auto now t us id v pre) := by
  unfold rootPart
  refine Twin.bind (twin_listFor hu auto id) fun x hx => ?_
  cases x with
  | none => exact Twin.pure fun y hy => by cases hy
  | some vl =>
    refine Twin.bind (twin_treeFor ht auto now v pre) fun d hd => ?_
    cases d with
    | none => exact Twin.pure fun y hy => by cases hy
    | some dt =>
      refine Twin.bind (twin_recordFor (hd dt rfl) auto [] id v) fun y hy => ?_
      cases y with
      | none => exact Twin.pure fun y hy => by cases hy
      | some m => exact Twin.bind (twin_entryFor (hx vl rfl) (hy m rfl) v now pre) fun _ _ => Twin.pure hd

theorem twin_rootRecord {t us : ObjId} (ht : A t) (hu : A us) (auto : Option Bool) (now : Str) (id : Uuid) (v : Str)
    (pre : PPath) (path : List Str) (root : Option Uuid) (rv : Option Str) :
    Twin A (InOpt A) (rootRecord C auto now t us id v pre path root rv) := by
  unfold rootRecord
  split
  · refine Twin.bind (twin_treeFor ht auto now v pre) fun d hd => ?_
    cases d with
    | none => exact Twin.pure fun y hy => by cases hy
    | some dt => exact twin_ownPart hu (hd dt rfl) auto now id v pre path
  · cases root with
    | none => exact Twin.raise _
    | some root =>
      cases rv with
      | none => exact Twin.raise _
      | some rv =>
        refine Twin.bind (twin_rootPart ht hu auto now root rv pre) fun d hd => ?_
        cases d with
        | none => exact Twin.pure fun y hy => by cases hy
        | some dt => exact twin_ownPart hu (hd dt rfl) auto now id v (metadataPath [[]]) path

end MM
