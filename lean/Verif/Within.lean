/-
Writing an object changes this object and its parts, whatever the outcome: all other objects
in memory keep what they are marked with.  Of the names in the repository, only the one of the
written object may change.
-/
import Verif.WriteFail

namespace MM

section
variable {C : Cfg} {r : Realm} {R : World → World → Prop}

theorem Gentle.mapOut_any (c : Gentle C r R) {wr : Bool → ObjId → W Ref} {force : Bool} {b : Body ObjId}
    (h : ∀ f, ∀ j ∈ b.subs, M.Keeps (wr f j) R) (hn : ∀ nm, pubName b.data.kind = some nm →
      ∀ x, M.Keeps (liftG (gitUpdateRef C r nm x)) R) :
    M.Keeps (MM.mapOut C wr r force b) R := by
  have hsub : ∀ f, ∀ e ∈ b.kids, M.Keeps (wr f e.2.2) R := fun f e he => h f _ (List.mem_map.mpr ⟨e, he, rfl⟩)
  have hget : ∀ f k e, dget b.kids k = some e → M.Keeps (wr f e.2) R := fun f k e he =>
    h f _ (List.mem_map.mpr ⟨_, mem_of_dget he, rfl⟩)
  unfold MM.mapOut
  split
  · exact c.bind (c.of (gitSaveStr_silent _)) fun _ => c.pure _
  · exact c.bind (c.of (saveBlob_silent _)) fun _ => c.bind (c.of (addRef_silent _ _)) fun _ =>
      c.bind (c.of (saveBlob_silent _)) fun _ => c.pure _
  · split
    · exact c.pure _
    · refine c.bind (M.Keeps.forEach c.refl c.trans fun e he => ?_) fun es =>
        c.bind (c.of (gitSaveTree_silent _)) fun _ => c.pure _
      exact c.bind (hsub _ e he) fun _ => c.bind (fun w => c.refl w) fun _ => c.pure _
  · refine c.bind ?_ fun ft => c.bind ?_ fun dlm => c.bind (c.of (gitSaveStr_silent _)) fun _ => c.pure _
    · cases hd : dget b.kids Key.ft with
      | none => exact c.pure _
      | some e =>
        refine c.bind (c.fileTreeWrite (hget _ _ e hd)) fun ref => ?_
        split
        · exact c.pure _
        · exact c.bind (c.of (addRef_silent _ _)) fun _ => c.pure _
    · cases hd : dget b.kids Key.dlm with
      | none => exact c.pure _
      | some e => exact c.bind (hget _ _ e hd) fun ref => c.bind (c.of (addRef_silent _ _)) fun _ => c.pure _
  · exact c.bind (c.versions (hsub _)) fun _ => c.pure _
  · rename_i hd
    exact c.bind (c.versions (hsub _)) fun _ => c.bind (hn _ (by rw [hd]; rfl) _) fun _ => c.pure _
  · rename_i hd
    refine c.bind (M.Keeps.forEach c.refl c.trans fun e he => ?_) fun es =>
      c.bind (c.of (gitSaveTree_silent _)) fun _ => c.bind (hn _ (by rw [hd]; rfl) _) fun _ => c.pure _
    exact c.bind (hsub _ e he) fun _ => c.pure _

/-- A set of objects that contains the parts of its loaded objects, which have no names but `nm`. -/
def Names (T : ObjId → Prop) (nm : Option Str) (h : Heap) : Prop :=
  ∀ p, T p → (h p).mapped = true →
    (pubName (h p).kind = none ∨ pubName (h p).kind = nm) ∧ ∀ k ∈ (h p).body.subs, T k

theorem Names.mono {T : ObjId → Prop} {nm : Option Str} {h h' : Heap} (hs : ∀ j, SameObj (h j) (h' j))
    (ht : Names T nm h) : Names T nm h' := by
  intro p hp hm
  rw [(hs p).mapped] at hm
  rw [(hs p).body, (hs p).kind]
  exact ht p hp hm

/-- What a write that involves the objects in `T` leaves alone. -/
structure Limits (r : Realm) (T : ObjId → Prop) (nm : Option Str) (w w' : World) : Prop where
  out : ∀ p, ¬ T p ∨ (w.heap p).mapped = false → w'.heap p = w.heap p
  refs : ∀ x n, (x = r ∧ nm = some n) ∨ refOf w'.repo.log x n = refOf w.repo.log x n

/-- Writing to `r`, whatever the outcome -/
def Only (r : Realm) (T : ObjId → Prop) (nm : Option Str) (w w' : World) : Prop :=
  Any r w w' ∧ (Names T nm w.heap → Limits r T nm w w')

variable {T : ObjId → Prop} {nm : Option Str}

theorem Limits.refl (w : World) : Limits r T nm w w := ⟨fun _ _ => rfl, fun _ _ => Or.inr rfl⟩

theorem Limits.trans {a b c : World} (hs : ∀ j, SameObj (a.heap j) (b.heap j)) (h : Limits r T nm a b)
    (h' : Limits r T nm b c) : Limits r T nm a c := by
  refine ⟨fun p hp => (h'.out p (hp.imp id fun e => (hs p).mapped.trans e)).trans (h.out p hp), fun x n => ?_⟩
  rcases h.refs x n with e | e
  · exact Or.inl e
  · exact (h'.refs x n).imp id fun e' => e'.trans e

theorem gentle_only (C : Cfg) (r : Realm) (T : ObjId → Prop) (nm : Option Str) : Gentle C r (Only r T nm) where
  refl w := ⟨Any.refl r w, fun _ => Limits.refl w⟩
  trans a b c h h' := ⟨h.1.trans h'.1, fun ht => (h.2 ht).trans h.1.same (h'.2 (ht.mono h.1.same))⟩
  silent w w' h := ⟨h.any, fun _ => ⟨fun p _ => by rw [h.heap], fun x n => Or.inr (h.refs x n)⟩⟩

theorem updateRef_only (n x : Str) (hn : nm = some n) : M.Keeps (liftG (gitUpdateRef C r n x)) (Only r T nm) := by
  intro w
  refine ⟨gitUpdateRef_any C r n x w, fun _ => ⟨fun _ _ => rfl, fun y m => ?_⟩⟩
  obtain ⟨k, hk⟩ := gitCmd_log (fun L => match resolve C L r x with
    | some _ => ([GitOp.setRef r n x], Except.ok ())
    | none => ([], .error PyErr.runtime)) w.repo
  by_cases hy : r = y ∧ n = m
  · exact Or.inl ⟨hy.1.symm, by rw [hn, hy.2]⟩
  · right
    have hl : (gitUpdateRef C r n x w.repo).2.log = _ := hk
    show refOf (gitUpdateRef C r n x w.repo).2.log y m = _
    rw [hl]
    cases resolve C w.repo.log r x with
    | none => simp
    | some o =>
      cases k with
      | zero => simp
      | succ k =>
        simp only [List.take_succ_cons, List.take_nil, List.reverse_cons, List.reverse_nil, List.nil_append,
          List.cons_append, refOf, if_neg hy]

theorem upd_only {w : World} {i : ObjId} (hi : T i) (hm : (w.heap i).mapped = true) (o : Obj) :
    Limits r T nm w { w with heap := w.heap.set i o } := by
  refine ⟨fun p hp => ?_, fun _ _ => Or.inr rfl⟩
  refine Heap.set_ne ?_
  rintro rfl
  rcases hp with hp | hp
  · exact hp hi
  · rw [hm] at hp; cases hp

theorem writeOut_only (hr : r ≠ []) (n : Nat) : ∀ (force : Bool) (i : ObjId), T i →
    M.Keeps (writeOut C n (some r) force i) (Only r T nm) := by
  induction n with
  | zero => intro force i _ w; exact (gentle_only C r T nm).refl w
  | succ n ih =>
    intro force i hi w
    refine ⟨writeOut_any hr (n + 1) force i w, fun ht => ?_⟩
    by_cases hm : (w.heap i).mapped = true
    · have a1 := (closed_any C r).realm w i hm
      have e1 := upd_only (r := r) (nm := nm) hi hm { w.heap i with realm := some r }
      generalize hw1 : ({ w with heap := w.heap.set i { w.heap i with realm := some r } } : World)
          = w1 at a1 e1
      rw [writeOut_mapped hr hm hw1.symm]
      split
      · exact Limits.refl w
      · split
        · exact e1
        · split
          · split <;> exact e1
          · have h2 := (gentle_only C r T nm).mapOut_any (wr := writeOut C n (some r))
              (force := force) (b := (w.heap i).body) (fun f k hk => ih f k ((ht i hi hm).2 k hk))
              (fun m hm' x => updateRef_only m x (by
                rcases (ht i hi hm).1 with e | e
                · unfold Obj.kind at e; rw [hm'] at e; cases e
                · unfold Obj.kind at e; rw [hm'] at e; exact e.symm)) w1
            have h3 := e1.trans a1.same (h2.2 (ht.mono a1.same))
            split
            · rename_i e w2 hx
              rw [hx] at h3
              exact h3
            · rename_i ref w2 hx
              rw [hx] at h2 h3
              have hm2 : (w2.heap i).mapped = true := ((h2.1.same i).mapped.trans (a1.same i).mapped).trans hm
              exact h3.trans (fun j => (a1.same j).trans (h2.1.same j)) (upd_only hi hm2 _)
    · rw [writeOut_away (by simpa using hm)]
      split
      · split <;> exact Limits.refl w
      · exact Limits.refl w

/-- The parts of an object that can be stored have no names. -/
theorem names_reach {h : Heap} {i : ObjId} (hs : Storable h i) : Names (Reach h i) (pubName (h i).kind) h := by
  have key : ∀ a p, Reach h a p → Reach h i a → pubName (h a).kind = none → pubName (h p).kind = none := by
    intro a p hap
    induction hap with
    | refl => intro _ e; exact e
    | step a k p hm hk _ ih =>
      intro hia _
      refine ih (hia.trans (Reach.step a k k hm hk (Reach.refl k))) ?_
      obtain ⟨e, he, rfl⟩ := List.mem_map.mp hk
      exact pubName_slot ((hs a hia hm).slots e he)
  intro p hp hm
  refine ⟨?_, fun k hk => hp.trans (Reach.step p k k hm hk (Reach.refl k))⟩
  cases hp with
  | refl => exact Or.inr rfl
  | step _ k _ hmi hk hr =>
    left
    refine key k p hr (Reach.step i k k hmi hk (Reach.refl k)) ?_
    obtain ⟨e, he, rfl⟩ := List.mem_map.mp hk
    exact pubName_slot ((hs i (Reach.refl i) hmi).slots e he)

end

end MM
