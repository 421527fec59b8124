/-
Writing an object changes this object and its loaded parts, no other object.
-/
import Verif.Clean

namespace MM

variable {C : Cfg}

/-! ### Steps that do not change objects -/

/-- No object is changed, whatever the outcome. -/
def Still {α : Type} (x : W α) : Prop := ∀ w, (x w).2.heap = w.heap

theorem still_liftG {α : Type} (g : G α) : Still (liftG g) := by
  intro w
  unfold liftG
  rfl

theorem still_bind {α β : Type} {x : W α} {f : α → W β} (hx : Still x) (hf : ∀ a, Still (f a)) :
    Still (x >>= f) :=
  M.Keeps.bind (R := fun w w' : World => w'.heap = w.heap) (fun _ _ _ h h' => h'.trans h) hx hf

theorem still_pure {α : Type} (a : α) : Still (Pure.pure a : W α) := fun _ => rfl

theorem still_raise {α : Type} (e : PyErr) : Still (M.raise e : W α) := fun _ => rfl

theorem still_get : Still (M.get : W World) := fun _ => rfl

theorem still_addRef (b : Bool) (h : Option Str) : Still (addRef b h) := by
  intro w
  unfold addRef
  cases h with
  | none => rfl
  | some h => simp only; split <;> rfl

theorem still_cacheRealm (r : Realm) : Still (cacheRealm r) := by
  intro w
  unfold cacheRealm
  split <;> rfl

theorem still_flushCache (C : Cfg) (r : Realm) : Still (flushCache C r) := by
  refine still_bind still_get fun w => ?_
  split
  · exact still_pure _
  · exact still_bind (still_liftG _) fun _ => fun _ => rfl

theorem still_flushRealm (C : Cfg) (r : Realm) : Still (flushRealm C r) := by
  refine still_bind still_get fun w => ?_
  split
  · exact still_raise _
  · exact still_bind (still_flushCache C r) fun _ => fun _ => rfl

theorem still_saveBlob (C : Cfg) (r : Realm) (s : Str) : Still (saveBlob C r s) := by
  refine still_bind still_get fun w => ?_
  split
  · exact still_liftG _
  · refine still_bind still_get fun w => ?_
    split
    · exact still_bind (still_flushCache C r) fun _ => still_bind (fun _ => rfl) fun _ => still_pure _
    · exact still_bind (fun _ => rfl) fun _ => still_pure _

/-! ### Writing parts -/

/-- What holds for steps that change no object and for writing the parts of an object
holds for writing it. -/
theorem keeps_mapOut {R : World → World → Prop} (refl : ∀ w, R w w)
    (trans : ∀ a b c, R a b → R b c → R a c) (still : ∀ w w', w'.heap = w.heap → R w w')
    {wr : Bool → ObjId → W Ref} (r : Realm) (force : Bool) (b : Body ObjId)
    (h : ∀ f, ∀ k ∈ b.subs, M.Keeps (wr f k) R) : M.Keeps (mapOut C wr r force b) R := by
  have st : ∀ {α : Type} {x : W α}, Still x → M.Keeps x R := fun hx w => still _ _ (hx w)
  have bd : ∀ {α β : Type} {x : W α} {f : α → W β}, M.Keeps x R → (∀ a, M.Keeps (f a) R) →
      M.Keeps (x >>= f) R := fun hx hf => M.Keeps.bind trans hx hf
  have pu : ∀ {α : Type} (a : α), M.Keeps (Pure.pure a : W α) R := fun a => M.Keeps.pure refl a
  have hsub : ∀ e ∈ b.kids, e.2.2 ∈ b.subs := fun e he => List.mem_map.mpr ⟨e, he, rfl⟩
  have hget : ∀ k e, dget b.kids k = some e → e.2 ∈ b.subs := fun k e hd => hsub (k, e) (mem_of_dget hd)
  have hvl : M.Keeps (writeVersionList C (wr false) r b.kids) R := by
    refine bd (M.Keeps.forEach refl trans fun e he => ?_) fun _ => st (still_liftG _)
    refine bd (bd (fun w => refl w) fun o => ?_) fun _ => pu _
    split
    · refine bd (h _ _ (hsub e he)) fun ref => ?_
      split
      · exact pu _
      · exact bd (st (still_addRef _ _)) fun _ => pu _
    · exact h _ _ (hsub e he)
  unfold mapOut
  split
  · exact bd (st (still_liftG _)) fun _ => pu _
  · exact bd (st (still_saveBlob _ _ _)) fun _ => bd (st (still_addRef _ _)) fun _ =>
      bd (st (still_saveBlob _ _ _)) fun _ => pu _
  · split
    · exact pu _
    · refine bd (M.Keeps.forEach refl trans fun e he => ?_) fun es => bd (st (still_liftG _)) fun _ => pu _
      exact bd (h _ _ (hsub e he)) fun _ => bd (fun w => refl w) fun _ => pu _
  · refine bd ?_ fun ft => bd ?_ fun dlm => bd (st (still_liftG _)) fun _ => pu _
    · cases hd : dget b.kids .ft with
      | none => exact pu _
      | some e =>
        refine bd (bd (st (still_cacheRealm _)) fun _ => bd (h _ _ (hget _ _ hd)) fun ref =>
          bd (st (still_flushRealm _ _)) fun _ => ?_) fun ref => ?_
        · split
          · exact pu _
          · exact bd (st (still_addRef _ _)) fun _ => pu _
        · split
          · exact pu _
          · exact bd (st (still_addRef _ _)) fun _ => pu _
    · cases hd : dget b.kids .dlm with
      | none => exact pu _
      | some e => exact bd (h _ _ (hget _ _ hd)) fun ref => bd (st (still_addRef _ _)) fun _ => pu _
  · exact bd hvl fun _ => pu _
  · exact bd hvl fun _ => bd (st (still_liftG _)) fun _ => pu _
  · refine bd (M.Keeps.forEach refl trans fun e he => ?_) fun es =>
      bd (st (still_liftG _)) fun _ => bd (st (still_liftG _)) fun _ => pu _
    exact bd (h _ _ (hsub e he)) fun _ => pu _

/-- Objects keep what they hold, and if everything reached from `K` is in `U`, the
objects outside of `U` are not changed. -/
structure Within (U : ObjId → Prop) (K : List ObjId) (w w' : World) : Prop where
  mapped : ∀ x, (w'.heap x).mapped = (w.heap x).mapped
  body : ∀ x, (w'.heap x).body = (w.heap x).body
  out : (∀ k ∈ K, ∀ x, Reach w.heap k x → U x) → ∀ x, ¬ U x → w'.heap x = w.heap x

theorem reach_of_same {h h' : Heap} (hm : ∀ x, (h' x).mapped = (h x).mapped)
    (hb : ∀ x, (h' x).body = (h x).body) {a x : ObjId} (hr : Reach h' a x) : Reach h a x := by
  induction hr with
  | refl => exact Reach.refl _
  | step i k j h1 h2 _ ih =>
    rw [hm] at h1
    rw [hb] at h2
    exact Reach.step i k j h1 h2 ih

theorem Within.trans {U : ObjId → Prop} {K : List ObjId} {a b c : World} (h : Within U K a b)
    (h' : Within U K b c) : Within U K a c := by
  refine ⟨fun x => (h'.mapped x).trans (h.mapped x), fun x => (h'.body x).trans (h.body x), ?_⟩
  intro hU x hx
  rw [h'.out (fun k hk y hy => hU k hk y (reach_of_same h.mapped h.body hy)) x hx, h.out hU x hx]

theorem Within.still {U : ObjId → Prop} {K : List ObjId} {w w' : World} (h : w'.heap = w.heap) :
    Within U K w w' := by
  refine ⟨?_, ?_, ?_⟩ <;> rw [h] <;> intros <;> rfl

theorem Within.mono {U : ObjId → Prop} {K K' : List ObjId} {w w' : World} (h : Within U K w w')
    (hk : ∀ k ∈ K, k ∈ K') : Within U K' w w' :=
  ⟨h.mapped, h.body, fun hU => h.out fun k hk' => hU k (hk k hk')⟩

theorem within_upd {U : ObjId → Prop} {K : List ObjId} {w : World} {i : ObjId} {o : Obj} (hi : i ∈ K)
    (h1 : o.mapped = (w.heap i).mapped) (h2 : o.body = (w.heap i).body) :
    Within U K w { w with heap := w.heap.set i o } := by
  refine ⟨fun x => ?_, fun x => ?_, fun hU x hx => ?_⟩
  · by_cases h : x = i
    · subst h; simp [h1]
    · simp [Heap.set_ne h]
  · by_cases h : x = i
    · subst h; simp [h2]
    · simp [Heap.set_ne h]
  · have : x ≠ i := by rintro rfl; exact hx (hU _ hi _ (Reach.refl _))
    simp [Heap.set_ne this]

theorem writeOut_within (U : ObjId → Prop) (n : Nat) : ∀ (dest : Option Realm) (force : Bool) (i : ObjId),
    M.Keeps (writeOut C n dest force i) (Within U [i]) := by
  induction n with
  | zero => intro dest force i w; exact Within.still rfl
  | succ n ih =>
    intro dest force i w
    unfold writeOut
    rw [M.bind_of_ok (getObj_run i w)]
    by_cases hm : (w.heap i).mapped = true
    · rw [if_pos hm]
      cases hdest : destOf dest (w.heap i).realm with
      | none => exact Within.still rfl
      | some r =>
        simp only
        by_cases hrem : Ref.isRemote r = true
        · rw [if_pos hrem]; exact Within.still rfl
        · rw [if_neg hrem, M.bind_of_ok (updObj_run i _ w)]
          have h1 : Within U [i] w { w with heap := w.heap.set i { w.heap i with realm := some r } } :=
            within_upd (List.mem_singleton.mpr rfl) rfl rfl
          generalize ({ w with heap := w.heap.set i { w.heap i with realm := some r } } : World) = w1 at h1
          refine h1.trans ?_
          rw [M.bind_of_ok (M.get_run w1)]
          cases hs : isSavedOn (n + 1) w1.heap r i with
          | error e => exact Within.still rfl
          | ok saved =>
            rw [M.bind_of_ok (M.ofExcept_ok saved w1)]
            by_cases hsf : (saved && !force) = true
            · rw [if_pos hsf]
              cases (w.heap i).ref <;> exact Within.still rfl
            · rw [if_neg hsf]
              have hmo : M.Keeps (mapOut C (writeOut C n (some r)) r force (w.heap i).body)
                  (fun a b => (a.heap i).mapped = true → (a.heap i).body = (w.heap i).body → Within U [i] a b) := by
                have key := keeps_mapOut (C := C) (R := Within U (w.heap i).body.subs) (fun _ => Within.still rfl)
                  (fun _ _ _ => Within.trans) (fun _ _ => Within.still) (wr := writeOut C n (some r)) r force
                  (w.heap i).body (fun f k hk a => (ih (some r) f k a).mono fun x hx => by
                    rw [List.mem_singleton] at hx; rw [hx]; exact hk)
                intro a ha hb
                refine ⟨(key a).mapped, (key a).body, fun hU => (key a).out fun k hk x hx => ?_⟩
                exact hU i (List.mem_singleton.mpr rfl) x (Reach.step i k x ha (by rw [hb]; exact hk) hx)
              have h2 := hmo w1 (by rw [h1.mapped]; exact hm) (h1.body i)
              cases hx : mapOut C (writeOut C n (some r)) r force (w.heap i).body w1 with
              | mk res w2 =>
                rw [hx] at h2
                cases res with
                | error e => rw [M.bind_of_error hx]; exact h2
                | ok ref =>
                  rw [M.bind_of_ok hx, M.bind_of_ok (updObj_run i _ w2)]
                  exact h2.trans (within_upd (List.mem_singleton.mpr rfl) rfl rfl)
    · rw [if_neg hm]
      cases (w.heap i).realm with
      | none => exact Within.still rfl
      | some x =>
        cases (w.heap i).ref with
        | none => exact Within.still rfl
        | some ref =>
          cases dest with
          | none => exact Within.still rfl
          | some r => simp only; split <;> exact Within.still rfl

/-- Writing an object, with any outcome, leaves the objects alone that it does not reach. -/
theorem writeOut_frame (n : Nat) (dest : Option Realm) (force : Bool) (i : ObjId) (w : World) (x : ObjId)
    (hx : ¬ Reach w.heap i x) : (writeOut C n dest force i w).2.heap x = w.heap x := by
  refine (writeOut_within (fun x => Reach w.heap i x) n dest force i w).out ?_ x hx
  intro k hk y hy
  rw [List.mem_singleton] at hk
  subst hk
  exact hy

end MM
