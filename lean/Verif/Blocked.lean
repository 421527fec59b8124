/-
What a failed write leaves behind: the cache of a repository, and objects that are not
loaded.
-/
import Verif.Session

namespace MM

variable {C : Cfg} {r : Realm}

/-- A repository that has a cache keeps it. -/
def CacheStays (r : Realm) (w w' : World) : Prop :=
  (dget w.caches r).isSome = true → (dget w'.caches r).isSome = true

theorem CacheStays.refl (w : World) : CacheStays r w w := id

theorem CacheStays.trans (a b c : World) (h : CacheStays r a b) (h' : CacheStays r b c) : CacheStays r a c :=
  fun h0 => h' (h h0)

theorem cacheStays_of_eq {w w' : World} (h : w'.caches = w.caches) : CacheStays r w w' := by
  unfold CacheStays; rw [h]; exact id

theorem caches_liftG {α : Type} (g : G α) (w : World) : (liftG g w).2.caches = w.caches := rfl

theorem caches_addRef (b : Bool) (h : Option Str) (w : World) : (addRef b h w).2.caches = w.caches := by
  unfold addRef
  cases h with
  | none => rfl
  | some h => simp only; split <;> rfl

theorem isSome_dset {α β : Type} [DecidableEq α] {d : List (α × β)} {k k' : α} {x : β}
    (h : (dget d k).isSome = true) : (dget (dset d k' x) k).isSome = true := by
  by_cases hk : k = k'
  · subst hk; rw [dget_dset_self]; rfl
  · rw [dget_dset_ne _ _ (Ne.symm hk)]; exact h

theorem cacheStays_flushCache (C : Cfg) (x : Realm) : M.Keeps (flushCache C x) (CacheStays r) := by
  intro w
  unfold flushCache
  rw [M.bind_of_ok (M.get_run w)]
  cases hd : dget w.caches x with
  | none => exact CacheStays.refl w
  | some bs =>
    simp only
    refine M.Keeps.bind CacheStays.trans (fun w => cacheStays_of_eq (caches_liftG _ w)) (fun _ w h => ?_) w
    exact isSome_dset h

theorem cacheStays_saveBlob (C : Cfg) (x : Realm) (s : Str) : M.Keeps (saveBlob C x s) (CacheStays r) := by
  intro w
  unfold saveBlob
  rw [M.bind_of_ok (M.get_run w)]
  cases hd : dget w.caches x with
  | none => exact cacheStays_of_eq (caches_liftG _ w)
  | some bs =>
    simp only
    unfold cacheBlob
    rw [M.bind_of_ok (M.get_run w)]
    have fin : M.Keeps (do
        M.modify fun w : World => { w with caches := dset w.caches x ((dget w.caches x).getD [] ++ [s]) }
        pure (C.hash (.blob s)) : W Str) (CacheStays r) := fun w h => isSome_dset h
    split
    · exact M.Keeps.bind CacheStays.trans (cacheStays_flushCache C x) (fun _ => fin) w
    · exact fin w

/-- While a repository has a cache, no file tree can be written to it. -/
theorem fileTreeWrite_blocked (C : Cfg) {w : World} (h : (dget w.caches r).isSome = true) (wr : W Ref) :
    fileTreeWrite C (some r) wr w = (.error .runtime, w) := by
  unfold fileTreeWrite
  simp only
  refine M.bind_of_error ?_
  unfold cacheRealm
  cases hd : dget w.caches r with
  | none => rw [hd] at h; cases h
  | some bs => rfl

theorem cacheStays_files (C : Cfg) (wr : W Ref) : M.Keeps (fileTreeWrite C (some r) wr) (CacheStays r) := by
  intro w h
  rw [fileTreeWrite_blocked C h]
  exact h

theorem closed_cacheStays (C : Cfg) (r : Realm) : Closed C r (fun w w' => CacheStays r w w' ∧ Any r w w') where
  refl := fun w => ⟨CacheStays.refl w, Any.refl r w⟩
  trans := fun _ _ _ h h' => ⟨CacheStays.trans _ _ _ h.1 h'.1, h.2.trans h'.2⟩
  str := fun s w => ⟨cacheStays_of_eq (caches_liftG _ w), gitSaveStr_any C r s w⟩
  tree := fun es w => ⟨cacheStays_of_eq (caches_liftG _ w), gitSaveTree_any C r es w⟩
  name := fun n h _ w => ⟨cacheStays_of_eq (caches_liftG _ w), gitUpdateRef_any C r n h w⟩
  blob := fun s w => ⟨cacheStays_saveBlob C r s w, saveBlob_any C r s w⟩
  ref := fun b h w => ⟨cacheStays_of_eq (caches_addRef b h w), addRef_any r b h w⟩
  files := fun wr h w => ⟨cacheStays_files C wr w, (closed_any C r).files wr (fun w => (h w).2) w⟩
  mapped := fun _ _ i h => (h.2.same i).mapped
  here := fun _ _ i h hr => (h.2.realm i).elim (fun e => e.trans hr) id
  realm := fun w i hm => ⟨cacheStays_of_eq rfl, (closed_any C r).realm w i hm⟩
  flag := fun w i ref hm hr => ⟨cacheStays_of_eq rfl, (closed_any C r).flag w i ref hm hr⟩

/-- Writing does not take away a cache that was there before. -/
theorem writeOut_cacheStays (hr : r ≠ []) (n : Nat) (force : Bool) (i : ObjId) (w : World) :
    CacheStays r w (writeOut C n (some r) force i w).2 :=
  ((closed_cacheStays C r).writeOut hr n force i w).1

/-- Objects that are not loaded stay as they are. -/
def AwayStays (w w' : World) : Prop := ∀ j, (w.heap j).mapped = false → w'.heap j = w.heap j

theorem closed_away (C : Cfg) (r : Realm) : Closed C r (fun w w' => AwayStays w w' ∧ Any r w w') := by
  have same : ∀ {w w' : World}, w'.heap = w.heap → AwayStays w w' := fun h j _ => by rw [h]
  have keepsHeap : ∀ {α : Type} (g : G α) (w : World), (liftG g w).2.heap = w.heap := fun _ _ => rfl
  have ref : ∀ b h, M.Keeps (addRef b h) AwayStays := by
    intro b h w
    refine same ?_
    unfold addRef
    cases h with
    | none => rfl
    | some h => simp only; split <;> rfl
  have trans : ∀ a b c, AwayStays a b → AwayStays b c → AwayStays a c := by
    intro a b c h h' j hj
    have e := h j hj
    rw [h' j (by rw [e]; exact hj), e]
  have fl : ∀ x, M.Keeps (flushCache C x) AwayStays := by
    intro x w
    unfold flushCache
    rw [M.bind_of_ok (M.get_run w)]
    cases hd : dget w.caches x with
    | none => exact same rfl
    | some bs => exact M.Keeps.bind trans (fun w => same (keepsHeap _ w)) (fun _ w => same rfl) w
  have blob : ∀ s, M.Keeps (saveBlob C r s) AwayStays := by
    intro s w
    unfold saveBlob
    rw [M.bind_of_ok (M.get_run w)]
    cases hd : dget w.caches r with
    | none => exact same (keepsHeap _ w)
    | some bs =>
      simp only
      unfold cacheBlob
      rw [M.bind_of_ok (M.get_run w)]
      have fin : M.Keeps (do
          M.modify fun w : World => { w with caches := dset w.caches r ((dget w.caches r).getD [] ++ [s]) }
          pure (C.hash (.blob s)) : W Str) AwayStays := fun w => same rfl
      split
      · exact M.Keeps.bind trans (fl r) (fun _ => fin) w
      · exact fin w
  have cache : M.Keeps (cacheRealm r) AwayStays := by
    intro w
    unfold cacheRealm
    cases dget w.caches r <;> exact same rfl
  have flr : M.Keeps (flushRealm C r) AwayStays := by
    intro w
    unfold flushRealm
    rw [M.bind_of_ok (M.get_run w)]
    cases dget w.caches r with
    | none => exact same rfl
    | some bs => exact M.Keeps.bind trans (fl r) (fun _ w => same rfl) w
  have upd : ∀ (w : World) (i : ObjId) (o : Obj), (w.heap i).mapped = true →
      AwayStays w { w with heap := w.heap.set i o } := by
    intro w i o hm j hj
    have : j ≠ i := by rintro rfl; rw [hm] at hj; cases hj
    exact Heap.set_ne this
  have refl : ∀ w, AwayStays w w := fun w j _ => rfl
  exact {
    refl := fun w => ⟨refl w, Any.refl r w⟩
    trans := fun _ _ _ h h' => ⟨trans _ _ _ h.1 h'.1, h.2.trans h'.2⟩
    str := fun s w => ⟨same (keepsHeap _ w), gitSaveStr_any C r s w⟩
    tree := fun es w => ⟨same (keepsHeap _ w), gitSaveTree_any C r es w⟩
    name := fun n h _ w => ⟨same (keepsHeap _ w), gitUpdateRef_any C r n h w⟩
    blob := fun s w => ⟨blob s w, saveBlob_any C r s w⟩
    ref := fun b h w => ⟨ref b h w, addRef_any r b h w⟩
    files := fun wr h w => ⟨fileTreeWrite_keeps refl trans cache flr ref wr (fun w => (h w).1) w,
      (closed_any C r).files wr (fun w => (h w).2) w⟩
    mapped := fun _ _ i h => (h.2.same i).mapped
    here := fun _ _ i h hr => (h.2.realm i).elim (fun e => e.trans hr) (fun e => e)
    realm := fun w i hm => ⟨upd w i _ hm, (closed_any C r).realm w i hm⟩
    flag := fun w i ref hm hr => ⟨upd w i _ hm, (closed_any C r).flag w i ref hm hr⟩ }

/-- Writing leaves objects alone that are not loaded. -/
theorem writeOut_away_stays (hr : r ≠ []) (n : Nat) (force : Bool) (i : ObjId) (w : World) :
    AwayStays w (writeOut C n (some r) force i w).2 :=
  ((closed_away C r).writeOut hr n force i w).1

end MM
