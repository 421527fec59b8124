/-
Reading, writing and purging depend only on the objects that can be reached from the object they
are called for.  Two processes that agree on these objects do the same.
-/
import Verif.History

namespace MM

variable {C : Cfg} {A : ObjId → Prop}

/-- The second process agrees with the first one on the objects in `A`, which have their parts in `A`.
All objects to come are in `A`. -/
structure Side (A : ObjId → Prop) (w v : World) : Prop where
  heap : ∀ j, A j → v.heap j = w.heap j
  next : v.next = w.next
  repo : v.repo = w.repo
  caches : v.caches = w.caches
  refs : v.refs = w.refs
  subs : ∀ p, A p → (w.heap p).mapped = true → ∀ k ∈ (w.heap p).body.subs, A k
  fresh : ∀ j, w.next ≤ j → A j

/-- The code does the same in both processes, and changes only objects in `A`. -/
def Twin {α : Type} (A : ObjId → Prop) (P : α → Prop) (f : W α) : Prop :=
  ∀ w v, Side A w v → (f v).1 = (f w).1 ∧ Side A (f w).2 (f v).2 ∧
    (∀ j, ¬ A j → (f w).2.heap j = w.heap j ∧ (f v).2.heap j = v.heap j) ∧ (∀ a, (f w).1 = .ok a → P a)

/-- The parts of the object are in `A`. -/
def Inside (A : ObjId → Prop) (o : Obj) : Prop := o.mapped = true → ∀ k ∈ o.body.subs, A k

namespace Twin
variable {α β : Type} {P : α → Prop} {Q : β → Prop}

theorem weaken {f : W α} {P' : α → Prop} (h : Twin A P f) (hp : ∀ a, P a → P' a) : Twin A P' f := by
  intro w v hs
  obtain ⟨h1, h2, h3, h4⟩ := h w v hs
  exact ⟨h1, h2, h3, fun a ha => hp a (h4 a ha)⟩

theorem any {f : W α} (h : Twin A P f) : Twin A (fun _ => True) f := h.weaken fun _ _ => trivial

theorem pure {a : α} (h : P a) : Twin A P (Pure.pure a : W α) :=
  fun _ _ hs => ⟨rfl, hs, fun _ _ => ⟨rfl, rfl⟩, fun b hb => by cases hb; exact h⟩

theorem raise (e : PyErr) : Twin A P (M.raise e : W α) :=
  fun _ _ hs => ⟨rfl, hs, fun _ _ => ⟨rfl, rfl⟩, fun b hb => by cases hb⟩

theorem assert (b : Bool) : Twin A (fun _ => True) (M.assert b : W Unit) := by
  cases b
  · exact raise _
  · exact pure trivial

theorem ofExcept (x : Except PyErr α) : Twin A (fun _ => True) (M.ofExcept x : W α) := by
  cases x
  · exact raise _
  · exact pure trivial

theorem bind {x : W α} {f : α → W β} (hx : Twin A P x) (hf : ∀ a, P a → Twin A Q (f a)) : Twin A Q (x >>= f) := by
  intro w v hs
  obtain ⟨h1, h2, h3, h4⟩ := hx w v hs
  rw [M.bind_run, M.bind_run]
  cases e : x w with
  | mk res w1 =>
    cases e' : x v with
    | mk res' v1 =>
      rw [e, e'] at h1 h2 h3
      rw [e] at h4
      simp only at h1 h2 h3 h4
      subst h1
      cases res' with
      | error er => exact ⟨rfl, h2, h3, fun b hb => by cases hb⟩
      | ok a =>
        obtain ⟨g1, g2, g3, g4⟩ := hf a (h4 a rfl) w1 v1 h2
        exact ⟨g1, g2, fun j hj => ⟨(g3 j hj).1.trans (h3 j hj).1, (g3 j hj).2.trans (h3 j hj).2⟩, g4⟩

theorem forEach {f : α → W β} {l : List α} (hf : ∀ a ∈ l, Twin A Q (f a)) :
    Twin A (fun bs => ∀ b ∈ bs, Q b) (M.forEach f l) := by
  induction l with
  | nil => exact pure (by simp)
  | cons a l ih =>
    rw [M.forEach_cons]
    refine bind (hf a List.mem_cons_self) fun b hb => ?_
    refine bind (ih fun a ha => hf a (List.mem_cons_of_mem _ ha)) fun bs hbs => pure ?_
    intro c hc
    rcases List.mem_cons.mp hc with rfl | hc
    · exact hb
    · exact hbs c hc

theorem getObj {i : ObjId} (hi : A i) : Twin A (Inside A) (MM.getObj i) := by
  intro w v hs
  refine ⟨?_, hs, fun _ _ => ⟨rfl, rfl⟩, ?_⟩
  · show (Except.ok (v.heap i) : Except PyErr Obj) = .ok (w.heap i)
    rw [hs.heap i hi]
  · intro o ho
    have : w.heap i = o := by injection ho
    rw [← this]
    exact hs.subs i hi

theorem updObj {i : ObjId} {f : Obj → Obj} (hi : A i) (hf : ∀ o, Inside A o → Inside A (f o)) :
    Twin A (fun _ => True) (MM.updObj i f) := by
  intro w v hs
  refine ⟨rfl, ⟨?_, hs.next, hs.repo, hs.caches, hs.refs, ?_, hs.fresh⟩, ?_, fun _ _ => trivial⟩
  · intro j hj
    show (v.heap.set i (f (v.heap i))) j = (w.heap.set i (f (w.heap i))) j
    by_cases e : j = i
    · subst e; rw [Heap.set_self, Heap.set_self, hs.heap j hj]
    · rw [Heap.set_ne e, Heap.set_ne e, hs.heap j hj]
  · intro p hp
    show ((w.heap.set i (f (w.heap i))) p).mapped = true → ∀ k ∈ ((w.heap.set i (f (w.heap i))) p).body.subs, A k
    by_cases e : p = i
    · subst e; rw [Heap.set_self]; exact hf _ (hs.subs p hp)
    · rw [Heap.set_ne e]; exact hs.subs p hp
  · intro j hj
    have e : j ≠ i := by rintro rfl; exact hj hi
    exact ⟨Heap.set_ne e, Heap.set_ne e⟩

theorem setObj {i : ObjId} {o : Obj} (hi : A i) (ho : Inside A o) : Twin A (fun _ => True) (MM.setObj i o) :=
  updObj (f := fun _ => o) hi fun _ _ => ho

theorem alloc {o : Obj} (ho : Inside A o) : Twin A A (MM.alloc o) := by
  intro w v hs
  have hi : A w.next := hs.fresh _ (Nat.le_refl _)
  refine ⟨?_, ⟨?_, ?_, hs.repo, hs.caches, hs.refs, ?_, ?_⟩, ?_, ?_⟩
  · show (Except.ok v.next : Except PyErr ObjId) = .ok w.next
    rw [hs.next]
  · intro j hj
    show (v.heap.set v.next o) j = (w.heap.set w.next o) j
    rw [hs.next]
    by_cases e : j = w.next
    · subst e; rw [Heap.set_self, Heap.set_self]
    · rw [Heap.set_ne e, Heap.set_ne e, hs.heap j hj]
  · show v.next + 1 = w.next + 1
    rw [hs.next]
  · intro p hp
    show ((w.heap.set w.next o) p).mapped = true → ∀ k ∈ ((w.heap.set w.next o) p).body.subs, A k
    by_cases e : p = w.next
    · subst e; rw [Heap.set_self]; exact ho
    · rw [Heap.set_ne e]; exact hs.subs p hp
  · intro j hj; exact hs.fresh j (Nat.le_of_succ_le hj)
  · intro j hj
    have e : j ≠ w.next := by rintro rfl; exact hj hi
    refine ⟨Heap.set_ne e, ?_⟩
    rw [← hs.next] at e
    exact Heap.set_ne e
  · intro a ha
    have : w.next = a := by injection ha
    rw [← this]; exact hi

theorem liftG (g : G α) : Twin A (fun _ => True) (MM.liftG g) := by
  intro w v hs
  unfold MM.liftG
  rw [hs.repo]
  cases g w.repo with
  | mk res s =>
    exact ⟨rfl, ⟨hs.heap, hs.next, rfl, hs.caches, hs.refs, hs.subs, hs.fresh⟩, fun _ _ => ⟨rfl, rfl⟩, fun _ _ => trivial⟩

/-- Code that looks at the state, in a way that is the same for both processes. -/
theorem get {γ : Type} {φ : World → γ} {k : γ → W β} (hφ : ∀ w v, Side A w v → φ v = φ w)
    (hk : ∀ c, Twin A Q (k c)) : Twin A Q (M.get >>= fun w => k (φ w)) := by
  intro w v hs
  have e1 : (M.get >>= fun w => k (φ w)) w = k (φ w) w := rfl
  have e2 : (M.get >>= fun w => k (φ w)) v = k (φ v) v := rfl
  rw [e1, e2, hφ w v hs]
  exact hk _ w v hs

/-- A change of the caches -/
theorem modifyCaches (f : List (Realm × List Str) → List (Realm × List Str)) :
    Twin A (fun _ => True) (M.modify fun w => { w with caches := f w.caches } : W Unit) := fun w v hs =>
  ⟨rfl, ⟨hs.heap, hs.next, hs.repo, by show f v.caches = f w.caches; rw [hs.caches], hs.refs, hs.subs, hs.fresh⟩,
    fun _ _ => ⟨rfl, rfl⟩, fun _ _ => trivial⟩

end Twin

/-! ### The code -/

theorem twin_allocKids (r : Realm) (ks : List (Key × (Str × Link))) :
    Twin A (fun is => ∀ e ∈ is, A e.2.2) (allocKids r ks) := by
  induction ks with
  | nil => exact Twin.pure (by simp)
  | cons e ks ih =>
    obtain ⟨k, t, l⟩ := e
    unfold allocKids
    refine Twin.bind (Twin.alloc (by intro h; cases h)) fun i hi => ?_
    refine Twin.bind ih fun is his => Twin.pure ?_
    intro e he
    rcases List.mem_cons.mp he with rfl | he
    · exact hi
    · exact his e he

theorem twin_readIn {i : ObjId} (hi : A i) : Twin A (fun _ => True) (readIn C i) := by
  unfold readIn
  refine Twin.bind (Twin.getObj hi) fun o ho => ?_
  by_cases hm : o.mapped = true
  · rw [if_pos hm]; exact Twin.pure trivial
  · rw [if_neg hm]
    cases o.realm with
    | none => exact Twin.raise _
    | some r =>
      cases hrf : o.ref with
      | none => exact Twin.raise _
      | some ref =>
        simp only
        split
        · refine Twin.bind (Twin.assert _) fun _ _ => ?_
          split
          · exact Twin.raise _
          · exact Twin.setObj hi (by intro h; exact absurd h hm)
        · split
          · exact Twin.raise _
          · refine Twin.bind (Twin.assert _) fun _ _ => ?_
            cases ref.loc with
            | none => exact Twin.raise _
            | some loc =>
              simp only
              refine Twin.bind (Twin.liftG _) fun b _ => ?_
              refine Twin.bind (twin_allocKids r b.kids) fun ks hks => ?_
              refine Twin.setObj hi ?_
              intro _ k hk
              obtain ⟨e, he, rfl⟩ := List.mem_map.mp hk
              exact hks e he

theorem ensureMapped_away {i : ObjId} {w : World} (hm : (w.heap i).mapped = false) :
    ensureMapped C i w = (readIn C i >>= fun _ => updObj i (fun o => { o with mapped := true }) >>= fun _ =>
      (Pure.pure true : W Bool)) w := by
  unfold ensureMapped
  rw [M.bind_of_ok (getObj_run i w), if_neg (by simp [hm])]

theorem twin_ensureMapped {i : ObjId} (hi : A i) : Twin A (fun _ => True) (ensureMapped C i) := by
  intro w v hs
  by_cases hm : (w.heap i).mapped = true
  · have hm' : (v.heap i).mapped = true := by rw [hs.heap i hi]; exact hm
    rw [ensureMapped_mapped hm, ensureMapped_mapped hm']
    exact ⟨rfl, hs, fun _ _ => ⟨rfl, rfl⟩, fun _ _ => trivial⟩
  · have hm : (w.heap i).mapped = false := by simpa using hm
    have hm' : (v.heap i).mapped = false := by rw [hs.heap i hi]; exact hm
    have hsub : ∀ p, A p → ((ensureMapped C i w).2.heap p).mapped = true →
        ∀ k ∈ ((ensureMapped C i w).2.heap p).body.subs, A k := by
      have hc := ensureMapped_cases C i w hm
      intro p hp
      generalize (ensureMapped C i w).1 = res at hc
      cases hc with
      | failed e h1 => rw [h1]; exact hs.subs p hp
      | none r ref _ _ _ _ _ _ _ hh =>
        rw [hh]
        by_cases e : p = i
        · subst e; rw [Heap.set_self]; intro _ k hk; cases hk
        · rw [Heap.set_ne e]; exact hs.subs p hp
      | read r ref loc b is so _ _ _ _ _ _ _ _ _ hnx hold hrest hall hnew _ hself _ =>
        intro hpm k hk
        by_cases e : p = i
        · subst e
          rw [hself] at hk
          obtain ⟨x, hx, rfl⟩ := List.mem_map.mp hk
          obtain ⟨y, _, hy⟩ := all2_right hall hx
          exact hs.fresh _ hy.2.2.1
        · by_cases h1 : p < w.next
          · rw [hold p e h1] at hpm hk; exact hs.subs p hp hpm k hk
          · by_cases h2 : p < (ensureMapped C i w).2.next
            · obtain ⟨x, _, hx⟩ := hnew p e (Nat.le_of_not_lt h1) h2
              rw [hx] at hpm; cases hpm
            · rw [hrest p e (Nat.le_of_not_lt h2)] at hpm hk; exact hs.subs p hp hpm k hk
    obtain ⟨h1, h2, h3, _⟩ := twin_readIn (C := C) hi w v hs
    rw [ensureMapped_away hm, ensureMapped_away hm'] at *
    rw [M.bind_run] at hsub ⊢
    rw [M.bind_run]
    cases e : readIn C i w with
    | mk res w1 =>
      cases e' : readIn C i v with
      | mk res' v1 =>
        rw [e, e'] at h1 h2 h3
        rw [e] at hsub
        simp only at h1 h2 h3
        subst h1
        cases res' with
        | error er => exact ⟨rfl, h2, h3, fun b hb => by cases hb⟩
        | ok u =>
          refine ⟨rfl, ⟨?_, h2.next, h2.repo, h2.caches, h2.refs, hsub, h2.fresh⟩, ?_, fun _ _ => trivial⟩
          · intro j hj
            show (v1.heap.set i _) j = (w1.heap.set i _) j
            by_cases e : j = i
            · subst e; rw [Heap.set_self, Heap.set_self, h2.heap j hj]
            · rw [Heap.set_ne e, Heap.set_ne e, h2.heap j hj]
          · intro j hj
            have e : j ≠ i := by rintro rfl; exact hj hi
            exact ⟨(Heap.set_ne e).trans (h3 j hj).1, (Heap.set_ne e).trans (h3 j hj).2⟩

theorem twin_purge (n : Nat) : ∀ {i : ObjId}, A i → Twin A (fun _ => True) (purge n i) := by
  induction n with
  | zero => intro i _; exact Twin.raise _
  | succ n ih =>
    intro i hi
    unfold purge
    refine Twin.bind (Twin.getObj hi) fun o ho => ?_
    split
    · rename_i hm
      split
      · exact Twin.raise _
      · split
        · exact Twin.raise _
        · refine Twin.bind (Twin.forEach fun k hk => ih (ho hm k hk)) fun _ _ => ?_
          exact Twin.updObj hi fun _ _ h => by cases h
    · exact Twin.pure trivial

theorem side_allOk {w v : World} {r : Realm} {n : Nat}
    (ih : ∀ i, A i → isSavedOn n v.heap r i = isSavedOn n w.heap r i) (l : List ObjId) (hl : ∀ k ∈ l, A k) :
    allOk (isSavedOn n v.heap r) l = allOk (isSavedOn n w.heap r) l := by
  induction l with
  | nil => rfl
  | cons a l ihl =>
    unfold allOk
    rw [ih a (hl a List.mem_cons_self), ihl fun k hk => hl k (List.mem_cons_of_mem _ hk)]

theorem side_isSavedOn {w v : World} (hs : Side A w v) (r : Realm) (n : Nat) :
    ∀ i, A i → isSavedOn n v.heap r i = isSavedOn n w.heap r i := by
  induction n with
  | zero => intro i _; rfl
  | succ n ih =>
    intro i hi
    unfold isSavedOn
    rw [hs.heap i hi]
    by_cases h1 : r ∉ (w.heap i).savedOn
    · rw [if_pos h1, if_pos h1]
    · rw [if_neg h1, if_neg h1]
      by_cases hm : (w.heap i).mapped = true
      · rw [if_pos hm, if_pos hm]
        exact side_allOk ih _ (hs.subs i hi hm)
      · rw [if_neg hm, if_neg hm]

theorem twin_addRef (t : Bool) (h : Option Str) : Twin A (fun _ => True) (addRef t h) := by
  intro w v hs
  unfold addRef
  cases h with
  | none => exact ⟨rfl, hs, fun _ _ => ⟨rfl, rfl⟩, fun _ _ => trivial⟩
  | some h =>
    simp only
    rw [hs.refs]
    split
    · exact ⟨rfl, hs, fun _ _ => ⟨rfl, rfl⟩, fun _ _ => trivial⟩
    · exact ⟨rfl, ⟨hs.heap, hs.next, hs.repo, hs.caches, rfl, hs.subs, hs.fresh⟩, fun _ _ => ⟨rfl, rfl⟩, fun _ _ => trivial⟩

theorem twin_flushCache (r : Realm) : Twin A (fun _ => True) (flushCache C r) := by
  unfold flushCache
  refine Twin.get (φ := fun w => dget w.caches r) (k := fun x => match x with
    | none => (Pure.pure () : W Unit)
    | some bs => do
      let _ ← liftG (gitSaveBlobs C r bs)
      M.modify fun w => { w with caches := dset w.caches r [] }) (fun w v hs => by rw [hs.caches]) ?_
  intro c
  cases c with
  | none => exact Twin.pure trivial
  | some bs => exact Twin.bind (Twin.liftG _) fun _ _ => Twin.modifyCaches fun c => dset c r []

theorem twin_cacheBlob (r : Realm) (s : Str) : Twin A (fun _ => True) (cacheBlob C r s) := by
  intro w v hs
  have key : Twin A (fun _ => True) (do
      M.modify fun w => { w with caches := dset w.caches r ((dget w.caches r).getD [] ++ [s]) }
      Pure.pure (C.hash (.blob s)) : W Str) :=
    Twin.bind (Twin.modifyCaches fun c => dset c r ((dget c r).getD [] ++ [s])) fun _ _ => Twin.pure trivial
  unfold cacheBlob
  rw [M.bind_of_ok (M.get_run w), M.bind_of_ok (M.get_run v), hs.caches]
  by_cases h : ((dget w.caches r).getD []).length = C.maxsize
  · rw [if_pos h]
    exact Twin.bind (twin_flushCache r) (fun _ _ => key) w v hs
  · rw [if_neg h]
    exact key w v hs

theorem twin_cacheRealm (r : Realm) : Twin A (fun _ => True) (cacheRealm r) := by
  intro w v hs
  unfold cacheRealm
  rw [hs.caches]
  cases dget w.caches r with
  | some _ => exact ⟨rfl, hs, fun _ _ => ⟨rfl, rfl⟩, fun _ _ => trivial⟩
  | none => exact ⟨rfl, ⟨hs.heap, hs.next, hs.repo, rfl, hs.refs, hs.subs, hs.fresh⟩, fun _ _ => ⟨rfl, rfl⟩, fun _ _ => trivial⟩

theorem twin_flushRealm (r : Realm) : Twin A (fun _ => True) (flushRealm C r) := by
  intro w v hs
  unfold flushRealm
  rw [M.bind_of_ok (M.get_run w), M.bind_of_ok (M.get_run v), hs.caches]
  cases dget w.caches r with
  | none => exact Twin.raise _ w v hs
  | some bs =>
    exact Twin.bind (twin_flushCache r) (fun _ _ => Twin.modifyCaches fun c => ddel c r) w v hs

theorem twin_saveBlob (r : Realm) (s : Str) : Twin A (fun _ => True) (saveBlob C r s) := by
  intro w v hs
  unfold saveBlob
  rw [M.bind_of_ok (M.get_run w), M.bind_of_ok (M.get_run v), hs.caches]
  cases dget w.caches r with
  | none => exact Twin.liftG _ w v hs
  | some bs => exact twin_cacheBlob r s w v hs

theorem twin_proxyWrite {wr : W Ref} (h : Twin A (fun _ => True) wr) : Twin A (fun _ => True) (proxyWrite wr) := by
  refine Twin.bind h fun ref _ => ?_
  split
  · exact Twin.pure trivial
  · exact Twin.bind (twin_addRef _ _) fun _ _ => Twin.pure trivial

theorem twin_fileTreeWrite {cache : Option Realm} {wr : W Ref} (h : Twin A (fun _ => True) wr) :
    Twin A (fun _ => True) (fileTreeWrite C cache wr) := by
  unfold fileTreeWrite
  cases cache with
  | none => exact Twin.raise _
  | some r =>
    refine Twin.bind (twin_cacheRealm r) fun _ _ => Twin.bind h fun ref _ => Twin.bind (twin_flushRealm r) fun _ _ => ?_
    split
    · exact Twin.pure trivial
    · exact Twin.bind (twin_addRef _ _) fun _ _ => Twin.pure trivial

theorem twin_writeVersionList {wr : ObjId → W Ref} {r : Realm} {kids : List (Key × (Str × ObjId))}
    (hw : ∀ e ∈ kids, Twin A (fun _ => True) (wr e.2.2)) (hk : ∀ e ∈ kids, A e.2.2) :
    Twin A (fun _ => True) (writeVersionList C wr r kids) := by
  unfold writeVersionList
  refine Twin.bind (Twin.forEach (Q := fun _ => True) fun e he => ?_) fun _ _ => Twin.liftG _
  refine Twin.bind (P := fun _ => True) ?_ fun _ _ => Twin.pure trivial
  unfold writeElement
  refine Twin.bind (Twin.getObj (hk e he)) fun o _ => ?_
  split
  · exact twin_proxyWrite (hw e he)
  · exact hw e he

theorem twin_mapOut {wr : Bool → ObjId → W Ref} {r : Realm} {force : Bool} {b : Body ObjId}
    (hk : ∀ k ∈ b.subs, A k) (hw : ∀ f k, A k → Twin A (fun _ => True) (wr f k)) :
    Twin A (fun _ => True) (mapOut C wr r force b) := by
  have hk' : ∀ e ∈ b.kids, A e.2.2 := fun e he => hk _ (List.mem_map.mpr ⟨e, he, rfl⟩)
  have hd : ∀ {k x}, dget b.kids k = some x → A x.2 := fun {k x} h => hk' (k, x) (mem_of_dget h)
  unfold mapOut
  cases b.data with
  | text s => exact Twin.bind (Twin.liftG _) fun _ _ => Twin.pure trivial
  | metadata m =>
    exact Twin.bind (twin_saveBlob r _) fun _ _ => Twin.bind (twin_addRef _ _) fun _ _ =>
      Twin.bind (twin_saveBlob r _) fun _ _ => Twin.pure trivial
  | mtree leaf =>
    simp only
    split
    · exact Twin.pure trivial
    · refine Twin.bind (Twin.forEach (Q := fun _ => True) fun e he => ?_) fun _ _ =>
        Twin.bind (Twin.liftG _) fun _ _ => Twin.pure trivial
      exact Twin.bind (hw _ _ (hk' e he)) fun _ _ => Twin.bind (Twin.getObj (hk' e he)) fun _ _ => Twin.pure trivial
  | mrr id ver =>
    simp only
    refine Twin.bind (P := fun _ => True) ?_ fun ft _ => Twin.bind (P := fun _ => True) ?_ fun dlm _ =>
      Twin.bind (Twin.liftG _) fun _ _ => Twin.pure trivial
    · cases h : dget b.kids .ft with
      | none => exact Twin.pure trivial
      | some e =>
        refine Twin.bind (twin_fileTreeWrite (hw _ _ (hd h))) fun ref _ => ?_
        split
        · exact Twin.pure trivial
        · exact Twin.bind (twin_addRef _ _) fun _ _ => Twin.pure trivial
    · cases h : dget b.kids .dlm with
      | none => exact Twin.pure trivial
      | some e =>
        exact Twin.bind (hw _ _ (hd h)) fun _ _ => Twin.bind (twin_addRef _ _) fun _ _ => Twin.pure trivial
  | vlist => exact Twin.bind (twin_writeVersionList (fun e he => hw _ _ (hk' e he)) hk') fun _ _ => Twin.pure trivial
  | tvl =>
    exact Twin.bind (twin_writeVersionList (fun e he => hw _ _ (hk' e he)) hk') fun _ _ =>
      Twin.bind (Twin.liftG _) fun _ _ => Twin.pure trivial
  | uuidset =>
    refine Twin.bind (Twin.forEach (Q := fun _ => True) fun e he => ?_) fun _ _ =>
      Twin.bind (Twin.liftG _) fun _ _ => Twin.bind (Twin.liftG _) fun _ _ => Twin.pure trivial
    exact Twin.bind (hw _ _ (hk' e he)) fun _ _ => Twin.pure trivial

theorem twin_writeOut (n : Nat) : ∀ {dest : Option Realm} {force : Bool} {i : ObjId}, A i →
    Twin A (fun _ => True) (writeOut C n dest force i) := by
  induction n with
  | zero => intro dest force i _; exact Twin.raise _
  | succ n ih =>
    intro dest force i hi
    unfold writeOut
    refine Twin.bind (Twin.getObj hi) fun o ho => ?_
    by_cases hm : o.mapped = true
    · rw [if_pos hm]
      cases destOf dest o.realm with
      | none => exact Twin.raise _
      | some r =>
        simp only
        split
        · exact Twin.raise _
        · refine Twin.bind (Twin.updObj hi fun _ h => h) fun _ _ => ?_
          refine Twin.get (φ := fun w => isSavedOn (n + 1) w.heap r i) (k := fun x => (do
            let saved ← M.ofExcept x
            if saved && !force then
              match o.ref with
              | some ref => Pure.pure ref
              | none => M.raise .attribute
            else do
              let ref ← mapOut C (writeOut C n (some r)) r force o.body
              updObj i fun o => { o with ref := some ref, savedOn := r :: o.savedOn }
              Pure.pure ref : W Ref)) (fun w v hs => side_isSavedOn hs r _ i hi) ?_
          intro x
          refine Twin.bind (Twin.ofExcept x) fun saved _ => ?_
          split
          · cases o.ref with
            | none => exact Twin.raise _
            | some ref => exact Twin.pure trivial
          · refine Twin.bind (twin_mapOut (ho hm) fun f k hk => ih hk) fun ref _ => ?_
            exact Twin.bind (Twin.updObj hi fun _ h => h) fun _ _ => Twin.pure trivial
    · rw [if_neg hm]
      cases o.realm with
      | none => exact Twin.raise _
      | some _ =>
        cases o.ref with
        | none => exact Twin.raise _
        | some ref =>
          cases dest with
          | none => exact Twin.raise _
          | some r =>
            simp only
            split
            · exact Twin.pure trivial
            · exact Twin.raise _

theorem twin_writeAs {via : Via} {n : Nat} {dest : Option Realm} {force : Bool} {i : ObjId} (hi : A i) :
    Twin A (fun _ => True) (writeAs C via n dest force i) := by
  cases via with
  | own => exact twin_writeOut n hi
  | dataset => exact twin_proxyWrite (twin_writeOut n hi)
  | file => exact Twin.bind (Twin.getObj hi) fun _ _ => twin_fileTreeWrite (twin_writeOut n hi)

end MM
