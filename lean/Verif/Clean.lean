/-
Saved objects: what `is_saved_on` decides, and the invariant that saved objects are
what the repository holds.
-/
import Verif.AnyOutcome

namespace MM

/-- An object and all its loaded parts are marked as saved on the repository. -/
inductive Clean (r : Realm) (h : Heap) : ObjId → Prop
  | mk (i : ObjId) : r ∈ (h i).savedOn →
      ((h i).mapped = true → ∀ k ∈ (h i).body.subs, Clean r h k) → Clean r h i

theorem Clean.flag {r : Realm} {h : Heap} {i : ObjId} (hc : Clean r h i) : r ∈ (h i).savedOn := by
  cases hc; assumption

theorem Clean.kid {r : Realm} {h : Heap} {i k : ObjId} (hc : Clean r h i)
    (hm : (h i).mapped = true) (hk : k ∈ (h i).body.subs) : Clean r h k := by
  cases hc with
  | mk _ _ h2 => exact h2 hm k hk

theorem allOk_true {α : Type} {f : α → Except PyErr Bool} {l : List α} :
    allOk f l = .ok true ↔ ∀ a ∈ l, f a = .ok true := by
  induction l with
  | nil => simp [allOk]
  | cons a l ih =>
    unfold allOk
    cases h : f a with
    | error e => simp [h]
    | ok b =>
      cases b with
      | false => simp [h]
      | true => simp [h, ih]

theorem allOk_false {α : Type} {f : α → Except PyErr Bool} {l : List α}
    (h : allOk f l = .ok false) : ∃ a ∈ l, f a = .ok false := by
  induction l with
  | nil => simp [allOk] at h
  | cons a l ih =>
    unfold allOk at h
    cases hf : f a with
    | error e => simp [hf] at h
    | ok b =>
      cases b with
      | false => exact ⟨a, List.mem_cons_self .., hf⟩
      | true =>
        simp only [hf] at h
        obtain ⟨x, hx, e⟩ := ih h
        exact ⟨x, List.mem_cons_of_mem _ hx, e⟩

theorem isSavedOn_succ (n : Nat) (h : Heap) (r : Realm) (i : ObjId) :
    isSavedOn (n + 1) h r i = if r ∉ (h i).savedOn then .ok false
      else if (h i).mapped then allOk (isSavedOn n h r) (h i).body.subs else .ok true := rfl

theorem isSavedOn_true {n : Nat} {h : Heap} {r : Realm} {i : ObjId} :
    isSavedOn (n + 1) h r i = .ok true ↔ r ∈ (h i).savedOn ∧
      ((h i).mapped = true → ∀ k ∈ (h i).body.subs, isSavedOn n h r k = .ok true) := by
  rw [isSavedOn_succ]
  by_cases hf : r ∈ (h i).savedOn
  · rw [if_neg (by simpa using hf)]
    by_cases hm : (h i).mapped = true
    · rw [if_pos hm, allOk_true]; simp [hf, hm]
    · rw [if_neg hm]; simp [hf, hm]
  · rw [if_pos hf]; simp [hf]

theorem clean_of_isSavedOn {n : Nat} {h : Heap} {r : Realm} : ∀ {i : ObjId},
    isSavedOn n h r i = .ok true → Clean r h i := by
  induction n with
  | zero => intro i hs; simp [isSavedOn] at hs
  | succ n ih =>
    intro i hs
    obtain ⟨h1, h2⟩ := isSavedOn_true.mp hs
    exact Clean.mk i h1 fun hm k hk => ih (h2 hm k hk)

theorem not_clean_of_isSavedOn {n : Nat} {h : Heap} {r : Realm} : ∀ {i : ObjId},
    isSavedOn n h r i = .ok false → ¬ Clean r h i := by
  induction n with
  | zero => intro i hs; simp [isSavedOn] at hs
  | succ n ih =>
    intro i hs hc
    rw [isSavedOn_succ, if_neg (by simpa using hc.flag)] at hs
    by_cases hm : (h i).mapped = true
    · rw [if_pos hm] at hs
      obtain ⟨k, hk, e⟩ := allOk_false hs
      exact ih e (hc.kid hm hk)
    · rw [if_neg hm] at hs; cases hs

theorem Clean.mono {r : Realm} {h h' : Heap} (hs : ∀ j, SameObj (h j) (h' j))
    (hf : ∀ j, r ∈ (h j).savedOn → r ∈ (h' j).savedOn) {i : ObjId} (hc : Clean r h i) :
    Clean r h' i := by
  induction hc with
  | mk i h1 _ ih =>
    refine Clean.mk i (hf i h1) fun hm k hk => ?_
    rw [(hs i).mapped] at hm
    rw [(hs i).body] at hk
    exact ih hm k hk

theorem isSavedOn_mono {r : Realm} {h h' : Heap} (hs : ∀ j, SameObj (h j) (h' j))
    (hf : ∀ j, r ∈ (h j).savedOn → r ∈ (h' j).savedOn) {n : Nat} : ∀ {i : ObjId},
    isSavedOn n h r i = .ok true → isSavedOn n h' r i = .ok true := by
  induction n with
  | zero => intro i h; simp [isSavedOn] at h
  | succ n ih =>
    intro i hi
    rw [isSavedOn_true] at hi ⊢
    refine ⟨hf i hi.1, fun hm k hk => ?_⟩
    rw [(hs i).mapped] at hm
    rw [(hs i).body] at hk
    exact ih (hi.2 hm k hk)

/-- Parts of parts, as far as they are loaded. -/
inductive Reach (h : Heap) : ObjId → ObjId → Prop
  | refl (i : ObjId) : Reach h i i
  | step (i k j : ObjId) : (h i).mapped = true → k ∈ (h i).body.subs → Reach h k j → Reach h i j

theorem Reach.trans {h : Heap} {a b c : ObjId} (h1 : Reach h a b) (h2 : Reach h b c) :
    Reach h a c := by
  induction h1 with
  | refl => exact h2
  | step i k j hm hk _ ih => exact Reach.step i k _ hm hk (ih h2)

theorem Reach.mono {h h' : Heap} (hs : ∀ j, SameObj (h j) (h' j)) {i j : ObjId}
    (hr : Reach h' i j) : Reach h i j := by
  induction hr with
  | refl => exact Reach.refl _
  | step i k j hm hk _ ih =>
    rw [(hs i).mapped] at hm
    rw [(hs i).body] at hk
    exact Reach.step i k j hm hk ih

theorem SameObj.kind {o o' : Obj} (h : SameObj o o') : o'.kind = o.kind := by
  unfold Obj.kind; rw [h.body]

/-- The content of an object and of its loaded parts can be stored. -/
def Storable (h : Heap) (i : ObjId) : Prop :=
  ∀ j, Reach h i j → (h j).mapped = true → BodyOk h (h j).body

theorem BodyOk.mono {h h' : Heap} (hs : ∀ j, SameObj (h j) (h' j)) {b : Body ObjId}
    (hb : BodyOk h b) : BodyOk h' b :=
  ⟨hb.data, hb.keys, fun e he => by rw [(hs _).kind]; exact hb.slots e he⟩

theorem Storable.mono {h h' : Heap} (hs : ∀ j, SameObj (h j) (h' j)) {i : ObjId}
    (hb : Storable h i) : Storable h' i := by
  intro j hr hm
  rw [(hs j).body]
  rw [(hs j).mapped] at hm
  exact (hb j (hr.mono hs) hm).mono hs

theorem Storable.kid {h : Heap} {i k : ObjId} (hb : Storable h i) (hm : (h i).mapped = true)
    (hk : k ∈ (h i).body.subs) : Storable h k :=
  fun j hr hmj => hb j (Reach.step i k j hm hk hr) hmj

/-- Objects that are saved have a reference under which the repository holds their
content. -/
def Truth (C : Cfg) (r : Realm) (L : Log) (h : Heap) (i : ObjId) : Prop :=
  Clean r h i → ∃ ref, (h i).ref = some ref ∧ Good C r L h i ref

/-- No object contains itself. -/
def Ranked (rank : ObjId → Nat) (h : Heap) : Prop :=
  ∀ p, (h p).mapped = true → ∀ k ∈ (h p).body.subs, rank k < rank p

theorem Ranked.mono {rank : ObjId → Nat} {h h' : Heap} (hs : ∀ j, SameObj (h j) (h' j))
    (hr : Ranked rank h) : Ranked rank h' := by
  intro p hm k hk
  rw [(hs p).mapped] at hm
  rw [(hs p).body] at hk
  exact hr p hm k hk

/-- What is known while objects are written: `busy` are the objects that may pass for saved
although they are not, `dom` are those that may be written. -/
structure Scope where
  busy : ObjId → Prop
  dom : ObjId → Prop

instance : CoeFun Scope (fun _ => ObjId → Prop) := ⟨Scope.busy⟩

/-- The objects outside of `S` are as they should be: an object marked as saved whose
part is not saved is the only one that contains this part. -/
structure Shape (r : Realm) (S : Scope) (h : Heap) : Prop where
  closed : ∀ p, S.dom p → (h p).mapped = true → ∀ k ∈ (h p).body.subs, S.dom k
  apart : ∀ p, ¬ S p → r ∈ (h p).savedOn → (h p).mapped = true → ∀ k ∈ (h p).body.subs, ¬ S k
  alone : ∀ p, ¬ S p → r ∈ (h p).savedOn → (h p).mapped = true → ∀ k ∈ (h p).body.subs,
    ¬ Clean r h k → ∀ q, S.dom q → (h q).mapped = true → k ∈ (h q).body.subs → q = p

/-- Changes by writing to `r` that succeeds, where only the name `nm` may be set. -/
structure Wrote (r : Realm) (nm : Option Str) (w w' : World) : Prop where
  same : ∀ j, SameObj (w.heap j) (w'.heap j)
  saved : ∀ j x, x ∈ (w.heap j).savedOn → x ∈ (w'.heap j).savedOn
  other : ∀ j x, x ≠ r → x ∈ (w'.heap j).savedOn → x ∈ (w.heap j).savedOn
  grows : Grows w.eff w'.eff
  refs : ∀ x n, (x = r ∧ nm = some n) ∨ refOf w'.repo.log x n = refOf w.repo.log x n
  direct : ∀ j, ((w'.heap j).ref = (w.heap j).ref ∧
      (r ∈ (w'.heap j).savedOn → r ∈ (w.heap j).savedOn)) ∨
    ∃ ref, (w'.heap j).ref = some ref ∧ ref.direct = true
  next : w'.next = w.next
  nodup : (dkeys w.caches).Nodup → (dkeys w'.caches).Nodup

theorem Wrote.refl (r : Realm) (nm : Option Str) (w : World) : Wrote r nm w w :=
  ⟨fun _ => SameObj.refl _, fun _ _ h => h, fun _ _ _ h => h, Grows.refl _, fun _ _ => Or.inr rfl,
   fun _ => Or.inl ⟨rfl, id⟩, rfl, id⟩

theorem Wrote.trans {r : Realm} {nm : Option Str} {a b c : World} (h : Wrote r nm a b)
    (h' : Wrote r nm b c) : Wrote r nm a c := by
  refine ⟨fun j => (h.same j).trans (h'.same j), fun j x hx => h'.saved j x (h.saved j x hx),
    fun j x hr hx => h.other j x hr (h'.other j x hr hx), h.grows.trans h'.grows, ?_, ?_,
    h'.next.trans h.next, fun hn => h'.nodup (h.nodup hn)⟩
  · intro x n
    rcases h'.refs x n with e' | e'
    · exact Or.inl e'
    · rcases h.refs x n with e | e
      · exact Or.inl e
      · exact Or.inr (e'.trans e)
  · intro j
    rcases h'.direct j with e' | e'
    · rcases h.direct j with e | ⟨ref, e1, e2⟩
      · exact Or.inl ⟨e'.1.trans e.1, fun hx => e.2 (e'.2 hx)⟩
      · exact Or.inr ⟨ref, e'.1.trans e1, e2⟩
    · exact Or.inr e'

theorem Wrote.weaken {r : Realm} {nm : Option Str} {w w' : World} (h : Wrote r none w w') :
    Wrote r nm w w' :=
  ⟨h.same, h.saved, h.other, h.grows, fun x n => (h.refs x n).elim (fun e => by simp at e) Or.inr,
   h.direct, h.next, h.nodup⟩

theorem Quiet.step {r : Realm} {w w' : World} (h : Quiet w w') : Wrote r none w w' := by
  refine ⟨?_, ?_, ?_, h.grows, fun x n => Or.inr (h.refs x n), ?_, h.next, h.caches⟩ <;>
    rw [h.heap] <;> intros
  · exact SameObj.refl _
  · assumption
  · assumption
  · exact Or.inl ⟨rfl, id⟩

theorem Wrote.sameRefs {r : Realm} {w w' : World} (h : Wrote r none w w') (x : Realm) (n : Str) :
    refOf w'.eff x n = refOf w.eff x n := by
  rw [refOf_eff, refOf_eff]
  rcases h.refs x n with e | e
  · simp at e
  · exact e

theorem Wrote.clean {r : Realm} {nm : Option Str} {w w' : World} (h : Wrote r nm w w') {i : ObjId}
    (hc : Clean r w.heap i) : Clean r w'.heap i := hc.mono h.same fun j => h.saved j r

/-- Stored content stays, unless a name is set again. -/
theorem Good.mono {C : Cfg} {r : Realm} {L L' : Log} {h h' : Heap} (hg : Grows L L')
    (hc : CollisionFree C L') (hk : HeapKept L L' h) (hs : ∀ j, SameObj (h j) (h' j)) {i : ObjId}
    {ref : Ref} (hl : ∀ loc, ref.loc = some loc → ref.isNone = false → LocKept L L' r loc)
    (hgood : Good C r L h i ref) : Good C r L' h' i ref := by
  have hkind : (h' i).kind = (h i).kind := (hs i).kind
  have hmem : SameContent C L h (.mem i) L' h' (.mem i) := fun ks t =>
    (look_mem_mono hg hc hk hs ks t i (hgood.full ks t)).symm
  refine ⟨by rw [hkind]; exact hgood.ok, Full.of_same hmem hgood.full, ?_⟩
  rw [hkind]
  refine hmem.symm.trans (hgood.same.trans ?_)
  intro ks t
  symm
  have hloc : (normRef (h i).kind ref).loc = ref.loc := by unfold normRef; split <;> rfl
  refine look_sto_mono hg hc ks t r _ ?_ ((Full.of_same hgood.same hgood.full) ks t)
  simp only
  intro loc h1 h2
  rw [hloc] at h1
  refine hl loc h1 ?_
  unfold Ref.isNone at h2 ⊢
  rwa [hloc] at h2

theorem Good.step {C : Cfg} {r : Realm} {w w' : World} (h : Wrote r none w w')
    (hc : CollisionFree C w'.eff) {i : ObjId} {ref : Ref} (hg : Good C r w.eff w.heap i ref) :
    Good C r w'.eff w'.heap i ref :=
  hg.mono h.grows hc (fun _ x _ loc _ _ _ _ _ => Or.inr (h.sameRefs x loc)) h.same
    (fun loc _ _ => Or.inr (h.sameRefs r loc))

/-- The same for several steps while the sub-objects of an object are written. -/
structure Mid (C : Cfg) (r : Realm) (rank : ObjId → Nat) (S : Scope) (m : Nat)
    (w w' : World) : Prop where
  step : Wrote r none w w'
  fresh : ∀ j, r ∈ (w'.heap j).savedOn → r ∈ (w.heap j).savedOn ∨ (Clean r w'.heap j ∧ rank j < m)
  shape : Shape r S w'.heap
  truth : ∀ p, ¬ S p → Truth C r w'.eff w'.heap p

theorem Mid.trans {C : Cfg} {r : Realm} {rank : ObjId → Nat} {S : Scope} {m : Nat}
    {a b c : World} (h : Mid C r rank S m a b) (h' : Mid C r rank S m b c) :
    Mid C r rank S m a c := by
  refine ⟨h.step.trans h'.step, ?_, h'.shape, h'.truth⟩
  intro j hj
  rcases h'.fresh j hj with e | e
  · rcases h.fresh j e with e | e
    · exact Or.inl e
    · exact Or.inr ⟨h'.step.clean e.1, e.2⟩
  · exact Or.inr e

theorem Shape.of_same {r : Realm} {S : Scope} {h h' : Heap} (hs : Shape r S h)
    (he : h' = h) : Shape r S h' := by subst he; exact hs

theorem Truth.quiet {C : Cfg} {r : Realm} {w w' : World} (h : Quiet w w')
    (hc : CollisionFree C w'.eff) {p : ObjId} (ht : Truth C r w.eff w.heap p) :
    Truth C r w'.eff w'.heap p := by
  intro hcl
  rw [h.heap] at hcl
  obtain ⟨ref, h1, h2⟩ := ht hcl
  exact ⟨ref, by rw [h.heap]; exact h1, h2.step h.step hc⟩

theorem Quiet.mid {C : Cfg} {r : Realm} {rank : ObjId → Nat} {S : Scope} {m : Nat}
    {w w' : World} (h : Quiet w w') (hc : CollisionFree C w'.eff) (hs : Shape r S w.heap)
    (ht : ∀ p, ¬ S p → Truth C r w.eff w.heap p) : Mid C r rank S m w w' :=
  ⟨h.step, fun j hj => Or.inl (by rw [h.heap] at hj; exact hj), hs.of_same h.heap,
   fun p hp => (ht p hp).quiet h hc⟩

end MM
