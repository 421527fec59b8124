/-
Writing an object stores its content: the main theorem about `write_out`.
-/
import Verif.Clean

namespace MM

/-- An object is written while those in `S` are being written. -/
structure Entry (r : Realm) (rank : ObjId → Nat) (S : Scope) (h : Heap) (i : ObjId) : Prop where
  dom : S.dom i
  below : ∀ s, S s → rank i < rank s
  parents : ∀ p, ¬ S p → r ∈ (h p).savedOn → (h p).mapped = true → i ∈ (h p).body.subs → Clean r h i

/-- No other object is meant by the name that saving the object sets: other objects
that were read from this name are not known as saved, or read from another
repository. -/
def Alone (r : Realm) (h : Heap) (i : ObjId) : Prop :=
  ∀ nm, pubName (h i).kind = some nm → ∀ j, j ≠ i → ∀ ref, (h j).ref = some ref →
    ref.loc = some nm → r ∉ (h j).savedOn ∧ ((h j).mapped = true ∨ (h j).realm ≠ some r)

/-- What holds after an object was written. -/
structure Post (C : Cfg) (r : Realm) (rank : ObjId → Nat) (S : Scope) (n : Nat) (i : ObjId)
    (ref : Ref) (w w' : World) : Prop where
  step : Wrote r (pubName (w.heap i).kind) w w'
  fresh : ∀ j, r ∈ (w'.heap j).savedOn → r ∈ (w.heap j).savedOn ∨ (Clean r w'.heap j ∧ rank j ≤ rank i)
  saved : isSavedOn n w'.heap r i = .ok true
  good : Good C r w'.eff w'.heap i ref
  hasRef : (w'.heap i).ref = some ref
  shape : Shape r S w'.heap
  truth : ∀ p, ¬ S p → Truth C r w'.eff w'.heap p

/-- The claim about `write_out` with recursion limit `n`. -/
def WriteSpec (C : Cfg) (r : Realm) (rank : ObjId → Nat) (n : Nat) : Prop :=
  ∀ (S : Scope) (force : Bool) (i : ObjId) (w w' : World) (ref : Ref),
    writeOut C n (some r) force i w = (.ok ref, w') → CollisionFree C w'.eff →
    (dkeys w.caches).Nodup → Ranked rank w.heap → Storable w.heap i → Shape r S w.heap →
    (∀ p, ¬ S p → Truth C r w.eff w.heap p) → Entry r rank S w.heap i → Alone r w.heap i →
    Post C r rank S n i ref w w'

/-- The state while the parts of an object are written. -/
structure Env (C : Cfg) (r : Realm) (rank : ObjId → Nat) (S : Scope) (i : ObjId) (w : World) :
    Prop where
  nodup : (dkeys w.caches).Nodup
  ranked : Ranked rank w.heap
  storable : Storable w.heap i
  shape : Shape r S w.heap
  truth : ∀ p, ¬ S p → Truth C r w.eff w.heap p
  now : S i ∨ Clean r w.heap i
  below : ∀ s, S s → rank i ≤ rank s
  mapped : (w.heap i).mapped = true
  dom : S.dom i

section
variable {C : Cfg} {r : Realm} {rank : ObjId → Nat} {S : Scope} {i : ObjId} {n : Nat}

theorem Env.mid {w w' : World} (e : Env C r rank S i w) {m : Nat} (h : Mid C r rank S m w w') :
    Env C r rank S i w' where
  nodup := h.step.nodup e.nodup
  ranked := e.ranked.mono h.step.same
  storable := e.storable.mono h.step.same
  shape := h.shape
  truth := h.truth
  now := e.now.imp id h.step.clean
  below := e.below
  mapped := (h.step.same i).mapped.trans e.mapped
  dom := e.dom

theorem Env.quiet {w w' : World} (e : Env C r rank S i w) (h : Quiet w w')
    (hc : CollisionFree C w'.eff) : Env C r rank S i w' :=
  e.mid (h.mid hc e.shape e.truth (m := 0))

theorem Env.entry {w : World} (e : Env C r rank S i w) {c : ObjId}
    (hk : c ∈ (w.heap i).body.subs) : Entry r rank S w.heap c where
  dom := e.shape.closed i e.dom e.mapped c hk
  below := fun s hs => Nat.lt_of_lt_of_le (e.ranked i e.mapped c hk) (e.below s hs)
  parents := by
    intro p hp hf hm hcp
    rcases e.now with h | h
    · by_cases hcl : Clean r w.heap c
      · exact hcl
      · have := e.shape.alone p hp hf hm c hcp hcl i e.dom e.mapped hk
        subst this
        exact absurd h hp
    · exact h.kid e.mapped hk

/-- A part was written: its content is stored under the reference. -/
structure Out (C : Cfg) (r : Realm) (n : Nat) (w : World) (c : ObjId) (ref : Ref) : Prop where
  good : Good C r w.eff w.heap c ref
  saved : isSavedOn n w.heap r c = .ok true

theorem Out.mid {w w' : World} {m : Nat} (h : Mid C r rank S m w w') (hc : CollisionFree C w'.eff)
    {c : ObjId} {ref : Ref} (ho : Out C r n w c ref) : Out C r n w' c ref :=
  ⟨ho.good.step h.step hc, isSavedOn_mono h.step.same (fun j => h.step.saved j r) ho.saved⟩

theorem Out.quiet {w w' : World} (h : Quiet w w') (hc : CollisionFree C w'.eff)
    {c : ObjId} {ref : Ref} (ho : Out C r n w c ref) : Out C r n w' c ref :=
  ⟨ho.good.step h.step hc, by rw [h.heap]; exact ho.saved⟩

/-- Writing the part `c` of `i`. -/
def KidSpec (C : Cfg) (r : Realm) (rank : ObjId → Nat) (S : Scope) (n : Nat) (i c : ObjId)
    (f : W Ref) : Prop :=
  ∀ w w' ref, f w = (.ok ref, w') → CollisionFree C w'.eff → Env C r rank S i w →
    Mid C r rank S (rank i) w w' ∧ Out C r n w' c ref

theorem kidSpec_wr (ih : WriteSpec C r rank n) {c : ObjId} {body : Body ObjId}
    (hc : c ∈ body.subs) (force : Bool) :
    ∀ w w' ref, writeOut C n (some r) force c w = (.ok ref, w') → CollisionFree C w'.eff →
      Env C r rank S i w → (w.heap i).body = body →
      Mid C r rank S (rank i) w w' ∧ Out C r n w' c ref := by
  intro w w' ref hw hcf env hb
  have hk : c ∈ (w.heap i).body.subs := by rw [hb]; exact hc
  have hpub : pubName (w.heap c).kind = none := by
    have hbo := env.storable i (Reach.refl i) env.mapped
    obtain ⟨e, he, rfl⟩ := List.mem_map.mp hk
    exact pubName_slot (hbo.slots e he)
  have p := ih S force c w w' ref hw hcf env.nodup env.ranked (env.storable.kid env.mapped hk)
    env.shape env.truth (env.entry hk) (fun nm h => by rw [hpub] at h; cases h)
  have hst := p.step
  rw [hpub] at hst
  refine ⟨⟨hst, ?_, p.shape, p.truth⟩, ⟨p.good, p.saved⟩⟩
  intro j hj
  rcases p.fresh j hj with h | h
  · exact Or.inl h
  · exact Or.inr ⟨h.1, Nat.lt_of_le_of_lt h.2 (env.ranked i env.mapped c hk)⟩

/-- Something quiet after a part was written. -/
theorem mid_quiet {c : ObjId} {ref : Ref} {w w1 w2 : World} (hc : CollisionFree C w2.eff)
    (h : Mid C r rank S (rank i) w w1 ∧ Out C r n w1 c ref) (hq : Quiet w1 w2) :
    Mid C r rank S (rank i) w w2 ∧ Out C r n w2 c ref :=
  ⟨h.1.trans (hq.mid hc h.1.shape h.1.truth), h.2.quiet hq hc⟩

theorem kid_proxy {f : W Ref} {c : ObjId} {w w' : World} {ref : Ref}
    (hf : ∀ w1 ref, f w = (.ok ref, w1) → CollisionFree C w1.eff →
      Mid C r rank S (rank i) w w1 ∧ Out C r n w1 c ref)
    (h : proxyWrite f w = (.ok ref, w')) (hc : CollisionFree C w'.eff) :
    Mid C r rank S (rank i) w w' ∧ Out C r n w' c ref := by
  unfold proxyWrite at h
  obtain ⟨ref1, w1, e1, h⟩ := M.bind_ok h
  split at h
  · simp only [M.pure_run, Prod.mk.injEq, Except.ok.injEq] at h
    obtain ⟨rfl, rfl⟩ := h
    exact hf w1 ref1 e1 hc
  · obtain ⟨_, w2, e2, h⟩ := M.bind_ok h
    simp only [M.pure_run, Prod.mk.injEq, Except.ok.injEq] at h
    obtain ⟨rfl, rfl⟩ := h
    have hq := (addRef_quiet e2).1
    exact mid_quiet hc (hf w1 ref1 e1 (hc.mono hq.grows)) hq

theorem kid_fileTree {f : W Ref} {c : ObjId} {w w' : World} {ref : Ref}
    (env : Env C r rank S i w) (hk : M.Keeps f (Any r))
    (hf : ∀ w0 w1 ref, Quiet w w0 → Env C r rank S i w0 → f w0 = (.ok ref, w1) →
      CollisionFree C w1.eff → Mid C r rank S (rank i) w0 w1 ∧ Out C r n w1 c ref)
    (h : fileTreeWrite C (some r) f w = (.ok ref, w')) (hc : CollisionFree C w'.eff) :
    Mid C r rank S (rank i) w w' ∧ Out C r n w' c ref := by
  unfold fileTreeWrite at h
  simp only at h
  obtain ⟨_, w0, e0, h⟩ := M.bind_ok h
  obtain ⟨ref1, w1, e1, h⟩ := M.bind_ok h
  obtain ⟨_, w2, e2, h⟩ := M.bind_ok h
  have q0 := (cacheRealm_quiet e0).1
  have n0 := q0.caches env.nodup
  have a1 := hk w0
  rw [e1] at a1
  have q2 := (flushRealm_quiet (a1.nodup n0) e2).1
  have main : ∀ w3, Quiet w2 w3 → CollisionFree C w3.eff →
      Mid C r rank S (rank i) w w3 ∧ Out C r n w3 c ref1 := by
    intro w3 q3 hc3
    have hc1 := hc3.mono (q2.trans q3).grows
    have hc0 := hc1.mono (a1.grows n0)
    have env0 := env.quiet q0 hc0
    have m0 := q0.mid hc0 env.shape env.truth (rank := rank) (m := rank i)
    have h1 := hf w0 w1 ref1 q0 env0 e1 hc1
    exact mid_quiet hc3 ⟨m0.trans h1.1, h1.2⟩ (q2.trans q3)
  split at h
  · simp only [M.pure_run, Prod.mk.injEq, Except.ok.injEq] at h
    obtain ⟨rfl, rfl⟩ := h
    exact main w2 (Quiet.refl _) hc
  · obtain ⟨_, w3, e3, h⟩ := M.bind_ok h
    simp only [M.pure_run, Prod.mk.injEq, Except.ok.injEq] at h
    obtain ⟨rfl, rfl⟩ := h
    exact main w3 (addRef_quiet e3).1 hc

/-- Writing the parts one after the other. -/
theorem loop {β γ : Type} {f : β → W γ} {c : β → ObjId} {res : Kind → β → Ref → γ} :
    ∀ (l : List β) (w w' : World) (bs : List γ),
      (∀ e ∈ l, M.Keeps (f e) (Any r)) →
      (∀ e ∈ l, ∀ w0 w1 b, (∀ j, SameObj (w.heap j) (w0.heap j)) → f e w0 = (.ok b, w1) →
        CollisionFree C w1.eff → Env C r rank S i w0 → Mid C r rank S (rank i) w0 w1 ∧
          ∃ ref, Out C r n w1 (c e) ref ∧ b = res (w1.heap (c e)).kind e ref) →
      M.forEach f l w = (.ok bs, w') → CollisionFree C w'.eff → Env C r rank S i w →
      Mid C r rank S (rank i) w w' ∧
        All2 (fun e b => ∃ ref, Out C r n w' (c e) ref ∧ b = res (w'.heap (c e)).kind e ref) l bs := by
  intro l
  induction l with
  | nil =>
    intro w w' bs _ _ h hc env
    simp only [M.forEach_nil, Prod.mk.injEq, Except.ok.injEq] at h
    obtain ⟨rfl, rfl⟩ := h
    exact ⟨(Quiet.refl w).mid hc env.shape env.truth, All2.nil⟩
  | cons e l ih =>
    intro w w' bs hkp hf h hc env
    rw [M.forEach_cons] at h
    obtain ⟨b, w1, e1, h⟩ := M.bind_ok h
    obtain ⟨bs', w2, e2, h⟩ := M.bind_ok h
    simp only [M.pure_run, Prod.mk.injEq, Except.ok.injEq] at h
    obtain ⟨rfl, rfl⟩ := h
    have a1 := hkp e (List.mem_cons_self ..) w
    rw [e1] at a1
    have a2 := M.Keeps.forEach (Any.refl r) (fun _ _ _ => Any.trans)
      (fun x hx => hkp x (List.mem_cons_of_mem _ hx)) w1
    rw [e2] at a2
    have hc1 := hc.mono (a2.grows (a1.nodup env.nodup))
    obtain ⟨m1, ref, o1, hb⟩ := hf e (List.mem_cons_self ..) w w1 b (fun _ => SameObj.refl _) e1 hc1 env
    obtain ⟨m2, hall⟩ := ih w1 w2 bs' (fun x hx => hkp x (List.mem_cons_of_mem _ hx))
      (fun x hx w0 w3 b0 hs => hf x (List.mem_cons_of_mem _ hx) w0 w3 b0
        (fun j => (m1.step.same j).trans (hs j))) e2 hc (env.mid m1)
    refine ⟨m1.trans m2, All2.cons ⟨ref, o1.mid m2 hc, ?_⟩ hall⟩
    rw [hb, (m2.step.same (c e)).kind]


/-! ### The mappers -/

/-- What holds after the content of an object was stored. -/
structure MapPost (C : Cfg) (r : Realm) (rank : ObjId → Nat) (S : Scope) (n : Nat) (i : ObjId)
    (ref : Ref) (w w' : World) : Prop where
  step : Wrote r (pubName (w.heap i).kind) w w'
  fresh : ∀ j, r ∈ (w'.heap j).savedOn → r ∈ (w.heap j).savedOn ∨ (Clean r w'.heap j ∧ rank j < rank i)
  kids : ∀ c ∈ (w.heap i).body.subs, isSavedOn n w'.heap r c = .ok true
  stored : StoredAs C r w'.eff w'.heap (w.heap i).body (normRef (w.heap i).kind ref)
  refok : RefOk (w.heap i).kind ref
  direct : ref.direct = true
  shape : Shape r S w'.heap
  truth : ∀ p, ¬ S p → p ≠ i → Truth C r w'.eff w'.heap p

theorem MapPost.of_mid {ref : Ref} {w w' : World} (h : Mid C r rank S (rank i) w w')
    (hk : ∀ c ∈ (w.heap i).body.subs, isSavedOn n w'.heap r c = .ok true)
    (hs : StoredAs C r w'.eff w'.heap (w.heap i).body (normRef (w.heap i).kind ref))
    (hr : RefOk (w.heap i).kind ref) (hd : ref.direct = true) : MapPost C r rank S n i ref w w' :=
  ⟨h.step.weaken, h.fresh, hk, hs, hr, hd, h.shape, fun p hp _ => h.truth p hp⟩

theorem refOk_hash {k : Kind} {l : Str} (hl : isHash l = true) {cls : Str}
    (hc : k = .mtree .mrr → cls = c!"MTreeNode") : RefOk k ⟨cls, some l⟩ :=
  ⟨⟨l, rfl, Or.inl hl⟩, fun h => Or.inl (hc h)⟩

theorem normRef_ne {k : Kind} (h : k ≠ .tvl) (ref : Ref) : normRef k ref = ref := by
  unfold normRef; rw [if_neg h]

theorem pubName_not_direct {k : Kind} {nm : Str} (h : pubName k = some nm) {ref : Ref}
    (hd : ref.direct = true) : ref.loc ≠ some nm := by
  intro he
  unfold Ref.direct at hd
  rw [he] at hd
  cases k <;> simp only [pubName, Option.some.injEq] at h <;> first | (cases h; done) | skip
  · subst h; exact absurd hd (by decide)
  · subst h; exact absurd hd (by decide)

theorem Alone.step {w w' : World} {nm : Option Str} (h : Wrote r nm w w') (ha : Alone r w.heap i) :
    Alone r w'.heap i := by
  intro m hm j hj ref href hloc
  rw [(h.same i).kind] at hm
  rcases h.direct j with e | ⟨ref', e1, e2⟩
  · rw [e.1] at href
    obtain ⟨h1, h2⟩ := ha m hm j hj ref href hloc
    refine ⟨fun hx => h1 (e.2 hx), ?_⟩
    rcases h2 with h2 | h2
    · exact Or.inl ((h.same j).mapped.trans h2)
    · by_cases hmj : (w.heap j).mapped = true
      · exact Or.inl ((h.same j).mapped.trans hmj)
      · right
        rw [((h.same j).away (by simpa using hmj)).1]
        exact h2
  · rw [e1] at href
    injection href with href
    subst href
    exact absurd hloc (pubName_not_direct hm e2)

/-- Setting the name of an object. -/
theorem updateRef_step {w w' : World} {nm hash : Str}
    (h : liftG (gitUpdateRef C r nm hash) w = (.ok (), w')) :
    w'.heap = w.heap ∧ Wrote r (some nm) w w' ∧ w'.caches = w.caches := by
  obtain ⟨s, hs, rfl⟩ := liftG_ok h
  obtain ⟨h1, h2⟩ := gitCmd_ok hs
  cases hres : resolve C w.repo.log r hash with
  | none => simp [hres] at h1
  | some o =>
    simp only [hres] at h2
    refine ⟨rfl, ⟨fun _ => SameObj.refl _, fun _ _ h => h, fun _ _ _ h => h, ?_, ?_,
      fun _ => Or.inl ⟨rfl, id⟩, rfl, id⟩, rfl⟩
    · exact grows_eff rfl h2
    · intro x m
      by_cases hx : r = x ∧ nm = m
      · left; exact ⟨hx.1.symm, by rw [hx.2]⟩
      · right
        show refOf s.log x m = _
        rw [h2]
        simp only [List.reverse_cons, List.reverse_nil, List.nil_append, List.cons_append, refOf,
          if_neg hx]

theorem Good.pub {w w' : World} {nm : Str} (hs : Wrote r (some nm) w w')
    (hpub : pubName (w.heap i).kind = some nm) (hm : (w.heap i).mapped = true)
    (ha : Alone r w.heap i) (hc : CollisionFree C w'.eff) {c : ObjId} {ref : Ref}
    (hl : ref.loc ≠ some nm) (hg : Good C r w.eff w.heap c ref) :
    Good C r w'.eff w'.heap c ref := by
  have key : ∀ x loc, (x ≠ r ∨ loc ≠ nm) → LocKept w.eff w'.eff x loc := by
    intro x loc hx
    right
    rw [refOf_eff, refOf_eff]
    rcases hs.refs x loc with e | e
    · exfalso
      rcases hx with hx | hx
      · exact hx e.1
      · exact hx (by simpa using e.2.symm)
    · exact e
  refine hg.mono hs.grows hc ?_ hs.same ?_
  · intro j x ref' loc hmj hrj hrefj hlocj _
    apply key
    by_cases hx : x = r
    · right
      rintro rfl
      subst hx
      have hj : j ≠ i := by rintro rfl; rw [hm] at hmj; cases hmj
      rcases (ha _ hpub j hj ref' hrefj hlocj).2 with h | h
      · rw [hmj] at h; cases h
      · exact h hrj
    · exact Or.inl hx
  · intro loc hloc _
    apply key
    right
    rintro rfl
    exact hl hloc

/-- After the parts were written and the object was stored, its name is set. -/
theorem MapPost.of_pub {ref : Ref} {w w2 w3 : World} {nm : Str}
    (h : Mid C r rank S (rank i) w w2) (hs : Wrote r (some nm) w2 w3) (he : w3.heap = w2.heap)
    (hpub : pubName (w.heap i).kind = some nm) (hm : (w.heap i).mapped = true)
    (ha : Alone r w.heap i) (hc : CollisionFree C w3.eff)
    (hk : ∀ c ∈ (w.heap i).body.subs, isSavedOn n w2.heap r c = .ok true)
    (hst : StoredAs C r w3.eff w3.heap (w.heap i).body (normRef (w.heap i).kind ref))
    (hr : RefOk (w.heap i).kind ref) (hd : ref.direct = true) : MapPost C r rank S n i ref w w3 := by
  have ha2 := ha.step h.step
  have hm2 := (h.step.same i).mapped.trans hm
  have hp2 : pubName (w2.heap i).kind = some nm := by rw [(h.step.same i).kind]; exact hpub
  refine ⟨?_, ?_, ?_, hst, hr, hd, h.shape.of_same he, ?_⟩
  · rw [hpub]; exact h.step.weaken.trans hs
  · intro j hj
    rw [he] at hj ⊢
    exact h.fresh j hj
  · rw [he]; exact hk
  · intro p hp hpi hcl
    rw [he] at hcl
    obtain ⟨ref', h1, h2⟩ := h.truth p hp hcl
    refine ⟨ref', by rw [he]; exact h1, h2.pub hs hp2 hm2 ha2 hc ?_⟩
    intro hloc
    exact (ha2 nm hp2 p hpi ref' h1 hloc).1 hcl.flag

theorem kids_of_all2 {γ : Type} {w' : World} {body : Body ObjId} {bs : List γ}
    {P : (Key × (Str × ObjId)) → Ref → γ → Prop}
    (h : All2 (fun e b => ∃ ref, Out C r n w' e.2.2 ref ∧ P e ref b) body.kids bs) :
    ∀ c ∈ body.subs, isSavedOn n w'.heap r c = .ok true := by
  intro c hc
  obtain ⟨e, he, rfl⟩ := List.mem_map.mp hc
  obtain ⟨b, _, ref, ho, _⟩ := all2_left h he
  exact ho.saved

theorem all2_imp {α β : Type} {R R' : α → β → Prop} {as : List α} {bs : List β}
    (hi : ∀ a ∈ as, ∀ b, R a b → R' a b) (h : All2 R as bs) : All2 R' as bs := by
  induction h with
  | nil => exact All2.nil
  | cons h1 _ ih =>
    exact All2.cons (hi _ (List.mem_cons_self ..) _ h1)
      (ih fun a ha => hi a (List.mem_cons_of_mem _ ha))

/-- The elements of a version list are written, and then the list itself. -/
theorem versions_mid (hr : r ≠ []) (ih : WriteSpec C r rank n) {w : World}
    (env : Env C r rank S i w) :
    ∀ w2 hash, writeVersionList C (writeOut C n (some r) false) r (w.heap i).body.kids w =
      (.ok hash, w2) → CollisionFree C w2.eff →
      ∃ js, Mid C r rank S (rank i) w w2 ∧ hash = C.hash (.blob (dumps C.floats (.arr js))) ∧
        Stored w2.eff r (.blob (dumps C.floats (.arr js))) ∧
        All2 (fun e j => ∃ ref, Out C r n w2 e.2.2 ref ∧ j = vrecJson e.1 e.2.1 ref)
          (w.heap i).body.kids js := by
  have wrAny := writeOut_any (C := C) hr n
  have cl := closed_any C r
  have hkid : ∀ c ∈ (w.heap i).body.subs, ∀ f w0 w1 ref, (∀ j, SameObj (w.heap j) (w0.heap j)) →
      writeOut C n (some r) f c w0 = (.ok ref, w1) →
      CollisionFree C w1.eff → Env C r rank S i w0 →
      Mid C r rank S (rank i) w0 w1 ∧ Out C r n w1 c ref := by
    intro c hck f w0 w1 ref hs hw hcf e0
    exact kidSpec_wr ih hck f w0 w1 ref hw hcf e0 (hs i).body
  have hsub : ∀ e ∈ (w.heap i).body.kids, e.2.2 ∈ (w.heap i).body.subs := fun e he =>
    List.mem_map.mpr ⟨e, he, rfl⟩
  intro w2 hash hw hc2
  unfold writeVersionList at hw
  obtain ⟨js, w1, e1, hw⟩ := M.bind_ok hw
  obtain ⟨q, rfl, hst, _⟩ := gitSaveStr_quiet hw
  have hc1 := hc2.mono q.grows
  obtain ⟨m1, hall⟩ := loop (C := C) (r := r) (rank := rank) (S := S) (i := i) (n := n)
    (c := fun e : Key × (Str × ObjId) => e.2.2)
    (res := fun _ e ref => vrecJson e.1 e.2.1 ref) (w.heap i).body.kids w w1 js
    (fun e _ => cl.bind (cl.writeElement (wrAny false) _) fun _ => cl.pure _)
    (by
      intro e he w0 w1 b hs hf hc1 e0
      obtain ⟨ref, w3, e3, hf⟩ := M.bind_ok hf
      simp only [M.pure_run, Prod.mk.injEq, Except.ok.injEq] at hf
      obtain ⟨rfl, rfl⟩ := hf
      unfold writeElement at e3
      rw [M.bind_of_ok (getObj_run _ _)] at e3
      split at e3
      · obtain ⟨g1, g2⟩ := kid_proxy (fun w1 ref hw hcf => hkid e.2.2 (hsub e he) false w0 w1 ref
          hs hw hcf e0) e3 hc1
        exact ⟨g1, ref, g2, rfl⟩
      · obtain ⟨g1, g2⟩ := hkid e.2.2 (hsub e he) false w0 w3 ref hs e3 hc1 e0
        exact ⟨g1, ref, g2, rfl⟩)
    e1 hc1 env
  have mq := q.mid hc2 m1.shape m1.truth (rank := rank) (m := rank i)
  refine ⟨js, m1.trans mq, rfl, hst, all2_imp ?_ hall⟩
  rintro e _ b ⟨ref, ho, hb⟩
  exact ⟨ref, ho.quiet q hc2, hb⟩

/-- The version lists in a UUID set are written. -/
theorem uuids_mid (hr : r ≠ []) (ih : WriteSpec C r rank n) {w w1 : World} {es : List TreeEntry}
    (env : Env C r rank S i w)
    (e1 : M.forEach (fun e : Key × (Str × ObjId) => do
      let ref ← writeOut C n (some r) false e.2.2
      pure (⟨false, locText ref, e.1.entryName⟩ : TreeEntry)) (w.heap i).body.kids w = (.ok es, w1))
    (hc1 : CollisionFree C w1.eff) :
    Mid C r rank S (rank i) w w1 ∧ All2 (fun e b => ∃ ref, Out C r n w1 e.2.2 ref ∧
      b = (⟨false, locText ref, e.1.entryName⟩ : TreeEntry)) (w.heap i).body.kids es := by
  have wrAny := writeOut_any (C := C) hr n
  have cl := closed_any C r
  have hkid : ∀ c ∈ (w.heap i).body.subs, ∀ f w0 w1 ref, (∀ j, SameObj (w.heap j) (w0.heap j)) →
      writeOut C n (some r) f c w0 = (.ok ref, w1) →
      CollisionFree C w1.eff → Env C r rank S i w0 →
      Mid C r rank S (rank i) w0 w1 ∧ Out C r n w1 c ref := by
    intro c hck f w0 w1 ref hs hw hcf e0
    exact kidSpec_wr ih hck f w0 w1 ref hw hcf e0 (hs i).body
  have hsub : ∀ e ∈ (w.heap i).body.kids, e.2.2 ∈ (w.heap i).body.subs := fun e he =>
    List.mem_map.mpr ⟨e, he, rfl⟩
  exact loop (C := C) (r := r) (rank := rank) (S := S) (i := i) (n := n)
    (c := fun e : Key × (Str × ObjId) => e.2.2)
    (res := fun _ e ref => (⟨false, locText ref, e.1.entryName⟩ : TreeEntry))
    (w.heap i).body.kids w w1 es
    (fun e _ => cl.bind (wrAny _ _) fun _ => cl.pure _)
    (by
      intro e he w0 w1 b hs hf hc1 e0
      obtain ⟨ref, w3, e3, hf⟩ := M.bind_ok hf
      simp only [M.pure_run, Prod.mk.injEq, Except.ok.injEq] at hf
      obtain ⟨rfl, rfl⟩ := hf
      obtain ⟨g1, g2⟩ := hkid e.2.2 (hsub e he) false w0 w3 ref hs e3 hc1 e0
      exact ⟨g1, ref, g2, rfl⟩)
    e1 hc1 env

theorem mapOut_post (hr : r ≠ []) (ih : WriteSpec C r rank n) {w w' : World} {ref : Ref}
    {force : Bool} (env : Env C r rank S i w) (ha : Alone r w.heap i)
    (h : mapOut C (writeOut C n (some r)) r force (w.heap i).body w = (.ok ref, w'))
    (hc : CollisionFree C w'.eff) : MapPost C r rank S n i ref w w' := by
  have hbo := env.storable i (Reach.refl i) env.mapped
  have wrAny := writeOut_any (C := C) hr n
  have cl := closed_any C r
  have hkid : ∀ c ∈ (w.heap i).body.subs, ∀ f w0 w1 ref, (∀ j, SameObj (w.heap j) (w0.heap j)) →
      writeOut C n (some r) f c w0 = (.ok ref, w1) →
      CollisionFree C w1.eff → Env C r rank S i w0 →
      Mid C r rank S (rank i) w0 w1 ∧ Out C r n w1 c ref := by
    intro c hck f w0 w1 ref hs hw hcf e0
    exact kidSpec_wr ih hck f w0 w1 ref hw hcf e0 (hs i).body
  have hsub : ∀ e ∈ (w.heap i).body.kids, e.2.2 ∈ (w.heap i).body.subs := fun e he =>
    List.mem_map.mpr ⟨e, he, rfl⟩
  have hver := versions_mid hr ih env
  have hkind : (w.heap i).kind = (w.heap i).body.data.kind := rfl
  unfold mapOut at h
  cases hd : (w.heap i).body.data with
  | text s =>
    rw [hd] at h hkind
    simp only at h
    obtain ⟨hash, w1, e1, h⟩ := M.bind_ok h
    simp only [M.pure_run, Prod.mk.injEq, Except.ok.injEq] at h
    obtain ⟨rfl, rfl⟩ := h
    obtain ⟨q, rfl, hst, _⟩ := gitSaveStr_quiet e1
    have hdata := hbo.data
    rw [hd] at hdata
    obtain ⟨t, rfl, ht⟩ := hdata
    have hkids : (w.heap i).body.kids = [] := by
      apply List.eq_nil_iff_forall_not_mem.mpr
      intro e he
      have := hbo.slots e he
      rw [hd] at this
      exact this
    simp only [Option.getD_some] at hst ⊢
    refine MapPost.of_mid (q.mid hc env.shape env.truth) ?_ ?_ ?_ (direct_hash (C.valid _))
    · intro c hck
      obtain ⟨e, he, _⟩ := List.mem_map.mp hck
      rw [hkids] at he
      cases he
    · rw [hkind, normRef_ne (by simp [Data.kind])]
      exact store_text hc hd hkids ht hst
    · rw [hkind]; exact refOk_hash (C.valid _) (by simp [Data.kind])
  | metadata m =>
    rw [hd] at h hkind
    simp only at h
    obtain ⟨q, rfl, hs1, hs2, _⟩ := saveMetadata_quiet env.nodup h
    have hdata := hbo.data
    rw [hd] at hdata
    have hkids : (w.heap i).body.kids = [] := by
      apply List.eq_nil_iff_forall_not_mem.mpr
      intro e he
      have := hbo.slots e he
      rw [hd] at this
      exact this
    refine MapPost.of_mid (q.mid hc env.shape env.truth) ?_ ?_ ?_ (direct_hash (C.valid _))
    · intro c hck
      obtain ⟨e, he, _⟩ := List.mem_map.mp hck
      rw [hkids] at he
      cases he
    · rw [hkind, normRef_ne (by simp [Data.kind])]
      exact store_metadata hc hd hkids hdata hs1 hs2
    · rw [hkind]; exact refOk_hash (C.valid _) (by simp [Data.kind])
  | mtree leaf =>
    rw [hd] at h hkind
    simp only at h
    by_cases hkids : (w.heap i).body.kids = []
    · rw [if_pos hkids] at h
      simp only [M.pure_run, Prod.mk.injEq, Except.ok.injEq] at h
      obtain ⟨rfl, rfl⟩ := h
      refine MapPost.of_mid ((Quiet.refl w).mid hc env.shape env.truth) ?_ ?_ ?_ (by decide)
      · intro c hck
        obtain ⟨e, he, _⟩ := List.mem_map.mp hck
        rw [hkids] at he
        cases he
      · rw [hkind, normRef_ne (by simp [Data.kind])]
        exact store_mtree_empty hd hkids
      · rw [hkind]
        exact ⟨⟨noneLocation, rfl, Or.inr (Or.inl ⟨rfl, rfl⟩)⟩, fun _ => Or.inl rfl⟩
    · rw [if_neg hkids] at h
      obtain ⟨es, w1, e1, h⟩ := M.bind_ok h
      obtain ⟨hash, w2, e2, h⟩ := M.bind_ok h
      simp only [M.pure_run, Prod.mk.injEq, Except.ok.injEq] at h
      obtain ⟨rfl, rfl⟩ := h
      obtain ⟨q, ⟨es', hmk, rfl, hst⟩, _⟩ := gitSaveTree_quiet e2
      have hc1 := hc.mono q.grows
      obtain ⟨m1, hall⟩ := loop (C := C) (r := r) (rank := rank) (S := S) (i := i) (n := n)
        (c := fun e : Key × (Str × ObjId) => e.2.2)
        (res := fun k e ref => (⟨k.isMtree, locText ref, e.1.entryName⟩ : TreeEntry))
        (w.heap i).body.kids w w1 es
        (fun e _ => cl.bind (wrAny _ _) fun _ => cl.bind (cl.getObj _) fun _ => cl.pure _)
        (by
          intro e he w0 w1 b hs hf hc1 e0
          obtain ⟨ref, w3, e3, hf⟩ := M.bind_ok hf
          rw [M.bind_of_ok (getObj_run _ _)] at hf
          simp only [M.pure_run, Prod.mk.injEq, Except.ok.injEq] at hf
          obtain ⟨rfl, rfl⟩ := hf
          obtain ⟨g1, g2⟩ := hkid e.2.2 (hsub e he) false w0 w3 ref hs e3 hc1 e0
          exact ⟨g1, ref, g2, rfl⟩)
        e1 hc1 env
      have mq := q.mid hc m1.shape m1.truth (rank := rank) (m := rank i)
      have mm := m1.trans mq
      have hall2 : All2 (fun e b => ∃ ref, Out C r n w2 e.2.2 ref ∧
          b = (⟨(w2.heap e.2.2).kind.isMtree, locText ref, e.1.entryName⟩ : TreeEntry))
          (w.heap i).body.kids es := by
        refine all2_imp ?_ hall
        rintro e _ b ⟨ref, ho, hb⟩
        exact ⟨ref, ho.quiet q hc, by rw [hb, q.heap]⟩
      refine MapPost.of_mid mm (kids_of_all2 hall2) ?_ ?_ (direct_hash (C.valid _))
      · rw [hkind, normRef_ne (by simp [Data.kind])]
        refine store_mtree hc (hbo.mono mm.step.same) hd hkids (all2_imp ?_ hall2) hmk hst
        rintro e _ b ⟨ref, ho, hb⟩
        exact ⟨ref, ho.good, hb⟩
      · exact refOk_hash (C.valid _) (fun _ => rfl)
  | mrr id v =>
    rw [hd] at h hkind
    simp only at h
    obtain ⟨ft, w1, e1, h⟩ := M.bind_ok h
    obtain ⟨dlm, w2, e2, h⟩ := M.bind_ok h
    obtain ⟨hash, w3, e3, h⟩ := M.bind_ok h
    simp only [M.pure_run, Prod.mk.injEq, Except.ok.injEq] at h
    obtain ⟨rfl, rfl⟩ := h
    obtain ⟨q, rfl, hst, _⟩ := gitSaveStr_quiet e3
    have hdata := hbo.data
    rw [hd] at hdata
    obtain ⟨⟨u, rfl⟩, s, rfl⟩ := hdata
    have hc2 := hc.mono q.grows
    have a1 := cl.ftPart (wrAny force) (dget (w.heap i).body.kids .ft) w
    rw [e1] at a1
    have a2 := cl.dlmPart (wrAny force) (dget (w.heap i).body.kids .dlm) w1
    rw [e2] at a2
    have hc1 := hc2.mono (a2.grows (a1.nodup env.nodup))
    -- the file tree
    have f1 : Mid C r rank S (rank i) w w1 ∧ (match dget (w.heap i).body.kids .ft with
        | none => ft.isNone = true
        | some e => Out C r n w1 e.2 ft) := by
      cases hx : dget (w.heap i).body.kids .ft with
      | none =>
        rw [hx] at e1
        simp only [writeFtPart, M.pure_run, Prod.mk.injEq, Except.ok.injEq] at e1
        obtain ⟨rfl, rfl⟩ := e1
        exact ⟨(Quiet.refl w).mid hc1 env.shape env.truth, (by decide : (Ref.noneRef _).isNone = true)⟩
      | some e =>
        rw [hx] at e1
        simp only [writeFtPart] at e1
        obtain ⟨ref, w4, e4, e1⟩ := M.bind_ok e1
        have main : CollisionFree C w4.eff → Mid C r rank S (rank i) w w4 ∧ Out C r n w4 e.2 ref :=
          fun hc4 => kid_fileTree env (wrAny force e.2) (fun w0 w5 ref q0 env0 hw hcf =>
            hkid e.2 (hsub _ (mem_of_dget hx)) force w0 w5 ref
              (fun j => by rw [q0.heap]; exact SameObj.refl _) hw hcf env0) e4 hc4
        split at e1
        · simp only [M.pure_run, Prod.mk.injEq, Except.ok.injEq] at e1
          obtain ⟨rfl, rfl⟩ := e1
          exact main hc1
        · obtain ⟨_, w5, e5, e1⟩ := M.bind_ok e1
          simp only [M.pure_run, Prod.mk.injEq, Except.ok.injEq] at e1
          obtain ⟨rfl, rfl⟩ := e1
          have hq := (addRef_quiet e5).1
          exact mid_quiet hc1 (main (hc1.mono hq.grows)) hq
    have env1 := env.mid f1.1
    have hb1 : (w1.heap i).body = (w.heap i).body := (f1.1.step.same i).body
    have f2 : Mid C r rank S (rank i) w1 w2 ∧ (match dget (w.heap i).body.kids .dlm with
        | none => dlm.isNone = true
        | some e => Out C r n w2 e.2 dlm) := by
      cases hx : dget (w.heap i).body.kids .dlm with
      | none =>
        rw [hx] at e2
        simp only [writeDlmPart, M.pure_run, Prod.mk.injEq, Except.ok.injEq] at e2
        obtain ⟨rfl, rfl⟩ := e2
        exact ⟨(Quiet.refl w1).mid hc2 env1.shape env1.truth, (by decide : (Ref.noneRef _).isNone = true)⟩
      | some e =>
        rw [hx] at e2
        simp only [writeDlmPart] at e2
        obtain ⟨ref, w4, e4, e2⟩ := M.bind_ok e2
        obtain ⟨_, w5, e5, e2⟩ := M.bind_ok e2
        simp only [M.pure_run, Prod.mk.injEq, Except.ok.injEq] at e2
        obtain ⟨rfl, rfl⟩ := e2
        have hq := (addRef_quiet e5).1
        exact mid_quiet hc2 (hkid e.2 (hsub _ (mem_of_dget hx)) force w1 w4 ref f1.1.step.same e4
          (hc2.mono hq.grows) env1) hq
    have mq := q.mid hc f2.1.shape f2.1.truth (rank := rank) (m := rank i)
    have mm := (f1.1.trans f2.1).trans mq
    have m13 := f2.1.trans mq
    have pft : PartRef C r w3.eff w3.heap (dget (w.heap i).body.kids .ft) ft ∧
        ∀ e, dget (w.heap i).body.kids .ft = some e → isSavedOn n w3.heap r e.2 = .ok true := by
      have := f1.2
      cases hx : dget (w.heap i).body.kids .ft with
      | none => rw [hx] at this; exact ⟨this, by simp⟩
      | some e =>
        rw [hx] at this
        have o := Out.mid m13 hc this
        exact ⟨o.good, fun e' he' => by injection he' with he'; subst he'; exact o.saved⟩
    have pdlm : PartRef C r w3.eff w3.heap (dget (w.heap i).body.kids .dlm) dlm ∧
        ∀ e, dget (w.heap i).body.kids .dlm = some e → isSavedOn n w3.heap r e.2 = .ok true := by
      have := f2.2
      cases hx : dget (w.heap i).body.kids .dlm with
      | none => rw [hx] at this; exact ⟨this, by simp⟩
      | some e =>
        rw [hx] at this
        have o := Out.mid mq hc this
        exact ⟨o.good, fun e' he' => by injection he' with he'; subst he'; exact o.saved⟩
    refine MapPost.of_mid mm ?_ ?_ ?_ (direct_hash (C.valid _))
    · intro c hck
      obtain ⟨e, he, rfl⟩ := List.mem_map.mp hck
      have hslot := hbo.slots e he
      rw [hd] at hslot
      obtain ⟨k, t, c⟩ := e
      have hget := dget_of_mem hbo.keys he
      cases k with
      | dlm => exact pdlm.2 _ hget
      | ft => exact pft.2 _ hget
      | name _ => exact hslot.elim
      | ver _ _ => exact hslot.elim
      | uuid _ => exact hslot.elim
    · rw [hkind, normRef_ne (by simp [Data.kind])]
      exact store_mrr hc (hbo.mono mm.step.same) hd pdlm.1 pft.1 hst
    · rw [hkind]; exact refOk_hash (C.valid _) (by simp [Data.kind])
  | vlist =>
    rw [hd] at h hkind
    simp only at h
    obtain ⟨hash, w2, e2, h⟩ := M.bind_ok h
    simp only [M.pure_run, Prod.mk.injEq, Except.ok.injEq] at h
    obtain ⟨rfl, rfl⟩ := h
    obtain ⟨js, mm, rfl, hst, hall⟩ := hver w2 hash e2 hc
    refine MapPost.of_mid mm (kids_of_all2 hall) ?_ ?_ (direct_hash (C.valid _))
    · rw [hkind, normRef_ne (by simp [Data.kind])]
      have := store_versions hc (hbo.mono mm.step.same) (Or.inl hd) (all2_imp
        (fun e _ b ⟨ref, ho, hb⟩ => ⟨ref, ho.good, hb⟩) hall) hst
      rw [hd] at this
      exact this
    · rw [hkind]; exact refOk_hash (C.valid _) (by simp [Data.kind])
  | tvl =>
    rw [hd] at h hkind
    simp only at h
    obtain ⟨hash, w2, e2, h⟩ := M.bind_ok h
    obtain ⟨_, w3, e3, h⟩ := M.bind_ok h
    simp only [M.pure_run, Prod.mk.injEq, Except.ok.injEq] at h
    obtain ⟨rfl, rfl⟩ := h
    obtain ⟨he, hs, _⟩ := updateRef_step e3
    have hc2 := hc.mono hs.grows
    obtain ⟨js, mm, rfl, hst, hall⟩ := hver w2 hash e2 hc2
    have hpub : pubName (w.heap i).kind = some tvlRefName := by rw [hkind]; rfl
    have hp2 : pubName (w2.heap i).kind = some tvlRefName := by
      rw [(mm.step.same i).kind]; exact hpub
    refine MapPost.of_pub mm hs he hpub env.mapped ha hc (kids_of_all2 hall) ?_ ?_
      (direct_hash (C.valid _))
    · have hbo3 : BodyOk w3.heap (w.heap i).body := by rw [he]; exact hbo.mono mm.step.same
      have := store_versions hc hbo3 (Or.inr hd) (all2_imp
        (fun e hem b ⟨ref, ho, hb⟩ => ⟨ref, ho.good.pub hs hp2
          ((mm.step.same i).mapped.trans env.mapped) (ha.step mm.step) hc (by
            have h1 := hbo.slots e hem
            rw [← (mm.step.same e.2.2).kind] at h1
            obtain ⟨l, g1, _, g3⟩ := slot_loc h1 ho.good.ok
            rw [g1]
            intro hl
            injection hl with hl
            subst hl
            rcases g3 with g3 | g3
            · exact absurd g3 (by decide)
            · exact absurd g3.1 (by decide)), hb⟩) hall) (hs.grows _ _ hst)
      rw [hd] at this
      rw [hkind]
      exact this
    · rw [hkind]; exact refOk_hash (C.valid _) (by simp [Data.kind])
  | uuidset =>
    rw [hd] at h hkind
    simp only at h
    obtain ⟨es, w1, e1, h⟩ := M.bind_ok h
    obtain ⟨hash, w2, e2, h⟩ := M.bind_ok h
    obtain ⟨_, w3, e3, h⟩ := M.bind_ok h
    simp only [M.pure_run, Prod.mk.injEq, Except.ok.injEq] at h
    obtain ⟨rfl, rfl⟩ := h
    obtain ⟨q, ⟨es', hmk, rfl, hst⟩, _⟩ := gitSaveTree_quiet e2
    obtain ⟨he, hs, _⟩ := updateRef_step e3
    have hc2 := hc.mono hs.grows
    have hc1 := hc2.mono q.grows
    obtain ⟨m1, hall⟩ := uuids_mid hr ih env e1 hc1
    have mq := q.mid hc2 m1.shape m1.truth (rank := rank) (m := rank i)
    have mm := m1.trans mq
    have hall2 : All2 (fun e b => ∃ ref, Out C r n w2 e.2.2 ref ∧
        b = (⟨false, locText ref, e.1.entryName⟩ : TreeEntry)) (w.heap i).body.kids es := by
      refine all2_imp ?_ hall
      rintro e _ b ⟨ref, ho, hb⟩
      exact ⟨ref, ho.quiet q hc2, hb⟩
    have hkids : (w.heap i).body.kids ≠ [] := by
      intro h0
      rw [h0] at hall
      cases hall
      have hno : mktree (treeSpec []) = none := by decide
      rw [hno] at hmk
      cases hmk
    have hpub : pubName (w.heap i).kind = some uuidSetRefName := by rw [hkind]; rfl
    have hp2 : pubName (w2.heap i).kind = some uuidSetRefName := by
      rw [(mm.step.same i).kind]; exact hpub
    refine MapPost.of_pub mm hs he hpub env.mapped ha hc (kids_of_all2 hall2) ?_ ?_
      (direct_hash (C.valid _))
    · have hbo3 : BodyOk w3.heap (w.heap i).body := by rw [he]; exact hbo.mono mm.step.same
      have := store_uuidset hc hbo3 hd hkids (all2_imp
        (fun e hem b ⟨ref, ho, hb⟩ => ⟨ref, ho.good.pub hs hp2
          ((mm.step.same i).mapped.trans env.mapped) (ha.step mm.step) hc (by
            have h1 := hbo.slots e hem
            rw [← (mm.step.same e.2.2).kind] at h1
            obtain ⟨l, g1, _, g3⟩ := slot_loc h1 ho.good.ok
            rw [g1]
            intro hl
            injection hl with hl
            subst hl
            rcases g3 with g3 | g3
            · exact absurd g3 (by decide)
            · exact absurd g3.1 (by decide)), hb⟩) hall2) hmk (hs.grows _ _ hst)
      rw [hkind, normRef_ne (by simp [Data.kind])]
      exact this
    · rw [hkind]; exact refOk_hash (C.valid _) (by simp [Data.kind])

/-! ### `write_out` -/

/-- Marking an object as saved does not make others clean that were not, unless the
object was clean before or is not a part of others that are marked. -/
theorem clean_unflag {h h' : Heap} (hs : ∀ j, SameObj (h j) (h' j))
    (hf : ∀ j, j ≠ i → r ∈ (h' j).savedOn → r ∈ (h j).savedOn)
    (hi : r ∈ (h i).savedOn ∨
      ∀ p, ¬ (S p ∨ p = i) → r ∈ (h p).savedOn → (h p).mapped = true →
        ∀ k ∈ (h p).body.subs, ¬ (S k ∨ k = i)) {p : ObjId} (hc : Clean r h' p)
    (hp : ¬ (S p ∨ p = i)) : Clean r h p := by
  rcases hi with hi | hi
  · refine hc.mono (fun j => ⟨(hs j).mapped.symm, (hs j).body.symm, fun h0 => ?_⟩) ?_
    · have := (hs j).away ((hs j).mapped.symm.trans h0)
      exact ⟨this.1.symm, this.2.symm⟩
    · intro j hj
      by_cases hji : j = i
      · subst hji; exact hi
      · exact hf j hji hj
  · induction hc with
    | mk p h1 _ ih =>
      have hpi : p ≠ i := fun he => hp (Or.inr he)
      refine Clean.mk p (hf p hpi h1) fun hm k hk => ?_
      refine ih ((hs p).mapped.trans hm) k (by rw [(hs p).body]; exact hk) ?_
      exact hi p hp (hf p hpi h1) hm k hk

theorem direct_of_refOk {k : Kind} {ref : Ref} (h : RefOk k ref) (hp : pubName k = none) :
    ref.direct = true := by
  obtain ⟨l, hl, h1⟩ := h.loc
  unfold Ref.direct
  rw [hl]
  rcases h1 with h1 | h1 | h1
  · simp [h1]
  · simp [h1.1]
  · rw [hp] at h1; cases h1

/-- Remembering the destination. -/
theorem realm_step (nm : Option Str) {w : World} (hm : (w.heap i).mapped = true) :
    Wrote r nm w { w with heap := w.heap.set i { w.heap i with realm := some r } } := by
  have a := any_upd (r := r) (w := w) (i := i) (o := { w.heap i with realm := some r }) hm rfl rfl
    (fun _ h => h) (fun _ _ h => h) rfl
  refine ⟨a.same, a.saved, a.other, Grows.refl _, fun _ _ => Or.inr rfl, ?_, rfl, id⟩
  intro j
  by_cases hj : j = i
  · subst hj; left; simp
  · left; simp [Heap.set_ne hj]

theorem flags_clean {h h' : Heap} (hs : ∀ j, SameObj (h j) (h' j))
    (hf : ∀ j, (h' j).savedOn = (h j).savedOn) {p : ObjId} : Clean r h' p ↔ Clean r h p := by
  constructor
  · intro hc
    refine hc.mono (fun j => ⟨(hs j).mapped.symm, (hs j).body.symm, fun h0 => ?_⟩)
      (fun j hj => by rw [← hf]; exact hj)
    have := (hs j).away ((hs j).mapped.symm.trans h0)
    exact ⟨this.1.symm, this.2.symm⟩
  · intro hc
    exact hc.mono hs (fun j hj => by rw [hf]; exact hj)

theorem Shape.flags {h h' : Heap} (hs : ∀ j, SameObj (h j) (h' j))
    (hf : ∀ j, (h' j).savedOn = (h j).savedOn) (hsh : Shape r S h) : Shape r S h' := by
  constructor
  · intro p hd h2 k hk
    rw [(hs p).mapped] at h2
    rw [(hs p).body] at hk
    exact hsh.closed p hd h2 k hk
  · intro p hp h1 h2 k hk
    rw [hf] at h1
    rw [(hs p).mapped] at h2
    rw [(hs p).body] at hk
    exact hsh.apart p hp h1 h2 k hk
  · intro p hp h1 h2 k hk hcl q hd hq hkq
    rw [hf] at h1
    rw [(hs p).mapped] at h2
    rw [(hs p).body] at hk
    rw [(hs q).mapped] at hq
    rw [(hs q).body] at hkq
    rw [flags_clean hs hf] at hcl
    exact hsh.alone p hp h1 h2 k hk hcl q hd hq hkq

theorem writeSpec (C : Cfg) {r : Realm} (hr : r ≠ []) (rank : ObjId → Nat) (n : Nat) :
    WriteSpec C r rank n := by
  induction n with
  | zero => intro S force i w w' ref h; simp [writeOut] at h
  | succ n ih =>
    intro S force i w w' ref h hc hnd hrk hsto hsh htr hen hal
    have hiS : ¬ S i := fun hi => Nat.lt_irrefl _ (hen.below i hi)
    by_cases hm : (w.heap i).mapped = true
    · -- a loaded object
      have st1 := realm_step (r := r) (pubName (w.heap i).kind) hm
      have st1' := realm_step (r := r) none hm
      have hfl : ∀ j, ((w.heap.set i { w.heap i with realm := some r }) j).savedOn =
          (w.heap j).savedOn := by
        intro j
        by_cases hj : j = i
        · subst hj; simp
        · simp [Heap.set_ne hj]
      have href1 : ∀ j, ((w.heap.set i { w.heap i with realm := some r }) j).ref = (w.heap j).ref := by
        intro j
        by_cases hj : j = i
        · subst hj; simp
        · simp [Heap.set_ne hj]
      have hbody1 : ((w.heap.set i { w.heap i with realm := some r }) i).body = (w.heap i).body := by
        simp
      generalize hw1 : ({ w with heap := w.heap.set i { w.heap i with realm := some r } } : World)
        = w1 at st1 st1'
      have hh1 : w1.heap = w.heap.set i { w.heap i with realm := some r } := by rw [← hw1]
      rw [← hh1] at hfl href1 hbody1
      have hm1 : (w1.heap i).mapped = true := (st1.same i).mapped.trans hm
      have hcl1 : ∀ p, Clean r w1.heap p ↔ Clean r w.heap p := fun p => flags_clean st1.same hfl
      have htr1 : ∀ hcf : CollisionFree C w1.eff, ∀ p, ¬ S p → Truth C r w1.eff w1.heap p := by
        intro hcf p hp hcl
        obtain ⟨ref', g1, g2⟩ := htr p hp ((hcl1 p).mp hcl)
        exact ⟨ref', by rw [href1]; exact g1, g2.step st1' hcf⟩
      have hsh1 : Shape r S w1.heap := hsh.flags st1.same hfl
      rw [writeOut_mapped hr hm hw1.symm] at h
      split at h
      · cases h
      · cases hsv : isSavedOn (n + 1) w1.heap r i with
        | error e => rw [hsv] at h; cases h
        | ok saved =>
          rw [hsv] at h
          simp only at h
          by_cases hskip : saved = true ∧ force = false
          · -- nothing to do
            rw [if_pos hskip] at h
            cases hrf : (w.heap i).ref with
            | none => rw [hrf] at h; cases h
            | some ref0 =>
              rw [hrf] at h
              simp only [Prod.mk.injEq, Except.ok.injEq] at h
              obtain ⟨rfl, rfl⟩ := h
              rw [hskip.1] at hsv
              have hcl := clean_of_isSavedOn hsv
              have ht := htr1 hc
              obtain ⟨ref', g1, g2⟩ := ht i hiS hcl
              have hri : (w1.heap i).ref = some ref0 := by rw [href1]; exact hrf
              rw [hri] at g1
              injection g1 with g1
              subst g1
              exact ⟨st1, fun j hj => Or.inl (by rw [← hfl]; exact hj), hsv, g2, hri, hsh1, ht⟩
          · -- the content is stored
            rw [if_neg hskip] at h
            cases hx : mapOut C (writeOut C n (some r)) r force (w.heap i).body w1 with
            | mk res w2 =>
              rw [hx] at h
              cases res with
              | error e => cases h
              | ok ref0 =>
                simp only [Prod.mk.injEq, Except.ok.injEq] at h
                obtain ⟨rfl, hw'⟩ := h
                have heff : w'.eff = w2.eff := by rw [← hw']; rfl
                have hc2 : CollisionFree C w2.eff := by rw [← heff]; exact hc
                have a2 := (closed_any C r).mapOut (wr := writeOut C n (some r))
                  (writeOut_any hr n) force (w.heap i).body w1
                rw [hx] at a2
                have hc1 := hc2.mono (a2.grows (st1.nodup hnd))
                -- the objects being written from here on
                let S' : Scope := ⟨fun p => S p ∨ (p = i ∧ ¬ Clean r w1.heap i), S.dom⟩
                have hS' : ∀ p, ¬ S p → p ≠ i → ¬ S' p := by
                  rintro p hp hpi (h | h)
                  · exact hp h
                  · exact hpi h.1
                have hsh' : Shape r S' w1.heap := by
                  constructor
                  · exact hsh1.closed
                  · intro p hp h1 h2 k hk hks
                    have hpS : ¬ S p := fun h => hp (Or.inl h)
                    rcases hks with h | ⟨rfl, h⟩
                    · exact hsh1.apart p hpS h1 h2 k hk h
                    · rw [hfl] at h1
                      rw [(st1.same p).mapped] at h2
                      rw [(st1.same p).body] at hk
                      exact h ((hcl1 k).mpr (hen.parents p hpS h1 h2 hk))
                  · intro p hp
                    exact hsh1.alone p (fun h => hp (Or.inl h))
                have env : Env C r rank S' i w1 := by
                  refine ⟨st1.nodup hnd, hrk.mono st1.same, hsto.mono st1.same, hsh', ?_, ?_, ?_, hm1, hen.dom⟩
                  · intro p hp
                    exact htr1 hc1 p (fun h => hp (Or.inl h))
                  · by_cases hcl : Clean r w1.heap i
                    · exact Or.inr hcl
                    · exact Or.inl (Or.inr ⟨rfl, hcl⟩)
                  · rintro s (hs | ⟨rfl, _⟩)
                    · exact Nat.le_of_lt (hen.below s hs)
                    · exact Nat.le_refl _
                rw [← hbody1] at hx
                have hal1 : Alone r w1.heap i := hal.step st1
                have mp := mapOut_post hr ih env hal1 hx hc2
                have hk1 : (w1.heap i).kind = (w.heap i).kind := (st1.same i).kind
                have hm2 : (w2.heap i).mapped = true := (mp.step.same i).mapped.trans hm1
                have hk2 : (w2.heap i).kind = (w1.heap i).kind := (mp.step.same i).kind
                have hb2 : (w2.heap i).body = (w1.heap i).body := (mp.step.same i).body
                -- the last step: the object is marked as saved
                have hh' : w'.heap = w2.heap.set i { w2.heap i with
                    ref := some ref0, savedOn := r :: (w2.heap i).savedOn } := by rw [← hw']
                have hself : w'.heap i = { w2.heap i with
                    ref := some ref0, savedOn := r :: (w2.heap i).savedOn } := by rw [hh']; simp
                have hne : ∀ j, j ≠ i → w'.heap j = w2.heap j := by
                  intro j hj; rw [hh', Heap.set_ne hj]
                have st2 : Wrote r (pubName (w.heap i).kind) w2 w' := by
                  have a := any_upd (r := r) (w := w2) (i := i) (o := { w2.heap i with
                    ref := some ref0, savedOn := r :: (w2.heap i).savedOn }) hm2 rfl rfl
                    (fun _ h => List.mem_cons_of_mem _ h)
                    (fun x hx h => (List.mem_cons.mp h).resolve_left hx)
                    ((a2.realm i).elim (fun e => e.trans (by rw [hh1]; simp)) id)
                  rw [hw'] at a
                  refine ⟨a.same, a.saved, a.other, by rw [heff]; exact Grows.refl _, ?_, ?_, ?_, ?_⟩
                  · intro x m; right; rw [← hw']
                  · intro j
                    by_cases hj : j = i
                    · subst hj; rw [hself]; exact Or.inr ⟨ref0, rfl, mp.direct⟩
                    · rw [hne j hj]; exact Or.inl ⟨rfl, id⟩
                  · rw [← hw']
                  · rw [← hw']; exact id
                have st : Wrote r (pubName (w.heap i).kind) w w' := by
                  have := mp.step
                  rw [hk1] at this
                  exact (st1.trans this).trans st2
                have hunf : r ∈ (w2.heap i).savedOn ∨ ∀ p, ¬ (S p ∨ p = i) →
                    r ∈ (w2.heap p).savedOn → (w2.heap p).mapped = true →
                    ∀ k ∈ (w2.heap p).body.subs, ¬ (S k ∨ k = i) := by
                  by_cases hcl : Clean r w1.heap i
                  · exact Or.inl (mp.step.saved i r hcl.flag)
                  · right
                    intro p hp h1 h2 k hk hks
                    refine mp.shape.apart p (hS' p (fun h => hp (Or.inl h)) fun h => hp (Or.inr h))
                      h1 h2 k hk ?_
                    rcases hks with h | h
                    · exact Or.inl h
                    · exact Or.inr ⟨h, hcl⟩
                have hback : ∀ p, ¬ S p → p ≠ i → Clean r w'.heap p → Clean r w2.heap p := by
                  intro p hp hpi hcl
                  refine clean_unflag (S := S) st2.same ?_ hunf hcl ?_
                  · intro j hj hjr; rw [hne j hj] at hjr; exact hjr
                  · rintro (h | h)
                    · exact hp h
                    · exact hpi h
                have hkids : ∀ k ∈ (w'.heap i).body.subs, isSavedOn n w'.heap r k = .ok true := by
                  intro k hk
                  rw [(st2.same i).body, hb2] at hk
                  exact isSavedOn_mono st2.same (fun j => st2.saved j r) (mp.kids k hk)
                have hsaved : isSavedOn (n + 1) w'.heap r i = .ok true := by
                  rw [isSavedOn_true]
                  refine ⟨by rw [hself]; exact List.mem_cons_self .., fun _ => hkids⟩
                have hcleani := clean_of_isSavedOn hsaved
                -- content seen before and after the mark
                have hgoodof : ∀ p ref', Good C r w2.eff w2.heap p ref' →
                    Good C r w'.eff w'.heap p ref' := by
                  intro p ref' hg
                  refine hg.mono st2.grows hc ?_ st2.same ?_
                  · intro j x ref'' loc _ _ _ _ _; right; rw [heff]
                  · intro loc _ _; right; rw [heff]
                have hgood2 : Good C r w2.eff w2.heap i ref0 := by
                  refine StoredAs.good hm2 ?_ ?_
                  · rw [hk2]; exact mp.refok
                  · rw [hk2, hb2]; exact mp.stored
                have hgood := hgoodof i ref0 hgood2
                have hrefi : (w'.heap i).ref = some ref0 := by rw [hself]
                refine ⟨st, ?_, hsaved, hgood, hrefi, ?_, ?_⟩
                · intro j hj
                  by_cases hji : j = i
                  · subst hji; exact Or.inr ⟨hcleani, Nat.le_refl _⟩
                  · rw [hne j hji] at hj
                    rcases mp.fresh j hj with h | h
                    · left; rw [← hfl]; exact h
                    · exact Or.inr ⟨st2.clean h.1, Nat.le_of_lt h.2⟩
                · constructor
                  · intro p hd h2 k hk
                    rw [(st.same p).mapped] at h2
                    rw [(st.same p).body] at hk
                    exact hsh.closed p hd h2 k hk
                  · intro p hp h1 h2 k hk hks
                    by_cases hpi : p = i
                    · subst hpi
                      have hk0 : k ∈ (w.heap p).body.subs := by
                        rw [(st.same p).body] at hk; exact hk
                      have h3 := hrk p hm k hk0
                      exact Nat.lt_irrefl _ (Nat.lt_trans h3 (hen.below k hks))
                    · rw [hne p hpi] at h1 h2 hk
                      exact mp.shape.apart p (hS' p hp hpi) h1 h2 k hk (Or.inl hks)
                  · intro p hp h1 h2 k hk hncl q hd hq hkq
                    by_cases hpi : p = i
                    · subst hpi
                      exact absurd (clean_of_isSavedOn (hkids k hk)) hncl
                    · rw [hne p hpi] at h1 h2 hk
                      rw [(st2.same q).mapped] at hq
                      rw [(st2.same q).body] at hkq
                      exact mp.shape.alone p (hS' p hp hpi) h1 h2 k hk
                        (fun h => hncl (st2.clean h)) q hd hq hkq
                · intro p hp hcl
                  by_cases hpi : p = i
                  · subst hpi; exact ⟨ref0, hrefi, hgood⟩
                  · obtain ⟨ref', g1, g2⟩ := mp.truth p (hS' p hp hpi) hpi (hback p hp hpi hcl)
                    exact ⟨ref', by rw [hne p hpi]; exact g1, hgoodof p ref' g2⟩
    · -- an object that is not loaded
      have hm' : (w.heap i).mapped = false := by simpa using hm
      rw [writeOut_away hm'] at h
      cases hrl : (w.heap i).realm with
      | none => rw [hrl] at h; cases h
      | some x =>
        cases hrf : (w.heap i).ref with
        | none => rw [hrl, hrf] at h; cases h
        | some ref0 =>
          rw [hrl, hrf] at h
          simp only at h
          split at h
          · rename_i hfl
            simp only [Prod.mk.injEq, Except.ok.injEq] at h
            obtain ⟨rfl, rfl⟩ := h
            have hcl : Clean r w.heap i := Clean.mk i hfl fun h => by rw [hm'] at h; cases h
            obtain ⟨ref', g1, g2⟩ := htr i hiS hcl
            rw [hrf] at g1
            injection g1 with g1
            subst g1
            refine ⟨Wrote.refl _ _ _, fun j hj => Or.inl hj, ?_, g2, hrf, hsh, htr⟩
            rw [isSavedOn_true]
            exact ⟨hfl, fun h => by rw [hm'] at h; cases h⟩
          · cases h

end

end MM
