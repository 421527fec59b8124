/-
A write that fails: what is left in memory and in the repository.
-/
import Verif.WriteOk

namespace MM

/-- Git commands that store objects, and bookkeeping: no object in memory and no name changes. -/
structure Silent (r : Realm) (w w' : World) : Prop where
  any : Any r w w'
  heap : w'.heap = w.heap
  refs : ∀ x n, refOf w'.repo.log x n = refOf w.repo.log x n

theorem Silent.refl (r : Realm) (w : World) : Silent r w w := ⟨Any.refl r w, rfl, fun _ _ => rfl⟩

theorem Silent.trans {r : Realm} {a b c : World} (h : Silent r a b) (h' : Silent r b c) : Silent r a c :=
  ⟨h.any.trans h'.any, h'.heap.trans h.heap, fun x n => (h'.refs x n).trans (h.refs x n)⟩

theorem Silent.quiet {r : Realm} {w w' : World} (h : Silent r w w') (hn : (dkeys w.caches).Nodup) : Quiet w w' :=
  ⟨h.heap, h.any.next, h.any.grows hn, h.refs, h.any.nodup⟩

section
variable {C : Cfg} {r : Realm}

theorem gitCmd_silent {α : Type} {cmd : Log → List GitOp × Except PyErr α}
    (hr : ∀ L, ∀ op ∈ (cmd L).1, ∃ o, op = .save r o) : M.Keeps (liftG (gitCmd cmd)) (Silent r) := by
  intro w
  refine ⟨gitCmd_any (fun L op ho => by obtain ⟨o, rfl⟩ := hr L op ho; rfl) w, rfl, ?_⟩
  obtain ⟨k, hk⟩ := gitCmd_log cmd w.repo
  intro x n
  show refOf (gitCmd cmd w.repo).2.log x n = _
  rw [hk, refOf_append_saves]
  intro op hop
  obtain ⟨o, rfl⟩ := hr _ op (List.mem_of_mem_take (List.mem_reverse.mp hop))
  exact ⟨r, o, rfl⟩

theorem gitSaveStr_silent (s : Str) : M.Keeps (liftG (gitSaveStr C r s)) (Silent r) :=
  gitCmd_silent fun _ _ ho => ⟨_, List.mem_singleton.mp ho⟩

theorem gitSaveTree_silent (es : List TreeEntry) : M.Keeps (liftG (gitSaveTree C r es)) (Silent r) := by
  refine gitCmd_silent fun L op => ?_
  split
  · intro ho; exact ⟨_, List.mem_singleton.mp ho⟩
  · intro ho; cases ho

theorem gitSaveBlobs_silent (bs : List Str) : M.Keeps (liftG (gitSaveBlobs C r bs)) (Silent r) :=
  gitCmd_silent fun _ _ ho => by obtain ⟨s, _, rfl⟩ := List.mem_map.mp ho; exact ⟨_, rfl⟩

theorem addRef_silent (b : Bool) (h : Option Str) : M.Keeps (addRef b h) (Silent r) := by
  intro w
  refine ⟨addRef_any r b h w, ?_, fun x n => ?_⟩ <;>
  · unfold addRef
    cases h with
    | none => rfl
    | some h => simp only; split <;> rfl

theorem cacheRealm_silent : M.Keeps (cacheRealm r) (Silent r) := by
  intro w
  refine ⟨cacheRealm_any r w, ?_, fun x n => ?_⟩ <;>
  · unfold cacheRealm
    cases dget w.caches r <;> rfl

theorem flushCache_silent : M.Keeps (flushCache C r) (Silent r) := by
  intro w
  have key : (flushCache C r w).2.heap = w.heap ∧ ∀ x n, refOf (flushCache C r w).2.repo.log x n = refOf w.repo.log x n := by
    unfold flushCache
    rw [M.bind_of_ok (M.get_run w)]
    cases dget w.caches r with
    | none => exact ⟨rfl, fun _ _ => rfl⟩
    | some bs =>
      have h1 := gitSaveBlobs_silent (C := C) (r := r) bs w
      cases hx : liftG (gitSaveBlobs C r bs) w with
      | mk res w1 =>
        rw [hx] at h1
        cases res with
        | error e => simp only; rw [M.bind_of_error hx]; exact ⟨h1.heap, h1.refs⟩
        | ok hs => simp only; rw [M.bind_of_ok hx]; exact ⟨h1.heap, h1.refs⟩
  exact ⟨flushCache_any C r w, key.1, key.2⟩

theorem saveBlob_silent (s : Str) : M.Keeps (saveBlob C r s) (Silent r) := by
  intro w
  have key : (saveBlob C r s w).2.heap = w.heap ∧ ∀ x n, refOf (saveBlob C r s w).2.repo.log x n = refOf w.repo.log x n := by
    unfold saveBlob
    rw [M.bind_of_ok (M.get_run w)]
    cases dget w.caches r with
    | none => exact ⟨(gitSaveStr_silent s w).heap, (gitSaveStr_silent s w).refs⟩
    | some bs =>
      simp only
      unfold cacheBlob
      rw [M.bind_of_ok (M.get_run w)]
      split
      · have h1 := flushCache_silent (C := C) (r := r) w
        cases hx : flushCache C r w with
        | mk res w1 =>
          rw [hx] at h1
          cases res with
          | error e => rw [M.bind_of_error hx]; exact ⟨h1.heap, h1.refs⟩
          | ok u => rw [M.bind_of_ok hx]; exact ⟨h1.heap, h1.refs⟩
      · exact ⟨rfl, fun _ _ => rfl⟩
  exact ⟨saveBlob_any C r s w, key.1, key.2⟩

theorem flushRealm_silent : M.Keeps (flushRealm C r) (Silent r) := by
  intro w
  have key : (flushRealm C r w).2.heap = w.heap ∧ ∀ x n, refOf (flushRealm C r w).2.repo.log x n = refOf w.repo.log x n := by
    unfold flushRealm
    rw [M.bind_of_ok (M.get_run w)]
    cases dget w.caches r with
    | none => exact ⟨rfl, fun _ _ => rfl⟩
    | some bs =>
      simp only
      have h1 := flushCache_silent (C := C) (r := r) w
      cases hx : flushCache C r w with
      | mk res w1 =>
        rw [hx] at h1
        cases res with
        | error e => rw [M.bind_of_error hx]; exact ⟨h1.heap, h1.refs⟩
        | ok u => rw [M.bind_of_ok hx]; exact ⟨h1.heap, h1.refs⟩
  exact ⟨flushRealm_any C r w, key.1, key.2⟩

/-- A relation that holds for all steps of writing but setting names and marking objects. -/
structure Gentle (C : Cfg) (r : Realm) (R : World → World → Prop) : Prop where
  refl : ∀ w, R w w
  trans : ∀ a b c, R a b → R b c → R a c
  silent : ∀ w w', Silent r w w' → R w w'

section
variable {R : World → World → Prop}

theorem Gentle.of (c : Gentle C r R) {α : Type} {x : W α} (h : M.Keeps x (Silent r)) : M.Keeps x R :=
  fun w => c.silent _ _ (h w)

theorem Gentle.bind (c : Gentle C r R) {α β : Type} {x : W α} {f : α → W β} (hx : M.Keeps x R)
    (hf : ∀ a, M.Keeps (f a) R) : M.Keeps (x >>= f) R := M.Keeps.bind c.trans hx hf

theorem Gentle.pure (c : Gentle C r R) {α : Type} (a : α) : M.Keeps (Pure.pure a : W α) R :=
  M.Keeps.pure c.refl a

theorem Gentle.proxyWrite (c : Gentle C r R) {wr : W Ref} (h : M.Keeps wr R) : M.Keeps (proxyWrite wr) R := by
  refine c.bind h fun ref => ?_
  split
  · exact c.pure _
  · exact c.bind (c.of (addRef_silent _ _)) fun _ => c.pure _

theorem Gentle.fileTreeWrite (c : Gentle C r R) {wr : W Ref} (h : M.Keeps wr R) :
    M.Keeps (fileTreeWrite C (some r) wr) R :=
  fileTreeWrite_keeps c.refl c.trans (c.of cacheRealm_silent) (c.of flushRealm_silent)
    (fun _ _ => c.of (addRef_silent _ _)) wr h

theorem Gentle.versions (c : Gentle C r R) {wr : ObjId → W Ref} {kids : List (Key × (Str × ObjId))}
    (h : ∀ e ∈ kids, M.Keeps (wr e.2.2) R) : M.Keeps (writeVersionList C wr r kids) R := by
  refine c.bind (M.Keeps.forEach c.refl c.trans fun e he => ?_) fun js => c.of (gitSaveStr_silent _)
  refine c.bind ?_ fun _ => c.pure _
  refine c.bind (fun w => c.refl w) fun o => ?_
  split
  · exact c.proxyWrite (h e he)
  · exact h e he

theorem Gentle.uuids (c : Gentle C r R) {wr : ObjId → W Ref} {kids : List (Key × (Str × ObjId))}
    (h : ∀ e ∈ kids, M.Keeps (wr e.2.2) R) :
    M.Keeps (M.forEach (fun e : Key × (Str × ObjId) => do
      let ref ← wr e.2.2
      Pure.pure (⟨false, locText ref, e.1.entryName⟩ : TreeEntry)) kids >>= fun es => liftG (gitSaveTree C r es)) R := by
  refine c.bind (M.Keeps.forEach c.refl c.trans fun e he => ?_) fun es => c.of (gitSaveTree_silent _)
  exact c.bind (h e he) fun _ => c.pure _

/-- Storing an object that has no name -/
theorem Gentle.mapOut (c : Gentle C r R) {wr : Bool → ObjId → W Ref} {b : Body ObjId}
    (h : ∀ j ∈ b.subs, M.Keeps (wr false j) R) (hp : pubName b.data.kind = none) :
    M.Keeps (mapOut C wr r false b) R := by
  have hsub : ∀ e ∈ b.kids, M.Keeps (wr false e.2.2) R := fun e he => h _ (List.mem_map.mpr ⟨e, he, rfl⟩)
  have hget : ∀ k e, dget b.kids k = some e → M.Keeps (wr false e.2) R := fun k e he =>
    h _ (List.mem_map.mpr ⟨_, mem_of_dget he, rfl⟩)
  unfold MM.mapOut
  split
  · exact c.bind (c.of (gitSaveStr_silent _)) fun _ => c.pure _
  · exact c.bind (c.of (saveBlob_silent _)) fun _ => c.bind (c.of (addRef_silent _ _)) fun _ =>
      c.bind (c.of (saveBlob_silent _)) fun _ => c.pure _
  · split
    · exact c.pure _
    · refine c.bind (M.Keeps.forEach c.refl c.trans fun e he => ?_) fun es =>
        c.bind (c.of (gitSaveTree_silent _)) fun _ => c.pure _
      exact c.bind (hsub e he) fun _ => c.bind (fun w => c.refl w) fun _ => c.pure _
  · refine c.bind ?_ fun ft => c.bind ?_ fun dlm => c.bind (c.of (gitSaveStr_silent _)) fun _ => c.pure _
    · cases hd : dget b.kids Key.ft with
      | none => exact c.pure _
      | some e =>
        refine c.bind (c.fileTreeWrite (hget _ e hd)) fun ref => ?_
        split
        · exact c.pure _
        · exact c.bind (c.of (addRef_silent _ _)) fun _ => c.pure _
    · cases hd : dget b.kids Key.dlm with
      | none => exact c.pure _
      | some e => exact c.bind (hget _ e hd) fun ref => c.bind (c.of (addRef_silent _ _)) fun _ => c.pure _
  · exact c.bind (c.versions hsub) fun _ => c.pure _
  · rename_i hd; rw [hd] at hp; cases hp
  · rename_i hd; rw [hd] at hp; cases hp

end

/-! ### A failing write -/

/-- Of the objects below an object, those marked as saved are saved with all their parts. -/
def NoHalf (r : Realm) (h : Heap) (i : ObjId) : Prop :=
  ∀ p, Reach h i p → r ∈ (h p).savedOn → Clean r h p

section
variable {rank : ObjId → Nat} {S : Scope} {i : ObjId} {n : Nat} {body : Body ObjId}

theorem NoHalf.step {w w' : World} (h : NoHalf r w.heap i) (hs : ∀ j, SameObj (w.heap j) (w'.heap j))
    (hsv : ∀ j x, x ∈ (w.heap j).savedOn → x ∈ (w'.heap j).savedOn)
    (hf : ∀ j, r ∈ (w'.heap j).savedOn → r ∈ (w.heap j).savedOn ∨ Clean r w'.heap j) : NoHalf r w'.heap i := by
  intro p hp hx
  rcases hf p hx with e | e
  · exact (h p (hp.mono hs) e).mono hs fun j => hsv j r
  · exact e

theorem NoHalf.kid {h : Heap} (hh : NoHalf r h i) (hm : (h i).mapped = true) {c : ObjId} (hc : c ∈ (h i).body.subs) :
    NoHalf r h c := fun p hp => hh p (Reach.step i c p hm hc hp)

/-- Writing parts of an object, whatever the outcome -/
def PartWrite (C : Cfg) (r : Realm) (rank : ObjId → Nat) (S : Scope) (i : ObjId) (body : Body ObjId)
    (w w' : World) : Prop :=
  Any r w w' ∧ (CollisionFree C w'.eff → Env C r rank S i w → (w.heap i).body = body → NoHalf r w.heap i →
    Mid C r rank S (rank i) w w')

theorem NoHalf.mid {w w' : World} {m : Nat} (h : NoHalf r w.heap i) (hm : Mid C r rank S m w w') : NoHalf r w'.heap i :=
  h.step hm.step.same hm.step.saved fun j hj => (hm.fresh j hj).imp id fun e => e.1

theorem gentle_part : Gentle C r (PartWrite C r rank S i body) where
  refl w := ⟨Any.refl r w, fun hc env _ _ => (Quiet.refl w).mid hc env.shape env.truth⟩
  trans a b c h h' := by
    refine ⟨h.1.trans h'.1, fun hc env hb hh => ?_⟩
    have m1 := h.2 (hc.mono (h'.1.grows (h.1.nodup env.nodup))) env hb hh
    exact m1.trans (h'.2 hc (env.mid m1) ((m1.step.same i).body.trans hb) (hh.mid m1))
  silent w w' h := ⟨h.any, fun hc env _ _ => (h.quiet env.nodup).mid hc env.shape env.truth⟩

/-- What holds after writing an object failed. -/
structure FailPost (C : Cfg) (r : Realm) (rank : ObjId → Nat) (S : Scope) (i : ObjId) (w w' : World) : Prop where
  step : Wrote r (pubName (w.heap i).kind) w w'
  fresh : ∀ j, r ∈ (w'.heap j).savedOn → r ∈ (w.heap j).savedOn ∨ (Clean r w'.heap j ∧ rank j ≤ rank i)
  shape : Shape r S w'.heap
  truth : ∀ p, ¬ S p → Truth C r w'.eff w'.heap p

/-- The claim about a `write_out` that fails, with recursion limit `n`. -/
def FailSpec (C : Cfg) (r : Realm) (rank : ObjId → Nat) (n : Nat) : Prop :=
  ∀ (S : Scope) (i : ObjId) (w w' : World) (e : PyErr),
    writeOut C n (some r) false i w = (.error e, w') → CollisionFree C w'.eff →
    (dkeys w.caches).Nodup → Ranked rank w.heap → Storable w.heap i → Shape r S w.heap →
    (∀ p, ¬ S p → Truth C r w.eff w.heap p) → Entry r rank S w.heap i → Alone r w.heap i →
    NoHalf r w.heap i → FailPost C r rank S i w w'

theorem part_kid (hr : r ≠ []) (ih : FailSpec C r rank n) {c : ObjId} (hc : c ∈ body.subs) :
    M.Keeps (writeOut C n (some r) false c) (PartWrite C r rank S i body) := by
  intro w
  refine ⟨writeOut_any hr n false c w, fun hcf env hb hh => ?_⟩
  cases hx : writeOut C n (some r) false c w with
  | mk res w' =>
    rw [hx] at hcf
    cases res with
    | ok ref => exact (kidSpec_wr (writeSpec C hr rank n) hc false w w' ref hx hcf env hb).1
    | error e =>
      have hk : c ∈ (w.heap i).body.subs := by rw [hb]; exact hc
      have hpub : pubName (w.heap c).kind = none := by
        have hbo := env.storable i (Reach.refl i) env.mapped
        obtain ⟨e, he, rfl⟩ := List.mem_map.mp hk
        exact pubName_slot (hbo.slots e he)
      have p := ih S c w w' e hx hcf env.nodup env.ranked (env.storable.kid env.mapped hk)
        env.shape env.truth (env.entry hk) (fun nm h => by rw [hpub] at h; cases h) (hh.kid env.mapped hk)
      have hst := p.step
      rw [hpub] at hst
      refine ⟨hst, ?_, p.shape, p.truth⟩
      intro j hj
      rcases p.fresh j hj with h | h
      · exact Or.inl h
      · exact Or.inr ⟨h.1, Nat.lt_of_le_of_lt h.2 (env.ranked i env.mapped c hk)⟩

theorem bind_error {α β : Type} {x : W α} {f : α → W β} {w w' : World} {e : PyErr} (h : (x >>= f) w = (.error e, w')) :
    x w = (.error e, w') ∨ ∃ a w1, x w = (.ok a, w1) ∧ f a w1 = (.error e, w') := by
  cases hx : x w with
  | mk res w1 =>
    cases res with
    | error e1 => rw [M.bind_of_error hx] at h; cases h; exact Or.inl rfl
    | ok a => rw [M.bind_of_ok hx] at h; exact Or.inr ⟨a, w1, rfl, h⟩

/-- Storing an object that has a name fails while it is stored, or when the name is set. -/
theorem mapOut_pub_error {R : World → World → Prop} (c : Gentle C r R) {wr : Bool → ObjId → W Ref} {b : Body ObjId}
    (h : ∀ j ∈ b.subs, M.Keeps (wr false j) R) {nm : Str} (hp : pubName b.data.kind = some nm) {w w' : World} {e : PyErr}
    (hx : mapOut C wr r false b w = (.error e, w')) :
    R w w' ∨ ∃ w1 hash, R w w1 ∧ liftG (gitUpdateRef C r nm hash) w1 = (.error e, w') := by
  have hsub : ∀ e ∈ b.kids, M.Keeps (wr false e.2.2) R := fun e he => h _ (List.mem_map.mpr ⟨e, he, rfl⟩)
  unfold MM.mapOut at hx
  cases hd : b.data <;> rw [hd] at hp <;> first | (cases hp; done) | skip
  · cases hp
    rw [hd] at hx
    simp only at hx
    have h1 := c.versions (C := C) hsub w
    rcases bind_error hx with e1 | ⟨a, w1, e1, hx⟩
    · rw [e1] at h1; exact Or.inl h1
    · rw [e1] at h1
      rcases bind_error hx with e2 | ⟨_, w2, _, hx⟩
      · exact Or.inr ⟨w1, a, h1, e2⟩
      · cases hx
  · cases hp
    rw [hd] at hx
    simp only at hx
    have h0 := M.Keeps.forEach (R := R) c.refl c.trans (f := fun e : Key × (Str × ObjId) => do
      let ref ← wr false e.2.2
      Pure.pure (⟨false, locText ref, e.1.entryName⟩ : TreeEntry)) (l := b.kids)
      (fun e he => c.bind (hsub e he) fun _ => c.pure _) w
    rcases bind_error hx with e1 | ⟨es, w1, e1, hx⟩
    · rw [e1] at h0; exact Or.inl h0
    · rw [e1] at h0
      have h1 := gitSaveTree_silent (C := C) (r := r) es w1
      rcases bind_error hx with e2 | ⟨a, w2, e2, hx⟩
      · rw [e2] at h1; exact Or.inl (c.trans _ _ _ h0 (c.silent _ _ h1))
      · rw [e2] at h1
        rcases bind_error hx with e3 | ⟨_, w3, _, hx⟩
        · exact Or.inr ⟨w2, a, c.trans _ _ _ h0 (c.silent _ _ h1), e3⟩
        · cases hx

/-- Setting a name fails: the name may be set nevertheless. -/
theorem updateRef_error {w w' : World} {nm hash : Str} {e : PyErr}
    (h : liftG (gitUpdateRef C r nm hash) w = (.error e, w')) :
    w'.heap = w.heap ∧ Wrote r (some nm) w w' := by
  have e1 : w' = { w with repo := (gitUpdateRef C r nm hash w.repo).2 } := by
    have : (liftG (gitUpdateRef C r nm hash) w).2 = w' := by rw [h]
    rw [← this]; rfl
  subst e1
  obtain ⟨k, hk⟩ := gitCmd_log (fun L => match resolve C L r hash with
    | some _ => ([GitOp.setRef r nm hash], Except.ok ())
    | none => ([], .error PyErr.runtime)) w.repo
  refine ⟨rfl, ⟨fun _ => SameObj.refl _, fun _ _ h => h, fun _ _ _ h => h, grows_eff rfl hk, ?_,
      fun _ => Or.inl ⟨rfl, id⟩, rfl, id⟩⟩
  intro x m
  by_cases hx : r = x ∧ nm = m
  · left; exact ⟨hx.1.symm, by rw [hx.2]⟩
  · right
    have hl : (gitUpdateRef C r nm hash w.repo).2.log = _ := hk
    show refOf (gitUpdateRef C r nm hash w.repo).2.log x m = _
    rw [hl]
    cases resolve C w.repo.log r hash with
    | none => simp
    | some o =>
      cases k with
      | zero => simp
      | succ k =>
        simp only [List.take_succ_cons, List.take_nil, List.reverse_cons, List.reverse_nil, List.nil_append,
          List.cons_append, refOf, if_neg hx]

/-- Storing the content of an object fails: the parts that were written are stored, and the object
itself is not marked. -/
theorem mapOut_fail (hr : r ≠ []) (ih : FailSpec C r rank n) {w w' : World} {e : PyErr}
    (env : Env C r rank S i w) (ha : Alone r w.heap i) (hh : NoHalf r w.heap i)
    (hx : mapOut C (writeOut C n (some r)) r false (w.heap i).body w = (.error e, w')) (hc : CollisionFree C w'.eff) :
    Wrote r (pubName (w.heap i).kind) w w' ∧
    (∀ j, r ∈ (w'.heap j).savedOn → r ∈ (w.heap j).savedOn ∨ (Clean r w'.heap j ∧ rank j < rank i)) ∧
    Shape r S w'.heap ∧ (∀ p, ¬ S p → p ≠ i → Truth C r w'.eff w'.heap p) := by
  have hkids : ∀ j ∈ (w.heap i).body.subs, M.Keeps (writeOut C n (some r) false j)
      (PartWrite C r rank S i (w.heap i).body) := fun j hj => part_kid hr ih hj
  have done : ∀ w1, PartWrite C r rank S i (w.heap i).body w w1 → CollisionFree C w1.eff →
      Mid C r rank S (rank i) w w1 := fun w1 h1 hc1 => h1.2 hc1 env rfl hh
  cases hp : pubName (w.heap i).kind with
  | none =>
    have h1 := gentle_part.mapOut hkids hp w
    rw [hx] at h1
    have m := done w' h1 hc
    exact ⟨m.step, m.fresh, m.shape, fun p hp _ => m.truth p hp⟩
  | some nm =>
    rcases mapOut_pub_error gentle_part hkids hp hx with h1 | ⟨w1, hash, h1, h2⟩
    · have m := done w' h1 hc
      exact ⟨m.step.weaken, m.fresh, m.shape, fun p hp _ => m.truth p hp⟩
    · obtain ⟨he, hs⟩ := updateRef_error h2
      have m := done w1 h1 (hc.mono hs.grows)
      have ha2 := ha.step m.step
      have hm2 := (m.step.same i).mapped.trans env.mapped
      have hp2 : pubName (w1.heap i).kind = some nm := by rw [(m.step.same i).kind]; exact hp
      refine ⟨m.step.weaken.trans hs, ?_, m.shape.of_same he, ?_⟩
      · intro j hj
        rw [he] at hj ⊢
        exact m.fresh j hj
      · intro p hpS hpi hcl
        rw [he] at hcl
        obtain ⟨ref', g1, g2⟩ := m.truth p hpS hcl
        refine ⟨ref', by rw [he]; exact g1, g2.pub hs hp2 hm2 ha2 hc ?_⟩
        intro hloc
        exact (ha2 nm hp2 p hpi ref' g1 hloc).1 hcl.flag

theorem failSpec (C : Cfg) {r : Realm} (hr : r ≠ []) (rank : ObjId → Nat) (n : Nat) : FailSpec C r rank n := by
  induction n with
  | zero =>
    intro S i w w' e h _ _ _ _ hsh htr _ _ _
    cases h
    exact ⟨Wrote.refl _ _ _, fun j hj => Or.inl hj, hsh, htr⟩
  | succ n ih =>
    intro S i w w' e h hc hnd hrk hsto hsh htr hen hal hh
    have same : w' = w → FailPost C r rank S i w w' := by
      rintro rfl
      exact ⟨Wrote.refl _ _ _, fun j hj => Or.inl hj, hsh, htr⟩
    by_cases hm : (w.heap i).mapped = true
    · have st1 := realm_step (r := r) (pubName (w.heap i).kind) hm
      have st1' := realm_step (r := r) none hm
      have hfl : ∀ j, ((w.heap.set i { w.heap i with realm := some r }) j).savedOn =
          (w.heap j).savedOn := by
        intro j
        by_cases hj : j = i
        · subst hj; simp
        · simp [Heap.set_ne hj]
      have href1 : ∀ j, ((w.heap.set i { w.heap i with realm := some r }) j).ref = (w.heap j).ref := by
        intro j
        by_cases hj : j = i
        · subst hj; simp
        · simp [Heap.set_ne hj]
      have hbody1 : ((w.heap.set i { w.heap i with realm := some r }) i).body = (w.heap i).body := by
        simp
      generalize hw1 : ({ w with heap := w.heap.set i { w.heap i with realm := some r } } : World)
        = w1 at st1 st1'
      have hh1 : w1.heap = w.heap.set i { w.heap i with realm := some r } := by rw [← hw1]
      rw [← hh1] at hfl href1 hbody1
      have hm1 : (w1.heap i).mapped = true := (st1.same i).mapped.trans hm
      have hcl1 : ∀ p, Clean r w1.heap p ↔ Clean r w.heap p := fun p => flags_clean st1.same hfl
      have htr1 : ∀ hcf : CollisionFree C w1.eff, ∀ p, ¬ S p → Truth C r w1.eff w1.heap p := by
        intro hcf p hp hcl
        obtain ⟨ref', g1, g2⟩ := htr p hp ((hcl1 p).mp hcl)
        exact ⟨ref', by rw [href1]; exact g1, g2.step st1' hcf⟩
      have hsh1 : Shape r S w1.heap := hsh.flags st1.same hfl
      have same1 : w' = w1 → FailPost C r rank S i w w' := by
        rintro rfl
        exact ⟨st1, fun j hj => Or.inl (by rw [← hfl]; exact hj), hsh1, htr1 hc⟩
      rw [writeOut_mapped hr hm hw1.symm] at h
      split at h
      · cases h; exact same rfl
      · cases hsv : isSavedOn (n + 1) w1.heap r i with
        | error e => rw [hsv] at h; cases h; exact same1 rfl
        | ok saved =>
          rw [hsv] at h
          simp only at h
          by_cases hskip : saved = true ∧ True
          · rw [if_pos hskip] at h
            cases hrf : (w.heap i).ref with
            | none => rw [hrf] at h; cases h; exact same1 rfl
            | some ref0 => rw [hrf] at h; cases h
          · rw [if_neg hskip] at h
            cases hx : mapOut C (writeOut C n (some r)) r false (w.heap i).body w1 with
            | mk res w2 =>
              rw [hx] at h
              cases res with
              | ok ref0 => cases h
              | error e0 =>
                simp only [Prod.mk.injEq, Except.error.injEq] at h
                obtain ⟨rfl, rfl⟩ := h
                have hsv' : isSavedOn (n + 1) w1.heap r i = .ok false := by
                  rw [hsv]
                  cases saved
                  · rfl
                  · exact absurd ⟨rfl, trivial⟩ hskip
                have hnc : ¬ Clean r w1.heap i := not_clean_of_isSavedOn hsv'
                have hnf : r ∉ (w1.heap i).savedOn := by
                  intro hx
                  rw [hfl] at hx
                  exact hnc ((hcl1 i).mpr (hh i (Reach.refl i) hx))
                have a2 := (closed_any C r).mapOut (wr := writeOut C n (some r))
                  (writeOut_any hr n) false (w.heap i).body w1
                rw [hx] at a2
                have hc1 := hc.mono (a2.grows (st1.nodup hnd))
                let S' : Scope := ⟨fun p => S p ∨ p = i, S.dom⟩
                have hsh' : Shape r S' w1.heap := by
                  constructor
                  · exact hsh1.closed
                  · intro p hp h1 h2 k hk hks
                    have hpS : ¬ S p := fun h => hp (Or.inl h)
                    rcases hks with h | rfl
                    · exact hsh1.apart p hpS h1 h2 k hk h
                    · rw [hfl] at h1
                      rw [(st1.same p).mapped] at h2
                      rw [(st1.same p).body] at hk
                      exact hnc ((hcl1 k).mpr (hen.parents p hpS h1 h2 hk))
                  · intro p hp
                    exact hsh1.alone p (fun h => hp (Or.inl h))
                have env : Env C r rank S' i w1 := by
                  refine ⟨st1.nodup hnd, hrk.mono st1.same, hsto.mono st1.same, hsh', ?_, Or.inl (Or.inr rfl), ?_, hm1, hen.dom⟩
                  · intro p hp
                    exact htr1 hc1 p (fun h => hp (Or.inl h))
                  · rintro s (hs | rfl)
                    · exact Nat.le_of_lt (hen.below s hs)
                    · exact Nat.le_refl _
                rw [← hbody1] at hx
                have hal1 : Alone r w1.heap i := hal.step st1
                have hhalf : NoHalf r w1.heap i := hh.step st1.same st1.saved fun j hj => Or.inl (by rw [← hfl]; exact hj)
                obtain ⟨g1, g2, g3, g4⟩ := mapOut_fail hr ih env hal1 hhalf hx hc
                have hk1 : (w1.heap i).kind = (w.heap i).kind := (st1.same i).kind
                rw [hk1] at g1
                have hnf' : r ∉ (w2.heap i).savedOn := by
                  intro hx
                  rcases g2 i hx with h | h
                  · exact hnf h
                  · exact Nat.lt_irrefl _ h.2
                have hS' : ∀ p, ¬ S p → p ≠ i → ¬ S' p := by
                  rintro p hp hpi (h | h)
                  · exact hp h
                  · exact hpi h
                refine ⟨st1.trans g1, ?_, ⟨g3.closed, ?_, ?_⟩, ?_⟩
                · intro j hj
                  rcases g2 j hj with h | h
                  · rw [hfl] at h; exact Or.inl h
                  · exact Or.inr ⟨h.1, Nat.le_of_lt h.2⟩
                · intro p hp h1 h2 k hk hks
                  have hpi : p ≠ i := by rintro rfl; exact hnf' h1
                  exact g3.apart p (hS' p hp hpi) h1 h2 k hk (Or.inl hks)
                · intro p hp h1
                  have hpi : p ≠ i := by rintro rfl; exact hnf' h1
                  exact g3.alone p (hS' p hp hpi) h1
                · intro p hp hcl
                  have hpi : p ≠ i := by rintro rfl; exact hnf' hcl.flag
                  exact g4 p (hS' p hp hpi) hpi hcl
    · rw [writeOut_away (by simpa using hm)] at h
      apply same
      split at h
      · split at h
        · cases h
        · cases h; rfl
      · cases h; rfl

end

end

end MM
