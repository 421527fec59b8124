/-
Writing succeeds: while git works, every object whose parts can be stored is written.
-/
import Verif.Blocked
import Verif.Listing

namespace MM

/-- Nothing below an object stands in the way of writing it to a repository: what is not
loaded is saved there, no node inside a tree is empty, and no set of datasets is empty. -/
structure Writable (r : Realm) (h : Heap) (i : ObjId) : Prop where
  away : ∀ j, Reach h i j → (h j).mapped = false →
    r ∈ (h j).savedOn ∧ (h j).realm ≠ none ∧ (h j).ref ≠ none
  inner : ∀ p, Reach h i p → (h p).mapped = true → (h p).kind.isMtree = true → ∀ c ∈ (h p).body.subs,
    (h c).kind.isMtree = true →
    ((h c).mapped = true → (h c).body.kids ≠ []) ∧
    ((h c).mapped = false → ∀ ref, (h c).ref = some ref → ref.isNone = false)
  sets : ∀ p, Reach h i p → (h p).mapped = true → (h p).kind = .uuidset → (h p).body.kids ≠ []

/-- Objects whose writing does not write a root record. -/
def Kind.small : Kind → Bool
  | .text | .metadata | .mtree .metadata | .mtree .text => true
  | _ => false

section
variable {C : Cfg} {r : Realm} {rank : ObjId → Nat} {S : Scope} {i : ObjId} {n : Nat}

theorem Writable.mono {h h' : Heap} (hs : ∀ j, SameObj (h j) (h' j))
    (hf : ∀ j, r ∈ (h j).savedOn → r ∈ (h' j).savedOn) (hw : Writable r h i) : Writable r h' i := by
  constructor
  · intro j hj hm
    have hm0 : (h j).mapped = false := (hs j).mapped.symm.trans hm
    obtain ⟨h1, h2, h3⟩ := hw.away j (hj.mono hs) hm0
    obtain ⟨e1, e2⟩ := (hs j).away hm0
    exact ⟨hf j h1, by rw [e1]; exact h2, by rw [e2]; exact h3⟩
  · intro p hp hm hk c hc hkc
    rw [(hs p).mapped] at hm
    rw [(hs p).kind] at hk
    rw [(hs p).body] at hc
    rw [(hs c).kind] at hkc
    obtain ⟨h1, h2⟩ := hw.inner p (hp.mono hs) hm hk c hc hkc
    refine ⟨fun hmc => ?_, fun hmc ref href => ?_⟩
    · rw [(hs c).body]; exact h1 ((hs c).mapped.symm.trans hmc)
    · have hm0 : (h c).mapped = false := (hs c).mapped.symm.trans hmc
      rw [((hs c).away hm0).2] at href
      exact h2 hm0 ref href
  · intro p hp hm hk
    rw [(hs p).body]
    exact hw.sets p (hp.mono hs) ((hs p).mapped.symm.trans hm) ((hs p).kind.symm.trans hk)

theorem Writable.kid {h : Heap} {c : ObjId} (hw : Writable r h i) (hm : (h i).mapped = true)
    (hc : c ∈ (h i).body.subs) : Writable r h c :=
  ⟨fun j hj => hw.away j (Reach.step i c j hm hc hj), fun p hp => hw.inner p (Reach.step i c p hm hc hp),
   fun p hp => hw.sets p (Reach.step i c p hm hc hp)⟩

/-! ### Commands while git works -/

/-- Git works from here on. -/
def Works (w : World) : Prop := w.repo.faults = []

theorem gitCmd_runs {α : Type} {cmd : Log → List GitOp × Except PyErr α} {s : Repo} (h : s.faults = []) :
    gitCmd cmd s = ((cmd s.log).2, ⟨(cmd s.log).1.reverse ++ s.log, []⟩) := by
  unfold gitCmd; rw [h]

theorem works_liftG_cmd {α : Type} {cmd : Log → List GitOp × Except PyErr α} {w : World} (h : Works w) :
    Works (liftG (gitCmd cmd) w).2 := by
  unfold Works liftG
  rw [gitCmd_runs h]

/-- A state in which git works stays one, whatever else happens. -/
def WorksOn (w w' : World) : Prop := Works w → Works w'

theorem worksOn_flushCache (C : Cfg) (x : Realm) : M.Keeps (flushCache C x) WorksOn := by
  intro w
  unfold flushCache
  rw [M.bind_of_ok (M.get_run w)]
  cases hd : dget w.caches x with
  | none => exact id
  | some bs =>
    simp only
    exact M.Keeps.bind (R := WorksOn) (fun _ _ _ h h' h0 => h' (h h0)) (fun w h => works_liftG_cmd h)
      (fun _ w h => h) w

theorem worksOn_saveBlob (C : Cfg) (x : Realm) (s : Str) : M.Keeps (saveBlob C x s) WorksOn := by
  intro w
  unfold saveBlob
  rw [M.bind_of_ok (M.get_run w)]
  cases hd : dget w.caches x with
  | none => exact fun h => works_liftG_cmd h
  | some bs =>
    simp only
    unfold cacheBlob
    rw [M.bind_of_ok (M.get_run w)]
    have fin : M.Keeps (do
        M.modify fun w : World => { w with caches := dset w.caches x ((dget w.caches x).getD [] ++ [s]) }
        pure (C.hash (.blob s)) : W Str) WorksOn := fun w h => h
    split
    · exact M.Keeps.bind (fun _ _ _ h h' h0 => h' (h h0)) (worksOn_flushCache C x) (fun _ => fin) w
    · exact fin w

theorem worksOn_addRef (b : Bool) (h : Option Str) : M.Keeps (addRef b h) WorksOn := by
  intro w hw
  unfold addRef
  cases h with
  | none => exact hw
  | some h => simp only; split <;> exact hw

theorem worksOn_flushRealm (C : Cfg) (x : Realm) : M.Keeps (flushRealm C x) WorksOn := by
  intro w
  unfold flushRealm
  rw [M.bind_of_ok (M.get_run w)]
  cases hd : dget w.caches x with
  | none => exact id
  | some bs =>
    simp only
    exact M.Keeps.bind (fun _ _ _ h h' h0 => h' (h h0)) (worksOn_flushCache C x) (fun _ w h => h) w

theorem worksOn_cacheRealm (x : Realm) : M.Keeps (cacheRealm x) WorksOn := by
  intro w h
  unfold cacheRealm
  cases hd : dget w.caches x <;> exact h

theorem worksOn_files (C : Cfg) {wr : W Ref} (h : M.Keeps wr WorksOn) :
    M.Keeps (fileTreeWrite C (some r) wr) WorksOn := by
  have t : ∀ a b c : World, WorksOn a b → WorksOn b c → WorksOn a c := fun _ _ _ h h' h0 => h' (h h0)
  unfold fileTreeWrite
  refine M.Keeps.bind t (worksOn_cacheRealm r) fun _ => M.Keeps.bind t h fun ref =>
    M.Keeps.bind t (worksOn_flushRealm C r) fun _ => ?_
  split
  · exact fun w => id
  · exact M.Keeps.bind t (worksOn_addRef _ _) fun _ w => id

theorem closed_worksOn (C : Cfg) (r : Realm) : Closed C r (fun w w' => WorksOn w w' ∧ Any r w w') where
  refl := fun w => ⟨id, Any.refl r w⟩
  trans := fun _ _ _ h h' => ⟨fun h0 => h'.1 (h.1 h0), h.2.trans h'.2⟩
  str := fun s w => ⟨works_liftG_cmd, gitSaveStr_any C r s w⟩
  tree := fun es w => ⟨works_liftG_cmd, gitSaveTree_any C r es w⟩
  name := fun n h _ w => ⟨works_liftG_cmd, gitUpdateRef_any C r n h w⟩
  blob := fun s w => ⟨worksOn_saveBlob C r s w, saveBlob_any C r s w⟩
  ref := fun b h w => ⟨worksOn_addRef b h w, addRef_any r b h w⟩
  files := fun wr h w => ⟨worksOn_files C (fun w => (h w).1) w, (closed_any C r).files wr (fun w => (h w).2) w⟩
  mapped := fun _ _ i h => (h.2.same i).mapped
  here := fun _ _ i h hr => (h.2.realm i).elim (fun e => e.trans hr) id
  realm := fun w i hm => ⟨id, (closed_any C r).realm w i hm⟩
  flag := fun w i ref hm hr => ⟨id, (closed_any C r).flag w i ref hm hr⟩

theorem writeOut_worksOn (hr : r ≠ []) (n : Nat) (force : Bool) (i : ObjId) (w : World) :
    WorksOn w (writeOut C n (some r) force i w).2 :=
  ((closed_worksOn C r).writeOut hr n force i w).1

/-! ### Programs that succeed -/

/-- From every state with `P`, the program succeeds, if no two objects collide. -/
def Goes {α : Type} (C : Cfg) (P : World → Prop) (x : W α) (Q : α → World → Prop) : Prop :=
  ∀ w, P w → CollisionFree C (x w).2.eff → ∃ a w', x w = (.ok a, w') ∧ Q a w'

theorem Goes.bind {α β : Type} {P : World → Prop} {x : W α} {Q : α → World → Prop} {f : α → W β}
    {R : β → World → Prop} (hP : ∀ w, P w → (dkeys w.caches).Nodup) (kx : M.Keeps x (Any r))
    (kf : ∀ a, M.Keeps (f a) (Any r)) (hx : Goes C P x Q) (hf : ∀ a, Goes C (Q a) (f a) R) :
    Goes C P (x >>= f) R := by
  intro w hw hc
  have hc1 : CollisionFree C (x w).2.eff := by
    have a := kx w
    cases e : x w with
    | mk res w1 =>
      rw [e] at a
      cases res with
      | error er => rw [M.bind_of_error e] at hc; exact hc
      | ok v =>
        rw [M.bind_of_ok e] at hc
        exact hc.mono ((kf v w1).grows (a.nodup (hP w hw)))
  obtain ⟨a, w1, e, q⟩ := hx w hw hc1
  rw [M.bind_of_ok e] at hc ⊢
  exact hf a w1 q hc

theorem Goes.pure {α : Type} {P : World → Prop} {Q : α → World → Prop} (a : α) (h : ∀ w, P w → Q a w) :
    Goes C P (Pure.pure a) Q := fun w hw _ => ⟨a, w, rfl, h w hw⟩

theorem Goes.weaken {α : Type} {P P' : World → Prop} {x : W α} {Q Q' : α → World → Prop}
    (h : Goes C P x Q) (hP : ∀ w, P' w → P w) (hQ : ∀ a w, Q a w → Q' a w) : Goes C P' x Q' := by
  intro w hw hc
  obtain ⟨a, w', e, q⟩ := h w (hP w hw) hc
  exact ⟨a, w', e, hQ a w' q⟩

theorem goes_each {β γ : Type} {f : β → W γ} {P : World → Prop} {Q : β → γ → Prop}
    (hP : ∀ w, P w → (dkeys w.caches).Nodup) : ∀ (l : List β),
    (∀ e ∈ l, M.Keeps (f e) (Any r)) →
    (∀ e ∈ l, Goes C P (f e) fun b w => P w ∧ Q e b) →
    Goes C P (M.forEach f l) fun bs w => P w ∧ All2 Q l bs := by
  intro l
  induction l with
  | nil =>
    intro _ _ w hw _
    exact ⟨[], w, rfl, hw, All2.nil⟩
  | cons e l ih =>
    intro hk hf
    rw [M.forEach_cons]
    have kl : M.Keeps (M.forEach f l) (Any r) := M.Keeps.forEach (Any.refl r) (fun _ _ _ => Any.trans)
      (fun x hx => hk x (List.mem_cons_of_mem _ hx))
    have kp : ∀ (a : List γ), M.Keeps (Pure.pure a : W (List γ)) (Any r) := fun a => (closed_any C r).pure a
    refine Goes.bind hP (hk e List.mem_cons_self)
      (fun b => (closed_any C r).bind kl fun bs => kp _) (hf e List.mem_cons_self) fun b => ?_
    intro w hw hc
    have := Goes.bind (C := C) (R := fun bs w => P w ∧ All2 Q (e :: l) bs) hP kl (fun bs => kp (b :: bs))
      (ih (fun x hx => hk x (List.mem_cons_of_mem _ hx)) (fun x hx => hf x (List.mem_cons_of_mem _ hx)))
      (fun bs => Goes.pure (b :: bs) fun w hw' => ⟨hw'.1, All2.cons hw.2 hw'.2⟩)
    exact this w hw.1 hc

/-! ### Steps of writing -/

theorem goes_str {P : World → Prop} (s : Str) (hP : ∀ w, P w → Works w)
    {Q : Str → World → Prop}
    (hQ : ∀ w w', P w → Quiet w w' → Works w' → w'.caches = w.caches → Stored w'.repo.log r (.blob s) →
      CollisionFree C w'.eff → Q (C.hash (.blob s)) w') :
    Goes C P (liftG (gitSaveStr C r s)) Q := by
  intro w hw hc
  have e : liftG (gitSaveStr C r s) w = (.ok (C.hash (.blob s)),
      { w with repo := ⟨.save r (.blob s) :: w.repo.log, []⟩ }) := by
    unfold liftG gitSaveStr
    rw [gitCmd_runs (hP w hw)]
    rfl
  rw [e] at hc
  exact ⟨_, _, e, hQ w _ hw (gitSaveStr_quiet e).1 rfl rfl List.mem_cons_self hc⟩

theorem goes_tree {P : World → Prop} {es es' : List TreeEntry} (hmk : mktree (treeSpec es) = some es')
    (hP : ∀ w, P w → Works w) {Q : Str → World → Prop}
    (hQ : ∀ w w', P w → Quiet w w' → Works w' → w'.caches = w.caches → Stored w'.repo.log r (.tree es') →
      CollisionFree C w'.eff → Q (C.hash (.tree es')) w') :
    Goes C P (liftG (gitSaveTree C r es)) Q := by
  intro w hw hc
  have e : liftG (gitSaveTree C r es) w = (.ok (C.hash (.tree es')),
      { w with repo := ⟨.save r (.tree es') :: w.repo.log, []⟩ }) := by
    unfold liftG gitSaveTree
    rw [gitCmd_runs (hP w hw)]
    simp only [hmk]
    rfl
  rw [e] at hc
  exact ⟨_, _, e, hQ w _ hw (gitSaveTree_quiet e).1 rfl rfl List.mem_cons_self hc⟩

theorem goes_name {P : World → Prop} {o : GitObj} (nm : Str) (hP : ∀ w, P w → Works w)
    (hst : ∀ w, P w → Stored w.repo.log r o) :
    Goes C P (liftG (gitUpdateRef C r nm (C.hash o))) fun _ _ => True := by
  intro w hw _
  have h3 : ∃ o', resolve C w.repo.log r (C.hash o) = some o' := by
    rw [resolve_hash (C.valid _), ← Option.isSome_iff_exists]
    exact findObj_isSome (hst w hw)
  obtain ⟨o', h3⟩ := h3
  refine ⟨(), { w with repo := ⟨.setRef r nm (C.hash o) :: w.repo.log, []⟩ }, ?_, trivial⟩
  unfold liftG gitUpdateRef
  rw [gitCmd_runs (hP w hw)]
  simp only [h3]
  rfl

theorem goes_ref {P : World → Prop} (b : Bool) {l : Option Str} (hl : l ≠ none)
    {Q : Unit → World → Prop}
    (hQ : ∀ w w', P w → Quiet w w' → w'.repo = w.repo → w'.caches = w.caches → CollisionFree C w'.eff →
      Q () w') : Goes C P (addRef b l) Q := by
  intro w hw hc
  cases l with
  | none => exact absurd rfl hl
  | some h =>
    have e : ∃ w', addRef b (some h) w = (.ok (), w') ∧ w'.repo = w.repo := by
      unfold addRef
      simp only
      split <;> exact ⟨_, rfl, rfl⟩
    obtain ⟨w', e, e'⟩ := e
    have hca := caches_addRef b (some h) w
    rw [e] at hc hca
    exact ⟨(), w', e, hQ w w' hw (addRef_quiet e).1 e' hca hc⟩

theorem flushCache_works {w : World} (x : Realm) (h : Works w) :
    ∃ w', flushCache C x w = (.ok (), w') ∧ ((dget w.caches r).isSome = true → (dget w'.caches r).isSome = true) := by
  have hst := cacheStays_flushCache (r := r) C x w
  unfold flushCache at hst ⊢
  rw [M.bind_of_ok (M.get_run w)] at hst ⊢
  cases hd : dget w.caches x with
  | none => exact ⟨w, rfl, id⟩
  | some bs =>
    rw [hd] at hst
    simp only at hst ⊢
    have e : liftG (gitSaveBlobs C x bs) w = (.ok (bs.map fun s => C.hash (.blob s)),
        { w with repo := ⟨(bs.map fun s => GitOp.save x (.blob s)).reverse ++ w.repo.log, []⟩ }) := by
      unfold liftG gitSaveBlobs
      rw [gitCmd_runs h]
    rw [M.bind_of_ok e] at hst ⊢
    exact ⟨_, rfl, hst⟩

theorem saveBlob_works {w : World} (s : Str) (h : Works w) : ∃ w', saveBlob C r s w = (.ok (C.hash (.blob s)), w') := by
  unfold saveBlob
  rw [M.bind_of_ok (M.get_run w)]
  cases hd : dget w.caches r with
  | none =>
    refine ⟨{ w with repo := ⟨.save r (.blob s) :: w.repo.log, []⟩ }, ?_⟩
    show liftG (gitSaveStr C r s) w = _
    unfold liftG gitSaveStr
    rw [gitCmd_runs h]
    rfl
  | some bs =>
    simp only
    unfold cacheBlob
    rw [M.bind_of_ok (M.get_run w)]
    by_cases hl : ((dget w.caches r).getD []).length = C.maxsize
    · rw [if_pos hl]
      obtain ⟨w1, e, _⟩ := flushCache_works (C := C) (r := r) r h
      rw [M.bind_of_ok e]
      exact ⟨_, rfl⟩
    · rw [if_neg hl]
      exact ⟨_, rfl⟩

theorem saveMetadata_works {w : World} (m : Sets) (h : Works w) : ∃ ref w', saveMetadata C r m w = (.ok ref, w') := by
  unfold saveMetadata
  obtain ⟨w1, e1⟩ := saveBlob_works (C := C) (r := r) (m.toText C.floats) h
  have h1 : Works w1 := by have := worksOn_saveBlob C r (m.toText C.floats) w h; rw [e1] at this; exact this
  rw [M.bind_of_ok e1]
  have e2 : ∃ w2, addRef false (some (C.hash (.blob (m.toText C.floats)))) w1 = (.ok (), w2) := by
    unfold addRef
    simp only
    split <;> exact ⟨_, rfl⟩
  obtain ⟨w2, e2⟩ := e2
  have h2 : Works w2 := by
    have := worksOn_addRef false (some (C.hash (.blob (m.toText C.floats)))) w1 h1; rw [e2] at this; exact this
  rw [M.bind_of_ok e2]
  obtain ⟨w3, e3⟩ := saveBlob_works (C := C) (r := r)
    (Ref.toText C.floats ⟨c!"Metadata", some (C.hash (.blob (m.toText C.floats)))⟩) h2
  rw [M.bind_of_ok e3]
  exact ⟨_, _, rfl⟩

theorem flushRealm_works {w : World} (h : Works w) (hs : (dget w.caches r).isSome = true) :
    ∃ w', flushRealm C r w = (.ok (), w') := by
  unfold flushRealm
  rw [M.bind_of_ok (M.get_run w)]
  cases hd : dget w.caches r with
  | none => rw [hd] at hs; cases hs
  | some bs =>
    simp only
    obtain ⟨w1, e, _⟩ := flushCache_works (C := C) (r := r) r h
    rw [M.bind_of_ok e]
    exact ⟨_, rfl⟩

/-! ### Checking whether something is saved -/

theorem allOk_runs {α : Type} {f : α → Except PyErr Bool} : ∀ {l : List α}, (∀ a ∈ l, ∃ b, f a = .ok b) →
    ∃ b, allOk f l = .ok b := by
  intro l
  induction l with
  | nil => intro _; exact ⟨true, rfl⟩
  | cons a l ih =>
    intro h
    obtain ⟨b, hb⟩ := h a List.mem_cons_self
    obtain ⟨b', hb'⟩ := ih fun x hx => h x (List.mem_cons_of_mem _ hx)
    cases b with
    | false => exact ⟨false, by simp [allOk, hb]⟩
    | true => exact ⟨b', by simp [allOk, hb, hb']⟩

theorem isSavedOn_runs {h : Heap} (hrk : Ranked rank h) : ∀ {n : Nat} {i : ObjId}, rank i < n →
    ∃ b, isSavedOn n h r i = .ok b := by
  intro n
  induction n with
  | zero => intro i hi; exact absurd hi (Nat.not_lt_zero _)
  | succ n ih =>
    intro i hi
    rw [isSavedOn_succ]
    by_cases hf : r ∈ (h i).savedOn
    · rw [if_neg (by simpa using hf)]
      by_cases hm : (h i).mapped = true
      · rw [if_pos hm]
        exact allOk_runs fun k hk => ih (Nat.lt_of_lt_of_le (hrk i hm k hk) (Nat.le_of_lt_succ hi))
      · rw [if_neg hm]; exact ⟨true, rfl⟩
    · rw [if_pos hf]; exact ⟨false, rfl⟩

/-! ### Writing the parts of an object -/

/-- What holds before an object is written. -/
structure Setup (C : Cfg) (r : Realm) (rank : ObjId → Nat) (S : Scope) (n : Nat) (i : ObjId) (w : World) :
    Prop where
  nodup : (dkeys w.caches).Nodup
  ranked : Ranked rank w.heap
  storable : Storable w.heap i
  shape : Shape r S w.heap
  truth : ∀ p, ¬ S p → Truth C r w.eff w.heap p
  entry : Entry r rank S w.heap i
  alone : Alone r w.heap i
  writable : Writable r w.heap i
  works : Works w
  deep : rank i < n
  free : (w.heap i).kind.small = true ∨ dget w.caches r = none

/-- The claim for the recursion limit `n`. -/
def WriteGoes (C : Cfg) (r : Realm) (rank : ObjId → Nat) (n : Nat) : Prop :=
  ∀ S force i, Goes C (Setup C r rank S n i) (writeOut C n (some r) force i) fun _ _ => True

/-- What holds while the parts of an object are written. -/
structure During (C : Cfg) (r : Realm) (rank : ObjId → Nat) (S : Scope) (n : Nat) (i : ObjId)
    (body : Body ObjId) (kinds : ObjId → Kind) (keys : List Realm) (w : World) : Prop where
  env : Env C r rank S i w
  writable : Writable r w.heap i
  works : Works w
  deep : rank i < n + 1
  body : (w.heap i).body = body
  kinds : ∀ j, (w.heap j).kind = kinds j
  keys : dkeys w.caches = keys

theorem During.quiet {w w' : World} {body : Body ObjId} {kinds : ObjId → Kind} {keys keys' : List Realm}
    (d : During C r rank S n i body kinds keys w) (q : Quiet w w') (hw : Works w') (hk : dkeys w'.caches = keys')
    (hc : CollisionFree C w'.eff) : During C r rank S n i body kinds keys' w' :=
  ⟨d.env.quiet q hc, by rw [q.heap]; exact d.writable, hw, d.deep, by rw [q.heap]; exact d.body,
   fun j => by rw [q.heap]; exact d.kinds j, hk⟩

/-- The reference of a part names an object of the repository. -/
theorem hash_of_post {w w' : World} {c : ObjId} {ref : Ref} {k : Kind} {key : Key} {t : Str}
    (p : Post C r rank S n c ref w w') (hslot : SlotOk k key t (w.heap c).kind)
    (hin : (w.heap c).kind.isMtree = true →
      ((w.heap c).mapped = true → (w.heap c).body.kids ≠ []) ∧
      ((w.heap c).mapped = false → ∀ ref, (w.heap c).ref = some ref → ref.isNone = false)) :
    isHash (locText ref) = true := by
  have hk : (w'.heap c).kind = (w.heap c).kind := (p.step.same c).kind
  have hok := p.good.ok
  rw [hk] at hok
  obtain ⟨l, h1, h2, h3⟩ := slot_loc hslot hok
  rw [h2]
  rcases h3 with h3 | ⟨h3, h4⟩
  · exact h3
  · exfalso
    obtain ⟨hm1, hm2⟩ := hin h4
    have hnone : ref.isNone = true := by unfold Ref.isNone; rw [h1, h3]; simp
    by_cases hm : (w.heap c).mapped = true
    · have hm' := (p.step.same c).mapped.trans hm
      have hv := view_mapped (C := C) (L := w'.eff) hm'
      have hs := p.good.same [] []
      rw [look_nil [] hv] at hs
      have hne : ((w'.heap c).body.map Node.mem).blank = false := by
        unfold Body.blank Body.map
        rw [(p.step.same c).body]
        have := hm1 hm
        cases hkk : (w.heap c).body.kids with
        | nil => exact absurd hkk this
        | cons a l => simp
      rw [hk, normRef_ne (by intro h; rw [h] at h4; cases h4)] at hs
      obtain ⟨d, hd⟩ := none_blank (C := C) (L := w'.eff) (h := w'.heap) (r := r) (t := []) hnone h4
        (by rw [← hs]; simp)
      rw [hd, hne] at hs
      cases hs
    · have hm0 : (w.heap c).mapped = false := by simpa using hm
      have := hm2 hm0 ref (by rw [← ((p.step.same c).away hm0).2]; exact p.hasRef)
      rw [hnone] at this
      cases this

/-- Writing a part. -/
theorem kid_goes (hr : r ≠ []) (ih : WriteGoes C r rank n) (force : Bool) {body : Body ObjId}
    {kinds : ObjId → Kind} {keys : List Realm} {e : Key × (Str × ObjId)} (he : e ∈ body.kids)
    (hfree : (kinds e.2.2).small = true ∨ r ∉ keys) :
    Goes C (During C r rank S n i body kinds keys) (writeOut C n (some r) force e.2.2) fun ref w =>
      During C r rank S n i body kinds keys w ∧ ref.loc ≠ none ∧
        (((kinds e.2.2).isMtree = true → body.data.kind.isMtree = true) → isHash (locText ref) = true) := by
  intro w d hc
  have hck : e.2.2 ∈ (w.heap i).body.subs := by rw [d.body]; exact List.mem_map.mpr ⟨e, he, rfl⟩
  have hbo := d.env.storable i (Reach.refl i) d.env.mapped
  have hslot := hbo.slots e (by rw [d.body]; exact he)
  have hpub : pubName (w.heap e.2.2).kind = none := pubName_slot hslot
  have hal : Alone r w.heap e.2.2 := fun nm h => by rw [hpub] at h; cases h
  have hst := d.env.storable.kid d.env.mapped hck
  have hen := d.env.entry hck
  obtain ⟨ref, w', hw, _⟩ := ih S force e.2.2 w ⟨d.env.nodup, d.env.ranked, hst, d.env.shape, d.env.truth, hen, hal,
    d.writable.kid d.env.mapped hck, d.works,
    Nat.lt_of_lt_of_le (d.env.ranked i d.env.mapped _ hck) (Nat.le_of_lt_succ d.deep), by
      rw [d.kinds]
      refine hfree.imp id fun h => ?_
      rw [dget_eq_none, d.keys]; exact h⟩ hc
  refine ⟨ref, w', hw, ?_⟩
  have hwk := writeOut_worksOn (C := C) hr n force e.2.2 w d.works
  rw [hw] at hc hwk
  simp only at hc hwk
  have p := writeSpec C hr rank n S force e.2.2 w w' ref hw hc d.env.nodup d.env.ranked hst d.env.shape d.env.truth hen hal
  obtain ⟨m, o⟩ := kidSpec_wr (writeSpec C hr rank n) (List.mem_map.mpr ⟨e, he, rfl⟩) force w w' ref hw hc d.env d.body
  refine ⟨⟨d.env.mid m, d.writable.mono m.step.same (fun j => m.step.saved j r), hwk, d.deep,
    (m.step.same i).body.trans d.body, fun j => (m.step.same j).kind.trans (d.kinds j),
    (KeysOk.writeOut C n (some r) force e.2.2 w w' ref hw).trans d.keys⟩, ?_, ?_⟩
  · have hok := p.good.ok
    rw [(p.step.same e.2.2).kind] at hok
    obtain ⟨l, h1, _⟩ := slot_loc hslot hok
    rw [h1]; simp
  · intro hmt
    refine hash_of_post p hslot fun hk => ?_
    refine d.writable.inner i (Reach.refl i) d.env.mapped ?_ _ hck hk
    show (w.heap i).body.data.kind.isMtree = true
    rw [d.body]
    rw [d.kinds] at hk
    exact hmt hk

theorem During.nodup {w : World} {body : Body ObjId} {kinds : ObjId → Kind} {keys : List Realm}
    (d : During C r rank S n i body kinds keys w) : (dkeys w.caches).Nodup := d.env.nodup

theorem element_goes (hr : r ≠ []) (ih : WriteGoes C r rank n) (force : Bool) {body : Body ObjId}
    {kinds : ObjId → Kind} {keys : List Realm} {e : Key × (Str × ObjId)} (he : e ∈ body.kids)
    (hfree : (kinds e.2.2).small = true ∨ r ∉ keys) :
    Goes C (During C r rank S n i body kinds keys) (writeElement (writeOut C n (some r) force) e.2.2) fun _ w =>
      During C r rank S n i body kinds keys w := by
  have cl := closed_any C r
  have hk := kid_goes (S := S) (i := i) hr ih force he hfree
  intro w d hc
  unfold writeElement at hc ⊢
  rw [M.bind_of_ok (getObj_run _ _)] at hc ⊢
  split at hc
  · rename_i h
    rw [if_pos h]
    revert hc
    refine fun hc => (show Goes C (During C r rank S n i body kinds keys) (proxyWrite (writeOut C n (some r) force e.2.2))
      fun _ w => During C r rank S n i body kinds keys w from ?_) w d hc
    unfold proxyWrite
    refine Goes.bind (r := r) (fun _ d => d.nodup) (writeOut_any hr n force _) (fun ref => ?_) hk fun ref => ?_
    · split
      · exact cl.pure _
      · exact cl.bind (cl.ref _ _) fun _ => cl.pure _
    · split
      · exact Goes.pure _ fun w h => h.1
      · intro w0 h0
        refine Goes.bind (r := r) (P := fun w => During C r rank S n i body kinds keys w)
          (R := fun _ w => During C r rank S n i body kinds keys w) (fun _ d => d.nodup) (cl.ref _ _) (fun _ => cl.pure _)
          (goes_ref (C := C) true h0.2.1 (Q := fun _ w => During C r rank S n i body kinds keys w) fun a b ha q e1 e2 hcb => ?_)
          (fun _ => Goes.pure _ fun w h => h) w0 h0.1
        exact ha.quiet q (by unfold Works; rw [e1]; exact ha.works) (by rw [e2]; exact ha.keys) hcb
  · rename_i h
    rw [if_neg h]
    exact hk.weaken (fun _ d => d) (fun _ _ h => h.1) w d hc

theorem versions_go (hr : r ≠ []) (ih : WriteGoes C r rank n) (force : Bool) {body : Body ObjId}
    {kinds : ObjId → Kind} {keys : List Realm} (hfree : r ∉ keys) :
    Goes C (During C r rank S n i body kinds keys) (writeVersionList C (writeOut C n (some r) force) r body.kids)
      fun h w => During C r rank S n i body kinds keys w ∧ ∃ o, h = C.hash o ∧ Stored w.repo.log r o := by
  have cl := closed_any C r
  unfold writeVersionList
  have k1 : ∀ e : Key × (Str × ObjId), M.Keeps (do
      let ref ← writeElement (writeOut C n (some r) force) e.2.2
      pure (vrecJson e.1 e.2.1 ref) : W Json) (Any r) :=
    fun e => cl.bind (cl.writeElement (fun j => writeOut_any hr n force j) _) fun _ => cl.pure _
  refine Goes.bind (r := r) (fun _ d => d.nodup)
    (M.Keeps.forEach (Any.refl r) (fun _ _ _ => Any.trans) fun e _ => k1 e) (fun js => cl.str _)
    (goes_each (r := r) (Q := fun _ _ => True) (fun _ d => d.nodup) body.kids (fun e _ => k1 e) fun e he => ?_) fun js => ?_
  · exact Goes.bind (r := r) (fun _ d => d.nodup) (cl.writeElement (fun j => writeOut_any hr n force j) _)
      (fun _ => cl.pure _) (element_goes hr ih force he (Or.inr hfree)) fun ref => Goes.pure _ fun w h => ⟨h, trivial⟩
  · refine goes_str (C := C) (r := r) _ (fun w h => h.1.works) fun w w' h q hw hca hst hc => ?_
    exact ⟨h.1.quiet q hw (by rw [hca]; exact h.1.keys) hc, _, rfl, hst⟩

theorem dkeys_ddel_last {α β : Type} [DecidableEq α] {k : α} : ∀ {d : List (α × β)} {ks : List α},
    dkeys d = ks ++ [k] → k ∉ ks → dkeys (ddel d k) = ks := by
  intro d
  induction d with
  | nil => intro ks h; simp [dkeys] at h
  | cons a d ih =>
    intro ks h hk
    obtain ⟨a, b⟩ := a
    cases ks with
    | nil =>
      simp only [dkeys, List.map_cons, List.nil_append, List.cons.injEq, List.map_eq_nil_iff] at h
      obtain ⟨rfl, rfl⟩ := h
      simp [ddel, dkeys]
    | cons x ks =>
      simp only [dkeys, List.map_cons, List.cons_append, List.cons.injEq] at h
      obtain ⟨rfl, h⟩ := h
      have hne : a ≠ k := fun e => hk (by rw [e]; exact List.mem_cons_self)
      have := ih (ks := ks) h fun e => hk (List.mem_cons_of_mem _ e)
      simp only [ddel, if_neg hne]
      show a :: dkeys (ddel d k) = _
      rw [this]

/-- Writing through the wrapper of file trees. -/
theorem fileTree_goes {D D' : List Realm → World → Prop} {wr : W Ref} {keys : List Realm} (kwr : M.Keeps wr (Any r))
    (hD : ∀ ks w, D ks w → (dkeys w.caches).Nodup ∧ Works w ∧ dkeys w.caches = ks)
    (hD' : ∀ ks w, D' ks w → (dkeys w.caches).Nodup ∧ Works w ∧ dkeys w.caches = ks)
    (hq : ∀ w w', D keys w → Quiet w w' → Works w' → dkeys w'.caches = keys ++ [r] → CollisionFree C w'.eff →
      D (keys ++ [r]) w')
    (hq' : ∀ ks ks' w w', D' ks w → Quiet w w' → Works w' → dkeys w'.caches = ks' → CollisionFree C w'.eff →
      D' ks' w')
    (hwr : Goes C (D (keys ++ [r])) wr fun ref w => D' (keys ++ [r]) w ∧ ref.loc ≠ none) (hfree : r ∉ keys) :
    Goes C (D keys) (fileTreeWrite C (some r) wr) fun ref w => D' keys w ∧ ref.loc ≠ none := by
  have cl := closed_any C r
  have k4 : ∀ ref : Ref, M.Keeps (if ref.isNone then pure ref else do
      addRef true ref.loc
      pure ref : W Ref) (Any r) := by
    intro ref
    split
    · exact cl.pure _
    · exact cl.bind (cl.ref _ _) fun _ => cl.pure _
  have k3 : ∀ ref : Ref, M.Keeps (do
      flushRealm C r
      if ref.isNone then pure ref else do
        addRef true ref.loc
        pure ref : W Ref) (Any r) := fun ref => cl.bind (flushRealm_any C r) fun _ => k4 ref
  unfold fileTreeWrite
  simp only
  refine Goes.bind (r := r) (Q := fun _ => D (keys ++ [r])) (fun w d => (hD _ w d).1) (cacheRealm_any r)
    (fun _ => cl.bind kwr fun ref => k3 ref) ?_ fun _ => ?_
  · intro w d hc
    have hn : dget w.caches r = none := by rw [dget_eq_none, (hD _ w d).2.2]; exact hfree
    have e : cacheRealm r w = (.ok (), { w with caches := w.caches ++ [(r, [])] }) := by
      unfold cacheRealm; rw [hn]
    rw [e] at hc
    refine ⟨(), _, e, hq w _ d (cacheRealm_quiet e).1 (hD _ w d).2.1 ?_ hc⟩
    simp only [dkeys, List.map_append, List.map_cons, List.map_nil]
    congr 1
    exact (hD _ w d).2.2
  refine Goes.bind (r := r) (fun w d => (hD _ w d).1) kwr k3 hwr fun ref => ?_
  · refine Goes.bind (r := r) (Q := fun _ w => D' keys w ∧ ref.loc ≠ none) (fun w d => (hD' _ w d.1).1) (flushRealm_any C r) (fun _ => k4 ref) ?_ fun _ => ?_
    · intro w0 d0 hc0
      have hs : (dget w0.caches r).isSome = true := by
        rw [dget_isSome, (hD' _ w0 d0.1).2.2]; simp
      obtain ⟨w1, e⟩ := flushRealm_works (C := C) (hD' _ w0 d0.1).2.1 hs
      obtain ⟨q, hk⟩ := flushRealm_quiet (hD' _ w0 d0.1).1 e
      have hwk := worksOn_flushRealm C r w0 (hD' _ w0 d0.1).2.1
      rw [e] at hc0 hwk
      refine ⟨(), w1, e, hq' _ _ w0 w1 d0.1 q hwk ?_ hc0, d0.2⟩
      rw [hk]
      exact dkeys_ddel_last (hD' _ w0 d0.1).2.2 hfree
    · split
      · exact Goes.pure _ fun w h => h
      · intro w0 h0
        refine Goes.bind (r := r) (P := D' keys) (Q := fun _ => D' keys) (R := fun (ref : Ref) w => D' keys w ∧ ref.loc ≠ none)
          (fun w d => (hD' _ w d).1) (cl.ref _ _) (fun _ => cl.pure _)
          (goes_ref (C := C) true h0.2 fun a b ha q e1 e2 hcb => ?_)
          (fun _ => Goes.pure _ fun w h => ⟨h, h0.2⟩) w0 h0.1
        exact hq' _ _ a b ha q (by unfold Works; rw [e1]; exact (hD' _ a ha).2.1) (by rw [e2]; exact (hD' _ a ha).2.2) hcb

/-- Writing the file tree of a root record. -/
theorem files_go (hr : r ≠ []) (ih : WriteGoes C r rank n) (force : Bool) {body : Body ObjId}
    {kinds : ObjId → Kind} {keys : List Realm} {e : Key × (Str × ObjId)} (he : e ∈ body.kids)
    (hsmall : (kinds e.2.2).small = true) (hfree : r ∉ keys) :
    Goes C (During C r rank S n i body kinds keys) (fileTreeWrite C (some r) (writeOut C n (some r) force e.2.2))
      fun ref w => During C r rank S n i body kinds keys w ∧ ref.loc ≠ none :=
  fileTree_goes (D := During C r rank S n i body kinds) (D' := During C r rank S n i body kinds)
    (writeOut_any hr n force _) (fun _ _ d => ⟨d.nodup, d.works, d.keys⟩) (fun _ _ d => ⟨d.nodup, d.works, d.keys⟩)
    (fun _ _ d q hw hk hc => d.quiet q hw hk hc) (fun _ _ _ _ d q hw hk hc => d.quiet q hw hk hc)
    ((kid_goes (S := S) (i := i) (keys := keys ++ [r]) hr ih force he (Or.inl hsmall)).weaken (fun _ d => d)
      fun _ _ h => ⟨h.1, h.2.1⟩) hfree

theorem small_slot {k : Kind} {key : Key} {t : Str} {k' : Kind} (h : SlotOk k key t k') (hk : k.small = true) :
    k'.small = true := by
  cases k <;> cases key <;> simp only [SlotOk] at h <;> try exact h.elim
  case mtree.name leaf n =>
    cases leaf <;> simp only [Kind.small] at hk
    · rcases h.2.2 with rfl | rfl <;> rfl
    · rcases h.2.2 with rfl | rfl <;> rfl
    · cases hk
  all_goals cases hk

/-- The mappers succeed. -/
theorem mapOut_goes (hr : r ≠ []) (ih : WriteGoes C r rank n) (force : Bool) {body : Body ObjId}
    {kinds : ObjId → Kind} {keys : List Realm} (hfree : body.data.kind.small = true ∨ r ∉ keys) :
    Goes C (During C r rank S n i body kinds keys) (mapOut C (writeOut C n (some r)) r force body) fun _ _ => True := by
  have cl := closed_any C r
  have wrAny := writeOut_any (C := C) hr n
  intro w d hc
  have hbo := d.env.storable i (Reach.refl i) d.env.mapped
  have hslots : ∀ e ∈ body.kids, SlotOk body.data.kind e.1 e.2.1 (kinds e.2.2) := by
    intro e he
    have := hbo.slots e (by rw [d.body]; exact he)
    rw [d.body] at this
    have hk := d.kinds e.2.2
    rw [← hk]
    exact this
  have hset := d.writable.sets i (Reach.refl i) d.env.mapped
  have hki : (w.heap i).kind = body.data.kind := by
    show (w.heap i).body.data.kind = _
    rw [d.body]
  rw [hki, d.body] at hset
  have hfr : body.data.kind.small = false → r ∉ keys := fun h => hfree.resolve_left (by rw [h]; simp)
  revert hc
  unfold mapOut
  cases hd : body.data with
  | text s =>
    refine fun hc => (Goes.bind (r := r) (Q := fun _ _ => True) (fun _ d => d.nodup) (cl.str _) (fun _ => cl.pure _)
      (goes_str (C := C) (r := r) _ (fun w h => h.works) fun _ _ _ _ _ _ _ _ => trivial)
      (fun _ => Goes.pure _ fun _ _ => trivial)) w d hc
  | metadata m =>
    intro _
    obtain ⟨ref, w', e⟩ := saveMetadata_works (C := C) (r := r) m d.works
    exact ⟨ref, w', e, trivial⟩
  | mtree leaf =>
    rw [hd] at hslots hfree
    simp only
    by_cases hkids : body.kids = []
    · rw [if_pos hkids]
      exact fun hc => (Goes.pure _ fun _ _ => trivial) w d hc
    · rw [if_neg hkids]
      have k1 : ∀ e : Key × (Str × ObjId), M.Keeps (do
          let ref ← writeOut C n (some r) false e.2.2
          let o ← getObj e.2.2
          pure (⟨o.kind.isMtree, locText ref, e.1.entryName⟩ : TreeEntry) : W TreeEntry) (Any r) :=
        fun e => cl.bind (wrAny _ _) fun _ => cl.bind (cl.getObj _) fun _ => cl.pure _
      refine fun hc => (Goes.bind (C := C) (r := r) (R := fun _ _ => True) (fun _ d => d.nodup)
        (M.Keeps.forEach (Any.refl r) (fun _ _ _ => Any.trans) fun e _ => k1 e)
        (fun es => cl.bind (cl.tree _) fun _ => cl.pure _)
        (goes_each (r := r) (P := During C r rank S n i body kinds keys)
          (Q := fun e b => isHash b.hash = true ∧ b.name = e.1.entryName) (fun _ d => d.nodup)
          body.kids (fun e _ => k1 e) fun e he => ?_) fun es => ?_) w d hc
      · refine Goes.bind (r := r) (fun _ d => d.nodup) (wrAny _ _)
          (fun _ => cl.bind (cl.getObj _) fun _ => cl.pure _)
          (kid_goes hr ih false he (hfree.imp (small_slot (hslots e he)) id)) fun ref => ?_
        intro w0 h0 _
        rw [M.bind_of_ok (getObj_run _ _)]
        exact ⟨_, w0, rfl, h0.1, h0.2.2 (fun _ => by rw [hd]; rfl), rfl⟩
      · intro w0 h0
        have hne : es ≠ [] := by
          intro he
          have := h0.2
          rw [he] at this
          cases hb : body.kids with
          | nil => exact hkids hb
          | cons a l => rw [hb] at this; cases this
        have hall : ∀ b ∈ es, isHash b.hash = true ∧ NameOk b.name := by
          intro b hb
          obtain ⟨e, he, h1, h2⟩ := all2_right h0.2 hb
          refine ⟨h1, ?_⟩
          rw [h2]
          have := hslots e he
          obtain ⟨k, t, c⟩ := e
          cases k <;> simp only [Data.kind, SlotOk] at this <;> first | exact this.elim | skip
          exact this.2.1
        have hmk := mktree_treeSpec hne (fun b hb => (hall b hb).1) fun b hb => (hall b hb).2
        exact (Goes.bind (r := r) (P := During C r rank S n i body kinds keys) (Q := fun _ _ => True)
          (fun _ d => d.nodup) (cl.tree _) (fun _ => cl.pure _)
          (goes_tree hmk (fun _ d => d.works) fun _ _ _ _ _ _ _ _ => trivial)
          (fun _ => Goes.pure _ fun _ _ => trivial)) w0 h0.1
  | mrr id v =>
    rw [hd] at hslots
    have hf : r ∉ keys := hfr (by rw [hd]; rfl)
    simp only
    have kj : ∀ s : Json, M.Keeps (do
        let h ← liftG (gitSaveJson C r s)
        pure ⟨c!"MetadataRootRecord", some h⟩ : W Ref) (Any r) := fun s => cl.bind (cl.str _) fun _ => cl.pure _
    refine fun hc => (Goes.bind (C := C) (r := r) (R := fun _ _ => True) (fun _ d => d.nodup) (cl.ftPart (wrAny force) _)
      (fun ft => cl.bind (cl.dlmPart (wrAny force) _) fun dlm => kj _)
      (show Goes C (During C r rank S n i body kinds keys) (writeFtPart C r (writeOut C n (some r) force) (dget body.kids .ft))
        fun _ => During C r rank S n i body kinds keys from ?_) fun ft => ?_) w d hc
    · cases hx : dget body.kids .ft with
      | none => exact Goes.pure _ fun _ h => h
      | some e =>
        have he := mem_of_dget hx
        have hsl := hslots _ he
        have hsm : (kinds e.2).small = true := by
          simp only [Data.kind, SlotOk] at hsl
          rw [hsl.2]; rfl
        refine Goes.bind (r := r) (fun _ d => d.nodup) (cl.fileTreeWrite (wrAny force e.2)) (fun ref => ?_)
          (files_go hr ih force he hsm hf) fun ref => ?_
        · split
          · exact cl.pure _
          · exact cl.bind (cl.ref _ _) fun _ => cl.pure _
        · split
          · exact Goes.pure _ fun w h => h.1
          · intro w0 h0
            refine Goes.bind (r := r) (P := During C r rank S n i body kinds keys)
              (Q := fun _ => During C r rank S n i body kinds keys)
              (R := fun (_ : Ref) => During C r rank S n i body kinds keys)
              (fun w d => d.nodup) (cl.ref _ _) (fun _ => cl.pure _)
              (goes_ref (C := C) true h0.2 fun a b ha q e1 e2 hcb => ?_)
              (fun _ => Goes.pure _ fun w h => h) w0 h0.1
            exact ha.quiet q (by unfold Works; rw [e1]; exact ha.works) (by rw [e2]; exact ha.keys) hcb
    · refine Goes.bind (r := r) (fun _ d => d.nodup) (cl.dlmPart (wrAny force) _) (fun dlm => kj _)
        (show Goes C (During C r rank S n i body kinds keys) (writeDlmPart (writeOut C n (some r) force) (dget body.kids .dlm))
          fun _ => During C r rank S n i body kinds keys from ?_) fun dlm => ?_
      · cases hx : dget body.kids .dlm with
        | none => exact Goes.pure _ fun _ h => h
        | some e =>
          have he := mem_of_dget hx
          refine Goes.bind (r := r) (fun _ d => d.nodup) (wrAny force e.2)
            (fun ref => cl.bind (cl.ref _ _) fun _ => cl.pure _)
            (kid_goes hr ih force he (Or.inr hf)) fun ref => ?_
          intro w0 h0
          refine Goes.bind (r := r) (P := During C r rank S n i body kinds keys)
            (Q := fun _ => During C r rank S n i body kinds keys)
            (R := fun (_ : Ref) => During C r rank S n i body kinds keys)
            (fun w d => d.nodup) (cl.ref _ _) (fun _ => cl.pure _)
            (goes_ref (C := C) false h0.2.1 fun a b ha q e1 e2 hcb => ?_)
            (fun _ => Goes.pure _ fun w h => h) w0 h0.1
          exact ha.quiet q (by unfold Works; rw [e1]; exact ha.works) (by rw [e2]; exact ha.keys) hcb
      · exact Goes.bind (r := r) (Q := fun _ _ => True) (fun _ d => d.nodup) (cl.str _) (fun _ => cl.pure _)
          (goes_str (C := C) (r := r) _ (fun w h => h.works) fun _ _ _ _ _ _ _ _ => trivial)
          (fun _ => Goes.pure _ fun _ _ => trivial)
  | vlist =>
    have hf : r ∉ keys := hfr (by rw [hd]; rfl)
    simp only
    exact fun hc => (Goes.bind (C := C) (r := r) (R := fun _ _ => True) (fun _ d => d.nodup) (cl.writeVersionList (wrAny false) _)
      (fun _ => cl.pure _) (versions_go hr ih false hf) fun h => Goes.pure _ fun _ _ => trivial) w d hc
  | tvl =>
    have hf : r ∉ keys := hfr (by rw [hd]; rfl)
    simp only
    refine fun hc => (Goes.bind (C := C) (r := r) (R := fun _ _ => True) (fun _ d => d.nodup) (cl.writeVersionList (wrAny false) _)
      (fun _ => cl.bind (cl.name _ _ (Or.inl rfl)) fun _ => cl.pure _) (versions_go hr ih false hf) fun h => ?_) w d hc
    intro w0 h0
    obtain ⟨d0, o, rfl, hst⟩ := h0
    exact Goes.bind (r := r) (P := fun w => During C r rank S n i body kinds keys w ∧ Stored w.repo.log r o)
      (fun _ d => d.1.nodup) (cl.name _ _ (Or.inl rfl)) (fun _ => cl.pure _)
      (goes_name tvlRefName (fun w h => h.1.works) fun w h => h.2) (fun _ => Goes.pure _ fun _ _ => trivial) w0 ⟨d0, hst⟩
  | uuidset =>
    rw [hd] at hslots
    have hf : r ∉ keys := hfr (by rw [hd]; rfl)
    have hkids : body.kids ≠ [] := hset (by rw [hd]; rfl)
    simp only
    have k1 : ∀ e : Key × (Str × ObjId), M.Keeps (do
        let ref ← writeOut C n (some r) false e.2.2
        pure (⟨false, locText ref, e.1.entryName⟩ : TreeEntry) : W TreeEntry) (Any r) :=
      fun e => cl.bind (wrAny _ _) fun _ => cl.pure _
    refine fun hc => (Goes.bind (C := C) (r := r) (R := fun _ _ => True) (fun _ d => d.nodup)
      (M.Keeps.forEach (Any.refl r) (fun _ _ _ => Any.trans) fun e _ => k1 e)
      (fun es => cl.bind (cl.tree _) fun _ => cl.bind (cl.name _ _ (Or.inr rfl)) fun _ => cl.pure _)
      (goes_each (r := r) (P := During C r rank S n i body kinds keys)
        (Q := fun e b => isHash b.hash = true ∧ b.name = e.1.entryName) (fun _ d => d.nodup)
        body.kids (fun e _ => k1 e) fun e he => ?_) fun es => ?_) w d hc
    · refine Goes.bind (r := r) (fun _ d => d.nodup) (wrAny _ _) (fun _ => cl.pure _)
        (kid_goes hr ih false he (Or.inr hf)) fun ref => ?_
      intro w0 h0 _
      refine ⟨_, w0, rfl, h0.1, h0.2.2 (fun hk => ?_), rfl⟩
      exfalso
      have := hslots e he
      obtain ⟨k, t, c⟩ := e
      cases k <;> simp only [Data.kind, SlotOk] at this
      simp only at hk
      rw [this.2] at hk
      cases hk
    · intro w0 h0
      have hne : es ≠ [] := by
        intro he
        have := h0.2
        rw [he] at this
        cases hb : body.kids with
        | nil => exact hkids hb
        | cons a l => rw [hb] at this; cases this
      have hall : ∀ b ∈ es, isHash b.hash = true ∧ NameOk b.name := by
        intro b hb
        obtain ⟨e, he, h1, h2⟩ := all2_right h0.2 hb
        refine ⟨h1, ?_⟩
        rw [h2]
        have := hslots e he
        obtain ⟨k, t, c⟩ := e
        cases k <;> simp only [Data.kind, SlotOk] at this <;> first | exact this.elim | skip
        exact (uuid_name_ok _).1
      have hmk := mktree_treeSpec hne (fun b hb => (hall b hb).1) fun b hb => (hall b hb).2
      refine (Goes.bind (r := r) (P := During C r rank S n i body kinds keys)
        (Q := fun h w => During C r rank S n i body kinds keys w ∧ ∃ o, h = C.hash o ∧ Stored w.repo.log r o)
        (fun _ d => d.nodup) (cl.tree _) (fun _ => cl.bind (cl.name _ _ (Or.inr rfl)) fun _ => cl.pure _)
        (goes_tree hmk (fun _ d => d.works) fun a b ha q hw hca hst hcb =>
          ⟨ha.quiet q hw (by rw [hca]; exact ha.keys) hcb, _, rfl, hst⟩)
        (fun h => ?_)) w0 h0.1
      intro w1 h1
      obtain ⟨d1, o, rfl, hst⟩ := h1
      exact Goes.bind (r := r) (P := fun w => During C r rank S n i body kinds keys w ∧ Stored w.repo.log r o)
        (fun _ d => d.1.nodup) (cl.name _ _ (Or.inr rfl)) (fun _ => cl.pure _)
        (goes_name uuidSetRefName (fun w h => h.1.works) fun w h => h.2) (fun _ => Goes.pure _ fun _ _ => trivial) w1 ⟨d1, hst⟩

/-- Writing succeeds. -/
theorem writeGoes (C : Cfg) {r : Realm} (hr : r ≠ []) (hrem : Ref.isRemote r = false) (rank : ObjId → Nat) (n : Nat) :
    WriteGoes C r rank n := by
  induction n with
  | zero => intro S force i w s; exact absurd s.deep (Nat.not_lt_zero _)
  | succ n ih =>
    intro S force i w s hc
    have hiS : ¬ S i := fun hi => Nat.lt_irrefl _ (s.entry.below i hi)
    by_cases hm : (w.heap i).mapped = true
    case neg =>
      have hm0 : (w.heap i).mapped = false := by simpa using hm
      obtain ⟨h1, h2, h3⟩ := s.writable.away i (Reach.refl i) hm0
      rw [writeOut_away hm0]
      cases hx : (w.heap i).realm with
      | none => exact absurd hx h2
      | some x =>
        cases hy : (w.heap i).ref with
        | none => exact absurd hy h3
        | some ref => simp only [if_pos h1]; exact ⟨_, _, rfl, trivial⟩
    · have st1 := realm_step (r := r) none hm
      have hfl : ∀ j, ((w.heap.set i { w.heap i with realm := some r }) j).savedOn =
          (w.heap j).savedOn := by
        intro j
        by_cases hj : j = i
        · subst hj; simp
        · simp [Heap.set_ne hj]
      have href1 : ∀ j, ((w.heap.set i { w.heap i with realm := some r }) j).ref = (w.heap j).ref := by
        intro j
        by_cases hj : j = i
        · subst hj; simp
        · simp [Heap.set_ne hj]
      have hwk1 : Works { w with heap := w.heap.set i { w.heap i with realm := some r } } := s.works
      have hca1 : ({ w with heap := w.heap.set i { w.heap i with realm := some r } } : World).caches = w.caches := rfl
      generalize hw1 : ({ w with heap := w.heap.set i { w.heap i with realm := some r } } : World)
        = w1 at st1 hwk1 hca1
      have hh1 : w1.heap = w.heap.set i { w.heap i with realm := some r } := by rw [← hw1]
      rw [← hh1] at hfl href1
      have hm1 : (w1.heap i).mapped = true := (st1.same i).mapped.trans hm
      have hcl1 : ∀ p, Clean r w1.heap p ↔ Clean r w.heap p := fun p => flags_clean st1.same hfl
      have hsh1 : Shape r S w1.heap := s.shape.flags st1.same hfl
      have hwr1 : Writable r w1.heap i := s.writable.mono st1.same (fun j => st1.saved j r)
      have hrk1 := s.ranked.mono st1.same
      rw [writeOut_mapped hr hm hw1.symm] at hc ⊢
      rw [if_neg (by simp [hrem])] at hc ⊢
      obtain ⟨saved, hsv⟩ := isSavedOn_runs (r := r) hrk1 s.deep
      rw [hsv] at hc ⊢
      simp only at hc ⊢
      by_cases hskip : saved = true ∧ force = false
      · rw [if_pos hskip] at hc ⊢
        rw [hskip.1] at hsv
        obtain ⟨ref, hrf, _⟩ := s.truth i hiS ((hcl1 i).mp (clean_of_isSavedOn hsv))
        rw [hrf]
        exact ⟨_, _, rfl, trivial⟩
      · rw [if_neg hskip] at hc ⊢
        have hc2 : CollisionFree C (mapOut C (writeOut C n (some r)) r force (w.heap i).body w1).2.eff := by
          cases hx : mapOut C (writeOut C n (some r)) r force (w.heap i).body w1 with
          | mk res w2 => rw [hx] at hc; cases res <;> exact hc
        have a2 := (closed_any C r).mapOut (wr := writeOut C n (some r)) (writeOut_any hr n) force (w.heap i).body w1
        have hc1 := hc2.mono (a2.grows (st1.nodup s.nodup))
        have htr1 : ∀ p, ¬ S p → Truth C r w1.eff w1.heap p := by
          intro p hp hcl
          obtain ⟨ref', g1, g2⟩ := s.truth p hp ((hcl1 p).mp hcl)
          exact ⟨ref', by rw [href1]; exact g1, g2.step st1 hc1⟩
        let S' : Scope := ⟨fun p => S p ∨ (p = i ∧ ¬ Clean r w1.heap i), S.dom⟩
        have hsh' : Shape r S' w1.heap := by
          constructor
          · exact hsh1.closed
          · intro p hp h1 h2 k hk hks
            have hpS : ¬ S p := fun h => hp (Or.inl h)
            rcases hks with h | ⟨rfl, h⟩
            · exact hsh1.apart p hpS h1 h2 k hk h
            · rw [hfl] at h1
              rw [(st1.same p).mapped] at h2
              rw [(st1.same p).body] at hk
              exact h ((hcl1 k).mpr (s.entry.parents p hpS h1 h2 hk))
          · intro p hp
            exact hsh1.alone p (fun h => hp (Or.inl h))
        have env : Env C r rank S' i w1 := by
          refine ⟨st1.nodup s.nodup, hrk1, s.storable.mono st1.same, hsh', ?_, ?_, ?_, hm1, s.entry.dom⟩
          · intro p hp
            exact htr1 p (fun h => hp (Or.inl h))
          · by_cases hcl : Clean r w1.heap i
            · exact Or.inr hcl
            · exact Or.inl (Or.inr ⟨rfl, hcl⟩)
          · rintro s' (hs | ⟨rfl, _⟩)
            · exact Nat.le_of_lt (s.entry.below s' hs)
            · exact Nat.le_refl _
        obtain ⟨ref, w2, hx, _⟩ := mapOut_goes (S := S') (i := i) (body := (w.heap i).body) (kinds := fun j => (w1.heap j).kind)
          (keys := dkeys w1.caches) hr ih force
          (s.free.imp id fun h => by rw [hca1]; exact dget_eq_none.mp h) w1
          ⟨env, hwr1, hwk1, s.deep, (st1.same i).body, fun _ => rfl, rfl⟩ hc2
        rw [hx]
        exact ⟨_, _, rfl, trivial⟩

end

end MM
