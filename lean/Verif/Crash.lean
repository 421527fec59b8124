/-
What the repository holds whenever the process stops while it writes: the commands that
were issued until then.
-/
import Verif.Session
import Verif.TreeUpdater

namespace MM

/-! ### Parts of objects never set names -/

/-- A set of objects that contains their parts, and no loaded object that has a name of
its own. -/
def Mute (T : ObjId → Prop) (h : Heap) : Prop :=
  ∀ j, T j → (h j).mapped = true → pubName (h j).kind = none ∧ ∀ k ∈ (h j).body.subs, T k

theorem Mute.mono {T : ObjId → Prop} {h h' : Heap} (hs : ∀ j, SameObj (h j) (h' j)) (hm : Mute T h) :
    Mute T h' := by
  intro j hj hmj
  rw [(hs j).mapped] at hmj
  obtain ⟨h1, h2⟩ := hm j hj hmj
  rw [(hs j).kind, (hs j).body]
  exact ⟨h1, h2⟩

/-- Writing to the repository `r`, whatever the outcome; if no name is set by any of the
objects, only objects were stored. -/
def Hush (r : Realm) (P : Heap → Prop) (w w' : World) : Prop :=
  Any r w w' ∧ (P w.heap → OnlySaves r w.repo w'.repo)

/-- Only objects were stored. -/
def Stores (r : Realm) (w w' : World) : Prop := OnlySaves r w.repo w'.repo

section
variable {C : Cfg} {r : Realm} {T : ObjId → Prop}

theorem Hush.refl (w : World) : Hush r (Mute T) w w := ⟨Any.refl r w, fun _ => OnlySaves.refl r _⟩

theorem Hush.trans {a b c : World} (h : Hush r (Mute T) a b) (h' : Hush r (Mute T) b c) :
    Hush r (Mute T) a c :=
  ⟨h.1.trans h'.1, fun hm => (h.2 hm).trans (h'.2 (hm.mono h.1.same))⟩

theorem Hush.of {α : Type} {x : W α} (h : M.Keeps x (Any r)) (h' : M.Keeps x (Stores r)) :
    M.Keeps x (Hush r (Mute T)) := fun w => ⟨h w, fun _ => h' w⟩

theorem stores_trans : ∀ a b c : World, Stores r a b → Stores r b c → Stores r a c :=
  fun _ _ _ h h' => OnlySaves.trans h h'

theorem stores_liftG {α : Type} {g : G α} (h : M.Keeps g (OnlySaves r)) :
    M.Keeps (liftG g) (Stores r) := fun w => h w.repo

theorem stores_str (s : Str) : M.Keeps (liftG (gitSaveStr C r s)) (Stores r) :=
  stores_liftG (gitCmd_onlySaves fun _ op h => ⟨_, by simpa using h⟩)

theorem stores_tree (es : List TreeEntry) : M.Keeps (liftG (gitSaveTree C r es)) (Stores r) := by
  refine stores_liftG (gitCmd_onlySaves ?_)
  intro L op h
  split at h
  · exact ⟨_, by simpa using h⟩
  · cases h

theorem stores_same {α : Type} {x : W α} (h : ∀ w, (x w).2.repo = w.repo) : M.Keeps x (Stores r) := by
  intro w
  show OnlySaves r w.repo (x w).2.repo
  rw [h]
  exact OnlySaves.refl r _

theorem stores_flushCache : M.Keeps (flushCache C r) (Stores r) := by
  refine M.Keeps.bind stores_trans (stores_same fun _ => rfl) fun w => ?_
  split
  · exact stores_same fun _ => rfl
  · refine M.Keeps.bind stores_trans (stores_liftG (gitCmd_onlySaves ?_)) fun _ => stores_same fun _ => rfl
    intro L op h
    obtain ⟨s, _, rfl⟩ := List.mem_map.mp h
    exact ⟨_, rfl⟩

theorem stores_cacheBlob (s : Str) : M.Keeps (cacheBlob C r s) (Stores r) := by
  have last : M.Keeps ((do
      M.modify fun w => { w with caches := dset w.caches r ((dget w.caches r).getD [] ++ [s]) }
      pure (C.hash (.blob s))) : W Str) (Stores r) := stores_same fun _ => rfl
  refine M.Keeps.bind stores_trans (stores_same fun _ => rfl) fun w => ?_
  split
  · exact M.Keeps.bind stores_trans stores_flushCache fun _ => last
  · exact last

theorem stores_blob (s : Str) : M.Keeps (saveBlob C r s) (Stores r) := by
  refine M.Keeps.bind stores_trans (stores_same fun _ => rfl) fun w => ?_
  split
  · exact stores_str s
  · exact stores_cacheBlob s

theorem stores_ref (b : Bool) (h : Option Str) : M.Keeps (addRef b h) (Stores r) := by
  refine stores_same fun w => ?_
  unfold addRef
  cases h with
  | none => rfl
  | some h => simp only; split <;> rfl

theorem stores_cacheRealm : M.Keeps (cacheRealm r) (Stores r) := by
  refine stores_same fun w => ?_
  unfold cacheRealm
  split <;> rfl

theorem stores_flushRealm : M.Keeps (flushRealm C r) (Stores r) := by
  refine M.Keeps.bind stores_trans (stores_same fun _ => rfl) fun w => ?_
  split
  · exact stores_same fun _ => rfl
  · exact M.Keeps.bind stores_trans stores_flushCache fun _ => stores_same fun _ => rfl

theorem hush_bind {α β : Type} {x : W α} {f : α → W β} (hx : M.Keeps x (Hush r (Mute T)))
    (hf : ∀ a, M.Keeps (f a) (Hush r (Mute T))) : M.Keeps (x >>= f) (Hush r (Mute T)) :=
  M.Keeps.bind (R := Hush r (Mute T)) (fun _ _ _ => Hush.trans) hx hf

theorem hush_pure {α : Type} (a : α) : M.Keeps (pure a : W α) (Hush r (Mute T)) := Hush.refl

theorem hush_str (s : Str) : M.Keeps (liftG (gitSaveStr C r s)) (Hush r (Mute T)) :=
  Hush.of (gitSaveStr_any C r s) (stores_str s)

theorem hush_ref (b : Bool) (h : Option Str) : M.Keeps (addRef b h) (Hush r (Mute T)) :=
  Hush.of (addRef_any r b h) (stores_ref b h)

theorem hush_blob (s : Str) : M.Keeps (saveBlob C r s) (Hush r (Mute T)) :=
  Hush.of (saveBlob_any C r s) (stores_blob s)

theorem hush_proxy {wr : W Ref} (h : M.Keeps wr (Hush r (Mute T))) :
    M.Keeps (proxyWrite wr) (Hush r (Mute T)) := by
  refine hush_bind h fun ref => ?_
  split
  · exact hush_pure _
  · exact hush_bind (hush_ref _ _) fun _ => hush_pure _

theorem hush_files {wr : W Ref} (h : M.Keeps wr (Hush r (Mute T))) :
    M.Keeps (fileTreeWrite C (some r) wr) (Hush r (Mute T)) :=
  fileTreeWrite_keeps Hush.refl (fun _ _ _ => Hush.trans)
    (Hush.of (cacheRealm_any r) stores_cacheRealm) (Hush.of (flushRealm_any C r) stores_flushRealm)
    hush_ref wr h

theorem hush_versions {wr : ObjId → W Ref} {kids : List (Key × (Str × ObjId))}
    (h : ∀ e ∈ kids, M.Keeps (wr e.2.2) (Hush r (Mute T))) :
    M.Keeps (writeVersionList C wr r kids) (Hush r (Mute T)) := by
  refine hush_bind (M.Keeps.forEach Hush.refl (fun _ _ _ => Hush.trans) fun e he => ?_)
    fun js => hush_str _
  refine hush_bind (hush_bind (x := getObj e.2.2) (fun w => Hush.refl w) fun o => ?_) fun _ => hush_pure _
  split
  · exact hush_proxy (h e he)
  · exact h e he

theorem hush_uuids {wr : ObjId → W Ref} {kids : List (Key × (Str × ObjId))}
    (h : ∀ e ∈ kids, M.Keeps (wr e.2.2) (Hush r (Mute T))) :
    M.Keeps (M.forEach (fun e : Key × (Str × ObjId) => do
      let ref ← wr e.2.2
      pure (⟨false, locText ref, e.1.entryName⟩ : TreeEntry)) kids) (Hush r (Mute T)) :=
  M.Keeps.forEach Hush.refl (fun _ _ _ => Hush.trans) fun e he =>
    hush_bind (h e he) fun _ => hush_pure _

theorem hush_mapOut {wr : Bool → ObjId → W Ref} {force : Bool} {b : Body ObjId}
    (h : ∀ f, ∀ k ∈ b.subs, M.Keeps (wr f k) (Hush r (Mute T))) (hb : pubName b.data.kind = none) :
    M.Keeps (mapOut C wr r force b) (Hush r (Mute T)) := by
  have hk : ∀ f, ∀ e ∈ b.kids, M.Keeps (wr f e.2.2) (Hush r (Mute T)) := fun f e he =>
    h f _ (List.mem_map.mpr ⟨e, he, rfl⟩)
  unfold mapOut
  split
  · exact hush_bind (hush_str _) fun _ => hush_pure _
  · exact hush_bind (hush_blob _) fun _ => hush_bind (hush_ref _ _) fun _ =>
      hush_bind (hush_blob _) fun _ => hush_pure _
  · split
    · exact hush_pure _
    · refine hush_bind (M.Keeps.forEach Hush.refl (fun _ _ _ => Hush.trans) fun e he => ?_) fun es =>
        hush_bind (Hush.of (gitSaveTree_any C r es) (stores_tree es)) fun _ => hush_pure _
      exact hush_bind (hk _ e he) fun _ => hush_bind (x := getObj e.2.2) (fun w => Hush.refl w)
        fun _ => hush_pure _
  · refine hush_bind ?_ fun ft => hush_bind ?_ fun dlm => hush_bind (hush_str _) fun _ => hush_pure _
    · cases hx : dget b.kids .ft with
      | none => exact hush_pure _
      | some e =>
        refine hush_bind (hush_files (hk _ _ (mem_of_dget hx))) fun ref => ?_
        split
        · exact hush_pure _
        · exact hush_bind (hush_ref _ _) fun _ => hush_pure _
    · cases hx : dget b.kids .dlm with
      | none => exact hush_pure _
      | some e =>
        exact hush_bind (hk _ _ (mem_of_dget hx)) fun ref => hush_bind (hush_ref _ _) fun _ => hush_pure _
  · exact hush_bind (hush_versions (hk false)) fun _ => hush_pure _
  · rename_i hd; rw [hd] at hb; cases hb
  · rename_i hd; rw [hd] at hb; cases hb

theorem stores_upd (w : World) (h : Heap) : OnlySaves r w.repo ({ w with heap := h } : World).repo :=
  OnlySaves.refl r _

/-- Writing an object among those that set no names, whatever the outcome. -/
theorem hush_writeOut (hr : r ≠ []) (n : Nat) : ∀ (force : Bool) (i : ObjId), T i →
    M.Keeps (writeOut C n (some r) force i) (Hush r (Mute T)) := by
  induction n with
  | zero => intro force i _ w; exact Hush.refl w
  | succ n ih =>
    intro force i hi w
    refine ⟨writeOut_any hr (n + 1) force i w, fun hmute => ?_⟩
    by_cases hm : (w.heap i).mapped = true
    · obtain ⟨hpub, hsubs⟩ := hmute i hi hm
      have a1 := (closed_any C r).realm w i hm
      generalize hw1 : ({ w with heap := w.heap.set i { w.heap i with realm := some r } } : World)
          = w1 at a1
      have e1 : w1.repo = w.repo := by rw [← hw1]
      rw [writeOut_mapped hr hm hw1.symm]
      split
      · exact OnlySaves.refl r _
      · split
        · simp only; rw [e1]; exact OnlySaves.refl r _
        · split
          · split <;> (simp only; rw [e1]; exact OnlySaves.refl r _)
          · have h2 := (hush_mapOut (C := C) (r := r) (T := T) (wr := writeOut C n (some r))
              (force := force) (b := (w.heap i).body) (fun f k hk => ih f k (hsubs k hk)) hpub w1).2
              (hmute.mono a1.same)
            split
            · rename_i e w2 hx
              rw [hx, e1] at h2
              exact h2
            · rename_i ref w2 hx
              rw [hx, e1] at h2
              exact h2
    · rw [writeOut_away (by simpa using hm)]
      split
      · split <;> exact OnlySaves.refl r _
      · exact OnlySaves.refl r _

/-- The parts of an object that can be stored set no names. -/
theorem mute_parts {h : Heap} {i : ObjId} (hs : Storable h i) (hm : (h i).mapped = true) :
    Mute (fun j => ∃ k ∈ (h i).body.subs, Reach h k j) h := by
  have hslot : ∀ p, Reach h i p → (h p).mapped = true → ∀ k ∈ (h p).body.subs, pubName (h k).kind = none := by
    intro p hp hmp k hk
    obtain ⟨e, he, rfl⟩ := List.mem_map.mp hk
    exact pubName_slot ((hs p hp hmp).slots e he)
  have key : ∀ k j, Reach h k j → Reach h i k → pubName (h k).kind = none → pubName (h j).kind = none := by
    intro k j hkj
    induction hkj with
    | refl k => exact fun _ h => h
    | step k k' j hmk hk' _ ih =>
      intro h1 _
      exact ih (h1.trans (Reach.step _ _ _ hmk hk' (Reach.refl _))) (hslot k h1 hmk k' hk')
  rintro j ⟨k, hk, hkj⟩ hmj
  have hik : Reach h i k := Reach.step _ _ _ hm hk (Reach.refl _)
  refine ⟨key k j hkj hik (hslot i (Reach.refl i) hm k hk), ?_⟩
  intro k' hk'
  exact ⟨k, hk, hkj.trans (Reach.step _ _ _ hmj hk' (Reach.refl _))⟩

theorem mute_all {h : Heap} {i : ObjId} (hs : Storable h i) (hm : (h i).mapped = true)
    (hp : pubName (h i).kind = none) : Mute (Reach h i) h := by
  intro j hj hmj
  refine ⟨?_, fun k hk => hj.trans (Reach.step _ _ _ hmj hk (Reach.refl _))⟩
  cases hj with
  | refl => exact hp
  | step _ k _ hmi hk hkj => exact (mute_parts hs hm j ⟨k, hk, hkj⟩ hmj).1

/-! ### The name is set last -/

/-- The state in which the parts of an object are written. -/
theorem Sane.env {w w1 : World} (hs : Sane C r w) {i : ObjId} (hm : (w.heap i).mapped = true)
    (hw1 : w1 = { w with heap := w.heap.set i { w.heap i with realm := some r } })
    {rank : ObjId → Nat} (hrk : Ranked rank w.heap) (hsto : Storable w.heap i)
    (hc : CollisionFree C w.repo.log) :
    Env C r rank ⟨fun p => (p = i ∧ ¬ Clean r w1.heap i) ∨ Above w.heap i p, fun _ => True⟩ i w1 := by
  have st1 := realm_step (r := r) none hm
  rw [← hw1] at st1
  have hfl : ∀ j, (w1.heap j).savedOn = (w.heap j).savedOn := by
    intro j
    rw [hw1]
    by_cases hj : j = i
    · subst hj; simp
    · simp [Heap.set_ne hj]
  have href1 : ∀ j, (w1.heap j).ref = (w.heap j).ref := by
    intro j
    rw [hw1]
    by_cases hj : j = i
    · subst hj; simp
    · simp [Heap.set_ne hj]
  have heff : w1.eff = w.repo.log := by
    have : w1.eff = w.eff := by rw [hw1]; rfl
    rw [this, hs.eff]
  have hcl1 : ∀ p, Clean r w1.heap p ↔ Clean r w.heap p := fun p => flags_clean st1.same hfl
  have hsh1 : Shape r Scope.all w1.heap := (noStale_shape hs.stale).flags st1.same hfl
  refine ⟨by rw [hw1]; show (dkeys w.caches).Nodup; rw [hs.caches]; exact List.nodup_nil,
    hrk.mono st1.same, hsto.mono st1.same, ⟨fun _ _ _ _ _ => trivial, ?_, ?_⟩, ?_, ?_, ?_,
    (st1.same i).mapped.trans hm, trivial⟩
  · intro p hS h1 h2 k hk hSk
    rw [(st1.same p).mapped] at h2
    rw [(st1.same p).body] at hk
    rcases hSk with ⟨rfl, _⟩ | h
    · exact hS (Or.inr (hrk.above h2 hk (Reach.refl k)))
    · exact hS (Or.inr (hrk.above h2 hk h.2))
  · intro p _
    exact hsh1.alone p (fun h => h)
  · intro p _ hcl
    obtain ⟨ref', g1, g2⟩ := hs.truth p ((hcl1 p).mp hcl)
    refine ⟨ref', by rw [href1]; exact g1, ?_⟩
    rw [← hs.eff] at g2
    exact g2.step st1 (by rw [heff]; exact hc)
  · by_cases hcl : Clean r w1.heap i
    · exact Or.inr hcl
    · exact Or.inl (Or.inl ⟨rfl, hcl⟩)
  · rintro s (⟨rfl, _⟩ | h)
    · exact Nat.le_refl _
    · exact Nat.le_of_lt ((hrk.reach h.2).resolve_left h.1)

/-- The outcomes of setting a name. -/
theorem updateRef_log (nm hash : Str) (w : World) :
    (liftG (gitUpdateRef C r nm hash) w).2.repo.log = w.repo.log ∨
      (liftG (gitUpdateRef C r nm hash) w).2.repo.log = .setRef r nm hash :: w.repo.log := by
  have e : (liftG (gitUpdateRef C r nm hash) w).2.repo = (gitUpdateRef C r nm hash w.repo).2 := rfl
  obtain ⟨k, hk⟩ := gitCmd_log (fun L => match resolve C L r hash with
    | some _ => ([GitOp.setRef r nm hash], Except.ok ())
    | none => ([], .error .runtime)) w.repo
  have hk' : (gitUpdateRef C r nm hash w.repo).2.log = _ := hk
  rw [e, hk']
  cases resolve C w.repo.log r hash with
  | none => left; simp
  | some o => cases k with
    | zero => left; simp
    | succ k => right; simp

/-- What is stored while an object is written, whatever the outcome: only objects, or
objects and then the name of the written object, when its whole content was stored. -/
def NameLast (C : Cfg) (r : Realm) (i : ObjId) (w w' : World) : Prop :=
  OnlySaves r w.repo w'.repo ∨ ∃ nm hash mid, pubName (w.heap i).kind = some nm ∧
    OnlySaves r w.repo mid ∧ w'.repo.log = .setRef r nm hash :: mid.log ∧ isHash hash = true ∧
    ∀ h0, Full C mid.log h0 (.sto r ⟨(w.heap i).kind, ⟨(w.heap i).kind.name, some hash⟩⟩) ∧
      SameContent C w.repo.log w.heap (.mem i) mid.log h0
        (.sto r ⟨(w.heap i).kind, ⟨(w.heap i).kind.name, some hash⟩⟩)

theorem suffix_collisionFree {L L' : Log} (h : L <:+ L') (hc : CollisionFree C L') :
    CollisionFree C L := by
  obtain ⟨K, rfl⟩ := h
  exact hc.mono (grows_append K L)

/-- A name is set after everything that it leads to was stored. -/
theorem name_last {w w1 w2 : World} {i : ObjId} (hf : Full C w.repo.log w.heap (.mem i)) (hm : (w.heap i).mapped = true)
    (hsame1 : ∀ j, SameObj (w.heap j) (w1.heap j)) (e1 : w1.repo = w.repo) {nm hash : Str}
    (hpub : pubName (w.heap i).kind = some nm) (hh : isHash hash = true)
    (hsv : OnlySaves r w1.repo w2.repo) (hsame : ∀ j, SameObj (w1.heap j) (w2.heap j))
    (hca : w2.caches = [])
    (hfull : CollisionFree C w2.eff →
      StoredAs C r w2.eff w2.heap (w2.heap i).body (normRef (w2.heap i).kind ⟨(w2.heap i).kind.name, some hash⟩))
    {x : Except PyErr Ref} {w' : World} {cls : Str}
    (h : ((do
      liftG (gitUpdateRef C r nm hash)
      pure ⟨cls, some hash⟩) : W Ref) w2 = (x, w'))
    (hc : CollisionFree C w'.repo.log) : NameLast C r i w w' := by
  have hlog : w'.repo.log = w2.repo.log ∨ w'.repo.log = .setRef r nm hash :: w2.repo.log := by
    have := updateRef_log (C := C) (r := r) nm hash w2
    cases hx : liftG (gitUpdateRef C r nm hash) w2 with
    | mk res w3 =>
      rw [hx] at this
      cases res with
      | error e => rw [M.bind_of_error hx] at h; cases h; exact this
      | ok u => rw [M.bind_of_ok hx] at h; cases h; exact this
  rw [e1] at hsv
  rcases hlog with hl | hl
  · left
    obtain ⟨K, e, f⟩ := hsv
    exact ⟨K, hl.trans e, f⟩
  · right
    have hc2 : CollisionFree C w2.repo.log := suffix_collisionFree (by rw [hl]; exact List.suffix_cons ..) hc
    have heff : w2.eff = w2.repo.log := by unfold World.eff; rw [hca]; rfl
    refine ⟨nm, hash, w2.repo, hpub, hsv, hl, hh, fun h0 => ?_⟩
    have hsam : ∀ j, SameObj (w.heap j) (w2.heap j) := fun j => (hsame1 j).trans (hsame j)
    have hkind := (hsam i).kind
    have hst := hfull (by rw [heff]; exact hc2)
    rw [heff] at hst
    have hgood := StoredAs.good ((hsam i).mapped.trans hm) (refOk_hash hh (cls := (w2.heap i).kind.name)
      (fun e => by rw [hkind] at e; rw [e] at hpub; cases hpub)) hst
    have hg2 : Grows w.repo.log w2.repo.log := hsv.grows
    have hmem : SameContent C w.repo.log w.heap (.mem i) w2.repo.log w2.heap (.mem i) := fun ks t =>
      (look_mem_mono hg2 hc2 (fun _ x _ loc _ _ _ _ _ => Or.inr (hsv.refs x loc)) hsam ks t i
        (hf ks t)).symm
    have hnorm : normRef (w2.heap i).kind ⟨(w2.heap i).kind.name, some hash⟩ =
        ⟨(w2.heap i).kind.name, some hash⟩ := by unfold normRef; split <;> rfl
    have hsc : SameContent C w.repo.log w.heap (.mem i) w2.repo.log h0
        (.sto r ⟨(w.heap i).kind, ⟨(w.heap i).kind.name, some hash⟩⟩) := by
      have h1 := hgood.same
      rw [hnorm, hkind] at h1
      refine hmem.trans (h1.trans ?_)
      intro ks t
      symm
      refine look_sto_mono (Grows.refl _) hc2 ks t r _ (fun loc _ _ => Or.inr rfl) ?_
      exact (Full.of_same h1 hgood.full) ks t
    exact ⟨Full.of_same hsc hf, hsc⟩

/-- Writing an object, whatever the outcome; what is known while its parts are written is given. -/
theorem steps_env {w w' : World} (hr : r ≠ []) {n : Nat} {force : Bool} {i : ObjId}
    {x : Except PyErr Ref} (h : writeOut C n (some r) force i w = (x, w'))
    (hc : CollisionFree C w'.repo.log) (hsto : Storable w.heap i) (hcaches : w.caches = [])
    (hf : Full C w.repo.log w.heap (.mem i))
    (henv : (w.heap i).mapped = true → CollisionFree C w.repo.log →
      ∃ rank S, Env C r rank S i { w with heap := w.heap.set i { w.heap i with realm := some r } }) :
    NameLast C r i w w' := by
  have any := writeOut_any (C := C) hr n force i w
  rw [h] at any
  by_cases hm : (w.heap i).mapped = true
  case neg =>
    left
    have hmute : Mute (fun j => j = i) w.heap := by rintro j rfl hmj; exact absurd hmj hm
    have := (hush_writeOut (C := C) (T := fun j => j = i) hr n force i rfl w).2 hmute
    rw [h] at this
    exact this
  by_cases hpub : pubName (w.heap i).kind = none
  · left
    have := (hush_writeOut (C := C) hr n force i (Reach.refl i) w).2 (mute_all hsto hm hpub)
    rw [h] at this
    exact this
  cases n with
  | zero => left; cases h; exact OnlySaves.refl r _
  | succ n =>
    have hmute := mute_parts hsto hm
    have a1 := (closed_any C r).realm w i hm
    generalize hw1 : ({ w with heap := w.heap.set i { w.heap i with realm := some r } } : World)
        = w1 at a1
    have e1 : w1.repo = w.repo := by rw [← hw1]
    have hca1 : w1.caches = [] := by rw [← hw1]; exact hcaches
    have stop : w'.repo = w.repo → NameLast C r i w w' := fun e => by
      left; rw [e]; exact OnlySaves.refl r _
    rw [writeOut_mapped hr hm hw1.symm] at h
    split at h
    · cases h; exact stop rfl
    · split at h
      · cases h; exact stop e1
      · split at h
        · split at h <;> (cases h; exact stop e1)
        · cases hx : mapOut C (writeOut C n (some r)) r force (w.heap i).body w1 with
          | mk res w2 =>
            have hlog : w'.repo = w2.repo := by
              rw [hx] at h
              cases res <;> (cases h; rfl)
            have hc2 : CollisionFree C w2.repo.log := by rw [← hlog]; exact hc
            have hL := any.log
            have hc0 : CollisionFree C w.repo.log := by
              obtain ⟨K, e, _⟩ := hL
              rw [e] at hc
              exact hc.mono (grows_append K _)
            obtain ⟨rank, S, env⟩ := henv hm hc0
            rw [hw1] at env
            have hb1 : (w1.heap i).body = (w.heap i).body := (a1.same i).body
            have hbo := env.storable i (Reach.refl i) env.mapped
            have hkidsT : ∀ f, ∀ e ∈ (w.heap i).body.kids, M.Keeps (writeOut C n (some r) f e.2.2)
                (Hush r (Mute (fun j => ∃ k ∈ (w.heap i).body.subs, Reach w.heap k j))) := fun f e he =>
              hush_writeOut hr n f e.2.2 ⟨_, List.mem_map.mpr ⟨e, he, rfl⟩, Reach.refl _⟩
            have hmute1 := hmute.mono a1.same
            have fin : NameLast C r i w w2 → NameLast C r i w w' := by
              rintro (g | ⟨nm, hash, mid, g1, g2, g3, g4⟩)
              · left; rw [hlog]; exact g
              · right; exact ⟨nm, hash, mid, g1, g2, by rw [hlog]; exact g3, g4⟩
            refine fin ?_
            have hkd : (w.heap i).kind = (w.heap i).body.data.kind := rfl
            cases hd : (w.heap i).body.data with
            | text s => rw [hkd, hd] at hpub; exact absurd rfl hpub
            | metadata m => rw [hkd, hd] at hpub; exact absurd rfl hpub
            | mtree leaf => rw [hkd, hd] at hpub; exact absurd rfl hpub
            | mrr u v => rw [hkd, hd] at hpub; exact absurd rfl hpub
            | vlist => rw [hkd, hd] at hpub; exact absurd rfl hpub
            | tvl =>
              have hpn : pubName (w.heap i).kind = some tvlRefName := by rw [hkd, hd]; rfl
              unfold mapOut at hx
              rw [hd] at hx
              simp only at hx
              have hsv := hush_versions (C := C) (wr := writeOut C n (some r) false) (hkidsT false) w1
              cases hv : writeVersionList C (writeOut C n (some r) false) r (w.heap i).body.kids w1 with
              | mk res1 w3 =>
                rw [hv] at hsv
                have sv3 := hsv.2 hmute1
                cases res1 with
                | error e =>
                  rw [M.bind_of_error hv] at hx
                  cases hx
                  left; rw [← e1]; exact sv3
                | ok hash =>
                  rw [M.bind_of_ok hv] at hx
                  have hca : w3.caches = [] := by
                    have := KeysOk.versionList (C := C) (fun j => KeysOk.writeOut C n (some r) false j) r
                      (w.heap i).body.kids w1 w3 hash hv
                    rw [hca1] at this
                    exact List.map_eq_nil_iff.mp this
                  have hv' := hv
                  rw [← hb1] at hv'
                  have hash_ok : isHash hash = true := by
                    unfold writeVersionList at hv
                    obtain ⟨js, w4, _, hw⟩ := M.bind_ok hv
                    obtain ⟨_, rfl, _, _⟩ := gitSaveStr_quiet hw
                    exact C.valid _
                  refine name_last hf hm a1.same e1 hpn hash_ok sv3 hsv.1.same hca ?_ hx hc2
                  intro hcf
                  obtain ⟨js, mm, rfl, hst, hall⟩ := versions_mid hr (writeSpec C hr rank n) env w3 hash hv' hcf
                  have hb3 : (w3.heap i).body = (w1.heap i).body := (mm.step.same i).body
                  have hbd : (w3.heap i).body.data = .tvl := by rw [hb3, hb1, hd]
                  have hk3 : (w3.heap i).kind = .tvl := by
                    show (w3.heap i).body.data.kind = _
                    rw [hbd]; rfl
                  have := store_versions hcf (hbo.mono mm.step.same) (Or.inr (by rw [hb1, hd])) (all2_imp
                    (fun e _ b ⟨ref, ho, hb⟩ => ⟨ref, ho.good, hb⟩) hall) hst
                  rw [← hb3, hbd] at this
                  rw [hk3]
                  exact this
            | uuidset =>
              have hpn : pubName (w.heap i).kind = some uuidSetRefName := by rw [hkd, hd]; rfl
              unfold mapOut at hx
              rw [hd] at hx
              simp only at hx
              have hsv := hush_uuids (wr := writeOut C n (some r) false) (hkidsT false) w1
              cases hv : M.forEach (fun e : Key × (Str × ObjId) => do
                  let ref ← writeOut C n (some r) false e.2.2
                  pure (⟨false, locText ref, e.1.entryName⟩ : TreeEntry)) (w.heap i).body.kids w1 with
              | mk res1 w3 =>
                rw [hv] at hsv
                have sv3 := hsv.2 hmute1
                cases res1 with
                | error e =>
                  rw [M.bind_of_error hv] at hx
                  cases hx
                  left; rw [← e1]; exact sv3
                | ok es =>
                  rw [M.bind_of_ok hv] at hx
                  have sv4 := stores_tree (C := C) (r := r) es w3
                  have an4 := gitSaveTree_any C r es w3
                  cases ht : liftG (gitSaveTree C r es) w3 with
                  | mk res4 w4 =>
                    rw [ht] at sv4 an4
                    cases res4 with
                    | error e =>
                      rw [M.bind_of_error ht] at hx
                      cases hx
                      left; rw [← e1]; exact sv3.trans sv4
                    | ok hash =>
                      rw [M.bind_of_ok ht] at hx
                      have hca3 : w3.caches = [] := by
                        have := KeysOk.forEach (l := (w.heap i).body.kids) (fun e _ => KeysOk.bind
                          (KeysOk.writeOut C n (some r) false e.2.2) fun ref =>
                            KeysOk.pure (⟨false, locText ref, e.1.entryName⟩ : TreeEntry)) w1 w3 es hv
                        rw [hca1] at this
                        exact List.map_eq_nil_iff.mp this
                      have hca : w4.caches = [] := by
                        have := KeysOk.liftG _ _ _ _ ht
                        rw [hca3] at this
                        exact List.map_eq_nil_iff.mp this
                      obtain ⟨q, ⟨es', hmk, rfl, hst⟩, _⟩ := gitSaveTree_quiet ht
                      have hv' := hv
                      rw [← hb1] at hv'
                      refine name_last hf hm a1.same e1 hpn (C.valid _) (sv3.trans sv4)
                        (fun j => (hsv.1.same j).trans (an4.same j)) hca ?_ hx hc2
                      intro hcf
                      obtain ⟨mm, hall⟩ := uuids_mid hr (writeSpec C hr rank n) env hv' (hcf.mono q.grows)
                      have hall2 : All2 (fun e b => ∃ ref, Out C r n w4 e.2.2 ref ∧
                          b = (⟨false, locText ref, e.1.entryName⟩ : TreeEntry)) (w1.heap i).body.kids es := by
                        refine all2_imp ?_ hall
                        rintro e _ b ⟨ref, ho, hb⟩
                        exact ⟨ref, ho.quiet q hcf, hb⟩
                      have hkids : (w1.heap i).body.kids ≠ [] := by
                        intro h0
                        rw [h0] at hall
                        cases hall
                        have hno : mktree (treeSpec []) = none := by decide
                        rw [hno] at hmk
                        cases hmk
                      have hb3 : (w4.heap i).body = (w1.heap i).body := by
                        rw [q.heap]; exact (mm.step.same i).body
                      have hbd : (w4.heap i).body.data = .uuidset := by rw [hb3, hb1, hd]
                      have hk3 : (w4.heap i).kind = .uuidset := by
                        show (w4.heap i).body.data.kind = _
                        rw [hbd]; rfl
                      have hbo4 : BodyOk w4.heap (w1.heap i).body := by
                        rw [q.heap]; exact hbo.mono mm.step.same
                      have := store_uuidset hcf hbo4 (by rw [hb1, hd]) hkids (all2_imp
                        (fun e _ b ⟨ref, ho, hb⟩ => ⟨ref, ho.good, hb⟩) hall2) hmk hst
                      rw [← hb3] at this
                      rw [hk3]
                      exact this

/-- Writing an object, whatever the outcome. -/
theorem Sane.steps {w w' : World} (hs : Sane C r w) (hr : r ≠ []) {n : Nat} {force : Bool} {i : ObjId}
    {x : Except PyErr Ref} (h : writeOut C n (some r) force i w = (x, w'))
    (hc : CollisionFree C w'.repo.log) (hsto : Storable w.heap i) :
    NameLast C r i w w' := by
  refine steps_env hr h hc hsto hs.caches (hs.full i) fun hm hc0 => ?_
  obtain ⟨rank, hrk⟩ := hs.ranked
  exact ⟨rank, _, hs.env hm rfl hrk hsto hc0⟩

/-- Writing an object or its wrapper, whatever the outcome.  Wrappers are for tree nodes. -/
theorem Sane.steps_as {w w' : World} (hs : Sane C r w) (hr : r ≠ []) {via : Via} {n : Nat} {force : Bool}
    {i : ObjId} {x : Except PyErr Ref} (h : writeAs C via n (some r) force i w = (x, w'))
    (hv : via = .own ∨ (w.heap i).kind.isMtree = true)
    (hc : CollisionFree C w'.repo.log) (hsto : Storable w.heap i) :
    NameLast C r i w w' := by
  rcases hv with rfl | hv
  · exact hs.steps hr h hc hsto
  · left
    have hpub : pubName (w.heap i).kind = none := by
      cases hk : (w.heap i).kind <;> rw [hk] at hv <;> first | rfl | cases hv
    have main : ∃ T, T i ∧ Mute T w.heap := by
      by_cases hm : (w.heap i).mapped = true
      · exact ⟨_, Reach.refl i, mute_all hsto hm hpub⟩
      · exact ⟨fun j => j = i, rfl, fun j hj hmj => absurd (hj ▸ hmj) hm⟩
    obtain ⟨T, hi, hT⟩ := main
    have hw := hush_writeOut (C := C) (T := T) hr n force i hi
    have : (writeAs C via n (some r) force i w).2 = w' := by rw [h]
    rw [← this]
    cases via with
    | own => exact (hw w).2 hT
    | dataset => exact (hush_proxy hw w).2 hT
    | file =>
      show OnlySaves r w.repo (writeFileTree C n (some r) force i w).2.repo
      rw [writeFileTree_eq hr]
      exact (hush_files hw w).2 hT

end

end MM
