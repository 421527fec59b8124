/-
Processes that use a repository one after the other, and flush their object references.
-/
import Verif.Protect
import Verif.Purge

namespace MM

/-- What processes do with one repository `r`, one after the other, beginning when nothing is in
it.  The second component lists the references that writing returned.

* `start`: a process begins with no objects; nothing is stored in the repository.
* `next`: the process ends and another one begins.  No object reference is pending.
* `new`, `read`, `readIn`, `purge`, `edit`: objects are created from any parts, loaded, unloaded and
  changed; loading and unloading may fail.
* `load`: an object is created for a reference that writing returned, or for the name of a
  top-level object.
* `write`: writing to the repository, to which only trees go through the wrapper classes, is
  successful, and the content can be stored.
* `flush`: flushing the object references is successful.
* `outside`: others store objects; names are not changed, no two stored objects have the same
  hash. -/
inductive Lifetime (C : Cfg) (r : Realm) : World → List Link → Prop
  | start (w : World) : w.caches = [] → w.refs = [] → (∀ j, (w.heap j).savedOn = []) →
      (∀ o, ¬ Stored w.repo.log r o) → (∀ n, refOf w.repo.log r n = none) → CollisionFree C w.repo.log →
      Lifetime C r w []
  | next (w w' : World) (ks : List Link) : Lifetime C r w ks → w.refs = [] → w'.repo.log = w.repo.log →
      w'.caches = [] → w'.refs = [] → (∀ j, (w'.heap j).savedOn = []) → Lifetime C r w' ks
  | new (w : World) (ks : List Link) (b : Body ObjId) : Lifetime C r w ks → Lifetime C r (create (Obj.new b) w) ks
  | load (w : World) (ks : List Link) (l : Link) : Lifetime C r w ks →
      l ∈ ks ∨ (∃ nm, pubName l.kind = some nm ∧ l.ref.loc = some nm) → Lifetime C r (create (l.obj r) w) ks
  | read (w : World) (ks : List Link) (i : ObjId) : Lifetime C r w ks → Lifetime C r (ensureMapped C i w).2 ks
  | readIn (w : World) (ks : List Link) (i : ObjId) : Lifetime C r w ks → Lifetime C r (readIn C i w).2 ks
  | purge (w : World) (ks : List Link) (n : Nat) (i : ObjId) : Lifetime C r w ks → Lifetime C r (purge n i w).2 ks
  | edit (w : World) (ks : List Link) (i : ObjId) (b : Body ObjId) : Lifetime C r w ks → Lifetime C r (edit i b w) ks
  | write (w : World) (ks : List Link) (via : Via) (n : Nat) (force : Bool) (i : ObjId) (ref : Ref) (w' : World) :
      Lifetime C r w ks → writeAs C via n (some r) force i w = (.ok ref, w') → CollisionFree C w'.repo.log →
      Storable w.heap i → (via ≠ .own → ∃ leaf, (w.heap i).kind = .mtree leaf) →
      Lifetime C r w' (⟨(w.heap i).kind, ref⟩ :: ks)
  | flush (w : World) (ks : List Link) (checked : List Realm) (s' : RefState) : Lifetime C r w ks →
      flush C r ⟨w.repo, w.refs, checked⟩ = (.ok (), s') → StoreReadable r ⟨w.repo, w.refs, checked⟩ →
      CollisionFree C s'.repo.log → Lifetime C r { w with repo := s'.repo, refs := s'.cached } ks
  | outside (w : World) (ks : List Link) (L : Log) (fs : List Fault) : Lifetime C r w ks → Grows w.repo.log L →
      (∀ x n, refOf L x n = refOf w.repo.log x n) → CollisionFree C L → WellTrees L r →
      Lifetime C r (outside L fs w) ks

section
variable {C : Cfg} {r : Realm}

/-! ### Object references -/

theorem reachable_entryAt {L : Log} : ∀ (p : List Str) (h : Str) (es : List TreeEntry) (x : Bool × Str),
    Reachable C L r h → findObj C L r h = some (.tree es) → entryAt C L r es p = some x → Reachable C L r x.2 := by
  have step : ∀ (h : Str) (es : List TreeEntry) (n : Str) (x : Bool × Str), Reachable C L r h → findObj C L r h = some (.tree es) →
      dget (byName es) n = some x → Reachable C L r x.2 := by
    intro h es n x h1 h2 h3
    obtain ⟨e, he, hx⟩ := List.mem_map.mp (mem_of_dget h3)
    cases hx
    exact .entry h es e h1 h2 he
  intro p
  induction p with
  | nil => intro h es x _ _ h3; cases h3
  | cons n p ih =>
    intro h es x h1 h2 h3
    cases p with
    | nil => exact step h es n x h1 h2 h3
    | cons m p =>
      rw [entryAt] at h3
      cases hd : dget (byName es) n with
      | none => rw [hd] at h3; cases h3
      | some y =>
        obtain ⟨b, y⟩ := y
        rw [hd] at h3
        cases b with
        | false => cases h3
        | true =>
          simp only at h3
          cases hf : findObj C L r y with
          | none => rw [hf] at h3; cases h3
          | some o =>
            rw [hf] at h3
            cases o with
            | blob s => cases h3
            | tree es' => exact ih y es' x (step h es n (true, y) h1 h2 hd) hf h3

/-- Git reaches what has an object reference. -/
theorem Recorded.reachable {L : Log} {x : Bool × Str} (h : Recorded C L r x) : Reachable C L r x.2 := by
  obtain ⟨es, h1, h2⟩ := h
  unfold resolve at h1
  rw [if_neg (by decide)] at h1
  cases hr : refOf L r objectRefName with
  | none => rw [hr] at h1; cases h1
  | some h0 =>
    rw [hr] at h1
    exact reachable_entryAt _ h0 es x (.named _ _ hr) h1 h2

theorem resolve_grow {L L' : Log} (hg : Grows L L') (hc : CollisionFree C L') (hn : refOf L' r objectRefName = refOf L r objectRefName)
    {es : List TreeEntry} (h : resolve C L r objectRefName = some (.tree es)) : resolve C L' r objectRefName = some (.tree es) := by
  unfold resolve at h ⊢
  rw [if_neg (by decide)] at h ⊢
  rw [hn]
  cases hr : refOf L r objectRefName with
  | none => rw [hr] at h; cases h
  | some h0 =>
    rw [hr] at h
    exact findObj_mono hg hc h

/-- More stored objects do no harm. -/
theorem Recorded.grow {L L' : Log} (hg : Grows L L') (hc : CollisionFree C L') (hn : refOf L' r objectRefName = refOf L r objectRefName)
    {x : Bool × Str} (h : Recorded C L r x) : Recorded C L' r x := by
  obtain ⟨es, h1, h2⟩ := h
  exact ⟨es, resolve_grow hg hc hn h1, entryAt_found hg hc _ es x h2⟩

/-- The reference of the object references points to a stored tree, if it is there. -/
def StoreThere (C : Cfg) (L : Log) (r : Realm) : Prop := ∀ h, refOf L r objectRefName = some h →
  ∃ es, Stored L r (.tree es) ∧ h = C.hash (.tree es)

theorem StoreThere.grow {L L' : Log} (h : StoreThere C L r) (hg : Grows L L') (hn : refOf L' r objectRefName = refOf L r objectRefName) :
    StoreThere C L' r := by
  intro x hx
  rw [hn] at hx
  obtain ⟨es, h1, h2⟩ := h x hx
  exact ⟨es, hg r _ h1, h2⟩

theorem StoreOk.grow {L L' : Log} (hs : StoreOk C L r) (ht : StoreThere C L r) (hg : Grows L L') (hc : CollisionFree C L')
    (hn : refOf L' r objectRefName = refOf L r objectRefName) : StoreOk C L' r := by
  intro es hres p t d hp he
  have hres0 : resolve C L r objectRefName = some (.tree es) := by
    cases hr : refOf L r objectRefName with
    | none =>
      unfold resolve at hres
      rw [if_neg (by decide), hn, hr] at hres
      cases hres
    | some h =>
      obtain ⟨es0, h1, rfl⟩ := ht h hr
      have h2 : resolve C L r objectRefName = some (.tree es0) := by
        unfold resolve
        rw [if_neg (by decide), hr]
        exact findObj_of_stored (hc.mono hg) h1
      rw [resolve_grow hg hc hn h2] at hres
      cases hres
      exact h2
  have hsame : entryAt C L' r es p = entryAt C L r es p := by
    refine entryAt_later hg hc p es fun a b hab ha hb h h1 => ?_
    have hl : a.length < 4 := by
      have : p.length = a.length + b.length := by rw [hab, List.length_append]
      omega
    exact (hs es hres0 a true h hl h1).2
  rw [hsame] at he
  obtain ⟨h1, es0, h2⟩ := hs es hres0 p t d hp he
  exact ⟨h1, es0, findObj_mono hg hc h2⟩

theorem refInfos_well {xs : List (Bool × Str)} (hi : ∀ x ∈ xs, isHash x.2 = true) : ∀ i ∈ refInfos xs, WellInfo i := by
  intro i hx
  obtain ⟨x, h1, rfl⟩ := List.mem_map.mp hx
  exact refInfo_well (hi x h1)

theorem flush_there {s s' : RefState} (hw : WellTrees s.repo.log r) (hi : ∀ x ∈ s.cached, isHash x.2 = true)
    (ht : StoreThere C s.repo.log r) (hr : flush C r s = (.ok (), s')) : StoreThere C s'.repo.log r := by
  obtain ⟨t, b, s1, e1, l1⟩ := addLegacy_ok (C := C) (r := r) hw
  unfold flush at hr
  rw [M.bind_of_ok e1] at hr
  simp only at hr
  obtain ⟨u2, s2, h2, hr⟩ := M.bind_ok hr
  obtain ⟨u3, s3, h3, h4⟩ := M.bind_ok hr
  have hw1 : WellTrees s1.repo.log r := by rw [l1.log]; exact hw
  have hi1 : ∀ x ∈ s1.cached, isHash x.2 = true := by
    have hleg : ∀ name h, InLegacy C s.repo.log r name h → isHash h = true := by
      rintro name h ⟨es, h1, e, h2, rfl⟩
      exact (hw es (resolve_is_stored h1)).hashes e h2
    intro x hx
    rcases l1.only x hx with h | ⟨_, h⟩ | ⟨_, h⟩
    · exact hi x h
    · exact hleg _ _ h
    · exact hleg _ _ h
  have hback : ∀ {name : Str} {added : Bool} {a c : RefState} {o : Except PyErr Unit}, name ≠ objectRefName →
      dropLegacy r name added a = (o, c) → StoreThere C a.repo.log r → StoreThere C c.repo.log r := by
    intro name added a c o hne hd ha
    obtain ⟨k1, _, k2⟩ := dropLegacy_any hd
    rcases k2 with k2 | ⟨_, k2⟩
    · rw [k2]; exact ha
    · intro h hh
      rw [k2, refOf_delRef_ne (fun he => hne (by cases he; rfl))] at hh
      obtain ⟨es, h1, h2⟩ := ha h hh
      exact ⟨es, by rw [k2]; exact List.mem_cons_of_mem _ h1, h2⟩
  refine hback (by decide) h4 (hback (by decide) h3 ?_)
  unfold flushCached at h2
  rw [M.bind_of_ok (M.get_run s1)] at h2
  by_cases he : s1.cached.isEmpty = true
  · rw [if_pos he] at h2
    cases h2
    rw [l1.log]; exact ht
  · rw [if_neg he, eachOk_refInfo hi1, M.bind_of_ok (M.ofExcept_ok _ s1)] at h2
    obtain ⟨u, s1', k1, k2⟩ := M.bind_ok h2
    cases k2
    obtain ⟨_, _, _, k3⟩ := storeRefs_any hw1 (refInfos_well hi1) k1
    obtain ⟨_, mid, old, new, m1, m2, m3, m4, _⟩ := k3 rfl
    intro h hh
    simp only at hh ⊢
    rw [m2] at hh ⊢
    simp only [refOf, and_self, if_true, Option.some.injEq] at hh
    exact ⟨new, List.mem_cons_of_mem _ m4, hh.symm⟩

/-! ### Reading -/

theorem sameList_allocKids (x : Realm) : ∀ ks : List (Key × (Str × Link)), SameList (allocKids x ks) := by
  intro ks
  induction ks with
  | nil => exact fun _ => rfl
  | cons e ks ih => exact sameList_bind (fun _ => rfl) fun _ => sameList_bind ih fun _ => fun _ => rfl

theorem sameList_readIn (i : ObjId) : SameList (readIn C i) := by
  refine sameList_bind (fun _ => rfl) fun o => ?_
  split
  · exact fun _ => rfl
  · split
    · split
      · refine sameList_bind (fun w => ?_) fun _ => ?_
        · unfold M.assert; split <;> rfl
        · split <;> exact fun _ => rfl
      · split
        · exact fun _ => rfl
        · refine sameList_bind (fun w => ?_) fun _ => ?_
          · unfold M.assert; split <;> rfl
          · split
            · exact fun _ => rfl
            · exact sameList_bind (sameList_liftG _) fun b => sameList_bind (sameList_allocKids _ _) fun _ => fun _ => rfl
    · exact fun _ => rfl

theorem sameList_ensureMapped (i : ObjId) : SameList (ensureMapped C i) := by
  refine sameList_bind (fun _ => rfl) fun o => ?_
  split
  · exact fun _ => rfl
  · exact sameList_bind (sameList_readIn i) fun _ => sameList_bind (fun _ => rfl) fun _ => fun _ => rfl

theorem textAt_resolve {L : Log} {a b : Str} (h : resolve C L r a = resolve C L r b) : textAt C L r a = textAt C L r b := by
  unfold textAt; rw [h]

theorem decode_resolve {L : Log} {k : Kind} {a b : Str} (h : resolve C L r a = resolve C L r b) :
    decode C L r k a = decode C L r k b := by
  have h1 := textAt_resolve h
  have h2 : jsonAt C L r a = jsonAt C L r b := by unfold jsonAt; rw [h1]
  have h3 : treeAt C L r a = treeAt C L r b := by unfold treeAt; rw [h]
  unfold decode
  rw [h1, h2, h3]

theorem Supp.loc {L : Log} {R : Bool × Str → Prop} {k : Kind} {ref : Ref} (h : Supp C L r R k ref) (hn : ref.isNone = false) :
    ∃ x, ref.loc = some x ∧ isHash x = true := by
  cases h with
  | none _ _ h1 => rw [hn] at h1; cases h1
  | text _ s _ h2 => exact ⟨_, h2, C.valid _⟩
  | metadata _ _ _ _ h2 => exact ⟨_, h2, C.valid _⟩
  | mtree _ _ _ _ h2 => exact ⟨_, h2, C.valid _⟩
  | mrr _ _ _ _ _ _ _ h2 => exact ⟨_, h2, C.valid _⟩
  | versions _ _ _ _ _ h2 => exact ⟨_, h2, C.valid _⟩
  | uuidset _ _ _ h2 => exact ⟨_, h2, C.valid _⟩

theorem eff_nil {w : World} (h : w.caches = []) : w.eff = w.repo.log := by
  unfold World.eff; rw [h]; rfl

/-- More is stored, and what was pending or recorded still is. -/
structure Keeping (C : Cfg) (r : Realm) (w w' : World) : Prop where
  caches : w.caches = [] ∧ w'.caches = []
  stored : ∀ o, Stored w.repo.log r o → Stored w'.repo.log r o
  listed : ∀ x, x ∈ w.refs ∨ Recorded C w.repo.log r x → x ∈ w'.refs ∨ Recorded C w'.repo.log r x

theorem Keeping.prot {w w' : World} (h : Keeping C r w w') {k : Kind} {ref : Ref} (hp : Prot C (Recorded C w.repo.log r) r k ref w) :
    Prot C (Recorded C w'.repo.log r) r k ref w' := by
  refine ⟨hp.1, hp.2.imp (fun hs => ?_) id⟩
  rw [eff_nil h.caches.1] at hs
  rw [eff_nil h.caches.2]
  exact hs.mono h.stored h.listed

theorem Keeping.published {w w' : World} (h : Keeping C r w w')
    (hn : ∀ k nm, pubName k = some nm → refOf w'.repo.log r nm = refOf w.repo.log r nm)
    (hp : Published C (Recorded C w.repo.log r) r w) : Published C (Recorded C w'.repo.log r) r w' := by
  intro k nm x hk hx
  rw [hn k nm hk] at hx
  have hs := hp k nm x hk hx
  rw [eff_nil h.caches.1] at hs
  rw [eff_nil h.caches.2]
  exact hs.mono h.stored h.listed

theorem Keeping.same {w w' : World} (h1 : w.caches = []) (h2 : w'.caches = []) (hl : w'.repo.log = w.repo.log) (hr : w'.refs = w.refs) :
    Keeping C r w w' :=
  ⟨⟨h1, h2⟩, fun o h => by rw [hl]; exact h, fun x h => by rw [hl, hr]; exact h⟩

/-- What holds throughout -/
structure Guarded (C : Cfg) (r : Realm) (w : World) (ks : List Link) : Prop where
  caches : w.caches = []
  wells : WellTrees w.repo.log r
  store : StoreOk C w.repo.log r
  there : StoreThere C w.repo.log r
  hashes : ∀ x ∈ w.refs, isHash x.2 = true
  distinct : CollisionFree C w.repo.log
  named : Published C (Recorded C w.repo.log r) r w
  flagged : ∀ j, r ∈ (w.heap j).savedOn → ∃ ref, (w.heap j).ref = some ref ∧ Prot C (Recorded C w.repo.log r) r (w.heap j).kind ref w
  known : ∀ l ∈ ks, Prot C (Recorded C w.repo.log r) r l.kind l.ref w

/-- The objects in memory change, nothing else. -/
theorem Guarded.heap {w w' : World} {ks : List Link} (h : Guarded C r w ks) (h1 : w'.caches = []) (hl : w'.repo.log = w.repo.log)
    (hr : w'.refs = w.refs)
    (hf : ∀ j, r ∈ (w'.heap j).savedOn → ∃ ref, (w'.heap j).ref = some ref ∧ Prot C (Recorded C w.repo.log r) r (w'.heap j).kind ref w) :
    Guarded C r w' ks := by
  have hk : Keeping C r w w' := .same h.caches h1 hl hr
  refine ⟨h1, by rw [hl]; exact h.wells, by rw [hl]; exact h.store, by rw [hl]; exact h.there, by rw [hr]; exact h.hashes,
    by rw [hl]; exact h.distinct, hk.published (fun _ _ _ => by rw [hl]) h.named, fun j hj => ?_, fun l hl => hk.prot (h.known l hl)⟩
  obtain ⟨ref, e1, e2⟩ := hf j hj
  exact ⟨ref, e1, hk.prot e2⟩

theorem Guarded.create {w : World} {ks : List Link} (h : Guarded C r w ks) (o : Obj)
    (ho : r ∈ o.savedOn → ∃ ref, o.ref = some ref ∧ Prot C (Recorded C w.repo.log r) r o.kind ref w) :
    Guarded C r (create o w) ks := by
  refine h.heap h.caches rfl rfl fun j hj => ?_
  by_cases hji : j = w.next
  · subst hji; rw [create_self] at hj ⊢; exact ho hj
  · rw [create_ne _ _ hji] at hj ⊢; exact h.flagged j hj

theorem link_saved {l : Link} {x : Realm} (h : r ∈ (l.obj x).savedOn) : r = x ∧ l.ref.isNone = false := by
  unfold Link.obj at h
  simp only at h
  split at h
  · cases h
  · rename_i hn
    simp only [Bool.or_eq_true, not_or, Bool.not_eq_true] at hn
    exact ⟨List.mem_singleton.mp h, hn.1⟩

theorem link_kind (l : Link) (x : Realm) : (l.obj x).kind = l.kind := by
  unfold Link.obj Obj.kind
  simp [Body.empty]

/-- What is read under a name of a top-level object is what is read under a hash. -/
theorem Guarded.behind {w : World} {ks : List Link} (h : Guarded C r w ks) {k : Kind} {nm : Str} {b : Body Link}
    (hk : pubName k = some nm) (hnh : isHash nm = false) (hd : decode C w.repo.log r k nm = .ok b) :
    ∃ x, refOf w.repo.log r nm = some x ∧ isHash x = true ∧ decode C w.repo.log r k x = .ok b := by
  have no : resolve C w.repo.log r nm = none → False := by
    intro hres
    have h1 : textAt C w.repo.log r nm = .error .runtime := by unfold textAt; rw [hres]
    have h3 : treeAt C w.repo.log r nm = .error .runtime := by unfold treeAt; rw [hres]
    unfold decode jsonAt at hd
    rw [h1, h3] at hd
    cases k <;> cases hk <;> cases hd
  cases hx : refOf w.repo.log r nm with
  | none => exact (no (by unfold resolve; rw [hnh, hx]; rfl)).elim
  | some x =>
    have hs := h.named k nm x hk hx
    by_cases hh : isHash x = true
    · have hres : resolve C w.repo.log r nm = resolve C w.repo.log r x := by
        unfold resolve; rw [hnh, hx, hh]; rfl
      exact ⟨x, rfl, hh, by rw [← decode_resolve hres]; exact hd⟩
    · exfalso
      refine no ?_
      unfold resolve; rw [hnh, hx]
      simp only [Bool.false_eq_true, if_false]
      cases hf : findObj C w.repo.log r x with
      | none => rfl
      | some o =>
        have := (findObj_stored hf).2
        rw [← this] at hh
        exact absurd (C.valid o) hh

/-- The reference that an object has after it was read -/
theorem Supp.renamed {L : Log} {R : Bool × Str → Prop} {k : Kind} {ref : Ref} {loc : Str} (hs : Supp C L r R k ref)
    (hn : ref.isNone = false) (hl : ref.loc = some loc) : Supp C L r R k ⟨k.name, some loc⟩ := by
  by_cases hmr : k = .mrr
  · subst hmr
    cases hs with
    | none _ _ h1 => rw [hn] at h1; cases h1
    | mrr _ u v d f h1 h2 h3 h4 h5 h6 h7 => exact .mrr _ u v d f rfl h2 (by rw [← h3, hl]) h4 h5 h6 h7
    | versions _ _ rs hk => rcases hk with hk | hk <;> cases hk
  · exact hs.relabel hmr hl.symm

/-- The parts of an object that is read -/
theorem Guarded.parts {w : World} {ks : List Link} (h : Guarded C r w ks) {k : Kind} {ref : Ref} {loc : Str} {b : Body Link}
    (hp : Prot C (Recorded C w.repo.log r) r k ref w) (hn : ref.isNone = false) (hl : ref.loc = some loc)
    (hd : decode C w.repo.log r k loc = .ok b) :
    Prot C (Recorded C w.repo.log r) r k ⟨k.name, some loc⟩ w ∧
    ∀ e ∈ b.kids, e.2.2.ref.isNone = false → Prot C (Recorded C w.repo.log r) r e.2.2.kind e.2.2.ref w := by
  have hacc : k.accepts k.name = true := by cases k <;> first | rfl | (rename_i l; cases l <;> rfl)
  have hself : RefOk k ⟨k.name, some loc⟩ := by
    obtain ⟨⟨l, h1, h2⟩, h3⟩ := hp.1
    rw [hl] at h1; cases h1
    exact ⟨⟨loc, rfl, h2⟩, fun hk => Or.inl (by rw [hk]; rfl)⟩
  have child : ∀ {ref0 : Ref} {x : Str}, Supp C w.eff r (fun x => x ∈ w.refs ∨ Recorded C w.repo.log r x) k ref0 → ref0.loc = some x →
      x ≠ noneLocation → decode C w.repo.log r k x = .ok b → ∀ e ∈ b.kids, e.2.2.ref.isNone = false →
      Prot C (Recorded C w.repo.log r) r e.2.2.kind e.2.2.ref w := by
    intro ref0 x hs hx hxn hd e he hen
    rw [eff_nil h.caches] at hs
    have hf : fetch C w.repo.log r k ⟨k.name, some x⟩ = .ok b := by
      unfold fetch
      have : Ref.isNone ⟨k.name, some x⟩ = false := by unfold Ref.isNone; simpa using hxn
      rw [this, hacc]
      exact hd
    obtain ⟨p1, _⟩ := hs.parts h.distinct (ref' := ⟨k.name, some x⟩) hx.symm hf e he
    obtain ⟨y, hy, hyh⟩ := p1.loc hen
    exact ⟨⟨⟨y, hy, Or.inl hyh⟩, ((decode_links hd).2 e he).2⟩, Or.inl (by rw [eff_nil h.caches]; exact p1)⟩
  rcases hp.2 with hs | ⟨nm, hk, hnm⟩
  · refine ⟨⟨hself, Or.inl ?_⟩, child hs hl (isNone_ne hn hl) hd⟩
    exact hs.renamed hn hl
  · rw [hl] at hnm; cases hnm
    refine ⟨⟨hself, Or.inr ⟨loc, hk, rfl⟩⟩, ?_⟩
    have hnh : isHash loc = false := by cases k <;> cases hk <;> decide
    obtain ⟨x, hx, hh, hdx⟩ := h.behind hk hnh hd
    exact child (h.named k loc x hk hx) rfl (isHash_ne_none hh) hdx

theorem Guarded.read {w : World} {ks : List Link} (h : Guarded C r w ks) (i : ObjId) : Guarded C r (ensureMapped C i w).2 ks := by
  have hsame : (ensureMapped C i w).2.refs = w.refs := sameList_ensureMapped i w
  cases hm : (w.heap i).mapped with
  | true => rw [ensureMapped_mapped hm]; exact h
  | false =>
    have hc := ensureMapped_cases C i w hm
    revert hc hsame
    cases ensureMapped C i w with
    | mk o w' =>
      intro hsame hc
      simp only at hsame hc ⊢
      cases hc with
      | failed e h1 h2 h3 h4 => exact h.heap (h4.trans h.caches) h3 hsame (by rw [h1]; exact h.flagged)
      | none x ref h1 h2 h3 h4 h5 h6 h7 h8 =>
        refine h.heap (h6.trans h.caches) h5 hsame fun j hj => ?_
        rw [h8] at hj ⊢
        by_cases hji : j = i
        · subst hji
          simp only [Heap.set_self] at hj ⊢
          obtain ⟨ref', e1, e2⟩ := h.flagged j hj
          refine ⟨ref', e1, ?_⟩
          have hk : Obj.kind { w.heap j with mapped := true, body := (w.heap j).body.purged } = (w.heap j).kind := by
            unfold Obj.kind Body.purged; simp
          rw [hk]
          exact e2
        · rw [Heap.set_ne hji] at hj ⊢
          exact h.flagged j hj
      | read x ref loc b is so h1 h2 h3 h4 h5 h6 h7 h8 h9 h10 h11 h12 h13 h14 h15 h16 h17 =>
        refine h.heap (h9.trans h.caches) h8 hsame fun j hj => ?_
        by_cases hji : j = i
        · subst hji
          have hk : (w'.heap j).kind = (w.heap j).kind := by
            rw [h16]; unfold Obj.kind; exact (decode_links h7).1
          rw [hk]
          rw [h16] at hj ⊢
          simp only at hj ⊢
          have hjr : r ∈ (w.heap j).savedOn := by
            rw [h15] at hj
            split at hj
            · rw [List.mem_singleton.mp hj]; exact h5
            · exact hj
          refine ⟨_, rfl, ?_⟩
          obtain ⟨ref', e1, e2⟩ := h.flagged j hjr
          rw [h2] at e1; cases e1
          have hself : RefOk (w.heap j).kind ⟨(w.heap j).kind.name, some loc⟩ := by
            obtain ⟨⟨l, g1, g2⟩, g3⟩ := e2.1
            rw [h4] at g1; cases g1
            exact ⟨⟨loc, rfl, g2⟩, fun hk => Or.inl (by rw [hk]; rfl)⟩
          refine ⟨hself, e2.2.imp (fun hs => ?_) fun ⟨nm, g1, g2⟩ => ⟨nm, g1, by rw [← g2, h4]⟩⟩
          exact hs.renamed h3 h4
        · by_cases hn : j < w.next
          · rw [h11 j hji hn] at hj ⊢
            exact h.flagged j hj
          · by_cases hn' : j < w'.next
            · obtain ⟨e, he, hje⟩ := h14 j hji (Nat.le_of_not_lt hn) hn'
              rw [hje] at hj ⊢
              obtain ⟨rfl, hen⟩ := link_saved hj
              obtain ⟨ref', e1, e2⟩ := h.flagged i h5
              rw [h2] at e1; cases e1
              refine ⟨e.2.2.ref, rfl, ?_⟩
              rw [link_kind]
              exact (h.parts e2 h3 h4 h7).2 e he hen
            · rw [h12 j hji (Nat.le_of_not_lt hn')] at hj ⊢
              exact h.flagged j hj

theorem Guarded.readIn {w : World} {ks : List Link} (h : Guarded C r w ks) (i : ObjId) : Guarded C r (readIn C i w).2 ks := by
  cases hm : (w.heap i).mapped with
  | true =>
    have : MM.readIn C i w = (.ok (), w) := by
      unfold MM.readIn
      rw [M.bind_of_ok (getObj_run i w), if_pos hm]; rfl
    rw [this]; exact h
  | false =>
    have h' := h.read i
    unfold ensureMapped at h'
    rw [M.bind_of_ok (getObj_run i w), if_neg (by rw [hm]; decide)] at h'
    cases hr : MM.readIn C i w with
    | mk x w1 =>
      cases x with
      | error e => rw [M.bind_of_error hr] at h'; exact h'
      | ok u =>
        rw [M.bind_of_ok hr] at h'
        refine h'.heap h'.caches rfl rfl fun j hj => ?_
        have e : ∀ j, ((((updObj i fun o => { o with mapped := true }) >>= fun _ => (pure true : W Bool)) w1).2.heap j).savedOn = (w1.heap j).savedOn ∧
            ((((updObj i fun o => { o with mapped := true }) >>= fun _ => (pure true : W Bool)) w1).2.heap j).ref = (w1.heap j).ref ∧
            ((((updObj i fun o => { o with mapped := true }) >>= fun _ => (pure true : W Bool)) w1).2.heap j).kind = (w1.heap j).kind := by
          intro j
          by_cases hji : j = i
          · subst hji
            refine ⟨?_, ?_, ?_⟩ <;> simp [updObj, bind, pure, M.bind, M.pure, Obj.kind]
          · refine ⟨?_, ?_, ?_⟩ <;> simp [updObj, bind, pure, M.bind, M.pure, Heap.set_ne hji]
        obtain ⟨e1, e2, e3⟩ := e j
        have := h'.flagged j (by rw [e1]; exact hj)
        rw [e2, e3] at this
        exact this

theorem Guarded.write (hr : r ≠ []) {w w' : World} {ks : List Link} {via : Via} {n : Nat} {force : Bool} {i : ObjId} {ref : Ref}
    (h : Guarded C r w ks) (hw : writeAs C via n (some r) force i w = (.ok ref, w')) (hc : CollisionFree C w'.repo.log)
    (hs : Storable w.heap i) (hv : via ≠ .own → ∃ leaf, (w.heap i).kind = .mtree leaf) :
    Guarded C r w' (⟨(w.heap i).kind, ref⟩ :: ks) ∧ (via ≠ .own → TreeListed (Recorded C w'.repo.log r) ref w') := by
  have hcl : ∀ j, Reach w.heap i j → (w.heap j).mapped = true → ∀ k ∈ (w.heap j).body.subs, Reach w.heap i k :=
    fun j hj hm k hk => hj.trans (Reach.step j k k hm hk (Reach.refl k))
  have hkept : Kept C (Recorded C w.repo.log r) r (Reach w.heap i) w.heap w :=
    ⟨h.named, h.hashes, fun j => SameObj.refl _, by rw [h.caches]; exact List.nodup_nil, fun j _ hf => h.flagged j hf⟩
  obtain ⟨g1, g2, g3⟩ := Guards.writeAs (C := C) (B := Recorded C w.repo.log r) (T := Reach w.heap i) (h := w.heap)
    (fun j hj hm => ⟨hs j hj hm, hcl j hj hm⟩) hr via n force (Reach.refl i)
    (fun h => by obtain ⟨leaf, h⟩ := hv h; rw [h]; rfl) w hkept trivial
  have hframe := fun x hx => writeAs_frame (C := C) via n (some r) force i w x hx
  have hneat : Neat C r false (fun o => ∀ es, o = .tree es → WellTree es) (Reach w.heap i) (fun j => (w.heap j).kind) w :=
    ⟨fun o ho es he => by subst he; rw [eff_nil h.caches] at ho; exact h.wells es ho, fun _ => rfl,
      fun j _ hf => by
        obtain ⟨ref, e1, e2⟩ := h.flagged j hf
        exact ⟨ref, e1, ⟨e2.1, (fun h => by cases h), (fun h => by cases h)⟩⟩,
      fun j hj hm => ⟨hs j hj hm, hcl j hj hm, Or.inr ⟨rfl, fun s es he => by cases he⟩⟩⟩
  obtain ⟨t1, _⟩ := Tame.writeAs (C := C) (r := r) (recs := false) (P := fun o => ∀ es, o = .tree es → WellTree es)
    (fun o ho es he => by subst he; exact ho.2.1) hr via n force (T := Reach w.heap i) (κ := fun j => (w.heap j).kind) (Reach.refl i) w hneat
  have hc' := caches_writeAs hw h.caches
  rw [hw] at g1 g2 g3 t1 hframe
  simp only at g1 g2 g3 t1 hframe
  obtain ⟨ops, hlog, _⟩ := g2.any.log
  have hgrow : Grows w.repo.log w'.repo.log := grows_of_suffix ⟨ops, hlog.symm⟩
  have hname : refOf w'.repo.log r objectRefName = refOf w.repo.log r objectRefName := g2.names _ (by decide) (by decide)
  have hrec : ∀ x, Recorded C w.repo.log r x → Recorded C w'.repo.log r x := fun x hx => hx.grow hgrow hc hname
  have hkeep : Keeping C r w w' := ⟨⟨h.caches, hc'⟩, fun o ho => hgrow r o ho, fun x hx => hx.imp (g2.refs x) (hrec x)⟩
  have up : ∀ {k : Kind} {ref : Ref}, Prot C (Recorded C w.repo.log r) r k ref w' → Prot C (Recorded C w'.repo.log r) r k ref w' :=
    fun hp => ⟨hp.1, hp.2.imp (fun hs => hs.mono (fun _ h => h) fun x hx => hx.imp id (hrec x)) id⟩
  refine ⟨⟨hc', fun es hes => t1.tidy _ (by rw [eff_nil hc']; exact hes) es rfl, h.store.grow h.there hgrow hc hname,
    h.there.grow hgrow hname, g1.hashes, hc, fun k nm x hk hx => ?_, fun j hj => ?_, fun l hl => ?_⟩, fun hvia => ?_⟩
  · exact (g1.named k nm x hk hx).mono (fun _ h => h) fun x hx => hx.imp id (hrec x)
  · by_cases hrj : Reach w.heap i j
    · obtain ⟨ref', e1, e2⟩ := g1.flagged j hrj hj
      refine ⟨ref', e1, ?_⟩
      rw [show (w'.heap j).kind = (w.heap j).kind from (g1.same j).kind]
      exact up e2
    · rw [hframe j hrj] at hj ⊢
      obtain ⟨ref', e1, e2⟩ := h.flagged j hj
      exact ⟨ref', e1, hkeep.prot e2⟩
  · rcases List.mem_cons.mp hl with rfl | hl
    · exact up (g3 ref rfl).1
    · exact hkeep.prot (h.known l hl)
  · intro hn
    obtain ⟨y, e1, e2⟩ := (g3 ref rfl).2 hvia hn
    exact ⟨y, e1, e2.imp id (hrec _)⟩

/-- After a successful flush, everything that was pending is recorded. -/
theorem Guarded.flush {w : World} {ks : List Link} {checked : List Realm} {s' : RefState} (h : Guarded C r w ks)
    (hf : flush C r ⟨w.repo, w.refs, checked⟩ = (.ok (), s')) (hrd : StoreReadable r ⟨w.repo, w.refs, checked⟩)
    (hc : CollisionFree C s'.repo.log) :
    Guarded C r { w with repo := s'.repo, refs := s'.cached } ks ∧ Keeping C r w { w with repo := s'.repo, refs := s'.cached } := by
  obtain ⟨f1, f2, f3, f4, _⟩ := flush_done (s := ⟨w.repo, w.refs, checked⟩) h.wells h.hashes h.store hc hf
  have fa := flush_any (s := ⟨w.repo, w.refs, checked⟩) h.wells h.hashes hc hf
  have hgrow : Grows w.repo.log s'.repo.log := grows_of_suffix fa.always.1
  have hrec := (fa.always.2 _ fa.always.1 (List.suffix_refl _)).2.1 hrd
  have hkeep : Keeping C r w { w with repo := s'.repo, refs := s'.cached } :=
    ⟨⟨h.caches, h.caches⟩, fun o ho => hgrow r o ho, fun x hx => Or.inr (hx.elim (f4 x) (hrec x))⟩
  refine ⟨⟨h.caches, f2, f1, flush_there (s := ⟨w.repo, w.refs, checked⟩) h.wells h.hashes h.there hf, ?_, hc,
    hkeep.published (fun k nm hk => fa.refs r nm ?_ ?_ ?_) h.named, fun j hj => ?_, fun l hl => hkeep.prot (h.known l hl)⟩, hkeep⟩
  · simp only
    rw [f3]
    intro x hx; cases hx
  · intro he; cases he; cases k <;> first | (revert hk; decide) | cases hk
  · intro he; cases he; cases k <;> first | (revert hk; decide) | cases hk
  · intro he; cases he; cases k <;> first | (revert hk; decide) | cases hk
  · obtain ⟨ref, e1, e2⟩ := h.flagged j hj
    exact ⟨ref, e1, hkeep.prot e2⟩

theorem Lifetime.guarded (hr : r ≠ []) {w : World} {ks : List Link} (h : Lifetime C r w ks) : Guarded C r w ks := by
  induction h with
  | start w h1 h2 h3 h4 h5 h6 =>
    refine ⟨h1, fun es hes => absurd hes (h4 _), fun es hres => ?_, fun h hh => ?_, ?_, h6, fun k nm x _ hx => ?_, fun j hj => ?_,
      fun l hl => by cases hl⟩
    · unfold resolve at hres
      rw [if_neg (by decide), h5] at hres
      cases hres
    · rw [h5] at hh; cases hh
    · rw [h2]; intro x hx; cases hx
    · rw [h5] at hx; cases hx
    · rw [h3] at hj; cases hj
  | next w w' ks _ h1 h2 h3 h4 h5 ih =>
    refine ih.heap h3 h2 (h4.trans h1.symm) fun j hj => ?_
    rw [h5] at hj; cases hj
  | new w ks b _ ih => exact ih.create _ fun hj => by cases hj
  | load w ks l _ hl ih =>
    refine ih.create _ fun hj => ?_
    rw [link_kind]
    refine ⟨l.ref, rfl, ?_⟩
    rcases hl with hl | ⟨nm, h1, h2⟩
    · exact ih.known l hl
    · exact ⟨⟨⟨nm, h2, Or.inr (Or.inr h1)⟩, fun hk => by rw [hk] at h1; cases h1⟩, Or.inr ⟨nm, h1, h2⟩⟩
  | read w ks i _ ih => exact ih.read i
  | readIn w ks i _ ih => exact ih.readIn i
  | purge w ks n i _ ih =>
    have hp := purge_purged n i w
    refine ih.heap (hp.caches.trans ih.caches) (by rw [hp.repo]) hp.refs fun j hj => ?_
    rw [hp.saved] at hj
    rw [hp.ref, hp.kind]
    exact ih.flagged j hj
  | edit w ks i b _ ih =>
    refine ih.heap ih.caches rfl rfl fun j hj => ?_
    by_cases hji : j = i
    · subst hji
      exfalso
      revert hj
      simp [MM.edit]
    · have : (MM.edit i b w).heap j = w.heap j := by simp [MM.edit, Heap.set_ne hji]
      rw [this] at hj ⊢
      exact ih.flagged j hj
  | write w ks via n force i ref w' _ h1 h2 h3 h4 ih => exact (ih.write hr h1 h2 h3 h4).1
  | flush w ks checked s' _ h1 h2 h3 ih => exact (ih.flush h1 h2 h3).1
  | outside w ks L fs _ h1 h2 h3 h4 ih =>
    have hkeep : Keeping C r w (MM.outside L fs w) :=
      ⟨⟨ih.caches, ih.caches⟩, fun o ho => h1 r o ho, fun x hx => hx.imp id fun hx => hx.grow h1 h3 (h2 r _)⟩
    refine ⟨ih.caches, h4, ih.store.grow ih.there h1 h3 (h2 r _), ih.there.grow h1 (h2 r _), ih.hashes, h3,
      hkeep.published (fun _ nm _ => h2 r nm) ih.named, fun j hj => ?_, fun l hl => hkeep.prot (ih.known l hl)⟩
    obtain ⟨ref, e1, e2⟩ := ih.flagged j hj
    exact ⟨ref, e1, hkeep.prot e2⟩

end

end MM
