/-
C72: whatever earlier sessions did, and wherever they stopped, the next session succeeds.
-/
import Verif.Hashes
import Verif.Props.Lively
import Verif.Props.Locked

namespace MM

variable {C : Cfg} {r : Realm} {t u : ObjId}

/-! ### Histories -/

/-- What a repository holds after any number of sessions, one after the other, that began with no
metadata in it.  Any git command may fail while a session opens the repository and while it works, where its
requests are `Mild`.  A session ends while it writes out the tree version
list or, if that succeeded, while it writes out the UUID set: any command may fail then, and the process
may stop after any command.  (A session that saved everything stops after the last command.)  Others may store
objects and set names at any time, but not those of the top-level objects. -/
inductive Past (C : Cfg) (r : Realm) : Log → Prop
  | blank : Past C r []
  | first (L L' : Log) (g t u : ObjId) (w0 w w1 : World) (n : Nat) (force : Bool) (fs0 fs : List Fault)
      (x : Except PyErr Ref) : Past C r L → Opens C r ⟨L, fs0⟩ g t u w0 → Orderly C g t u w0 w →
      writeOut C n (some r) force t (outside w.repo.log fs w) = (x, w1) → CollisionFree C w1.repo.log →
      w.repo.log <:+ L' → L' <:+ w1.repo.log → Past C r L'
  | second (L L' : Log) (g t u : ObjId) (w0 w w1 w2 : World) (n n' : Nat) (force force' : Bool) (fs0 fs fs' : List Fault)
      (ref : Ref) (x : Except PyErr Ref) :
      Past C r L → Opens C r ⟨L, fs0⟩ g t u w0 → Orderly C g t u w0 w →
      writeOut C n (some r) force t (outside w.repo.log fs w) = (.ok ref, w1) →
      writeOut C n' (some r) force' u (outside w1.repo.log fs' w1) = (x, w2) → CollisionFree C w2.repo.log →
      w1.repo.log <:+ L' → L' <:+ w2.repo.log → Past C r L'
  | others (L L' : Log) : Past C r L → After C r L L' → HashTrees L' r → Past C r L'

/-! ### Opening -/

theorem read_unset (hr : r ≠ []) {w : World} {i : ObjId} {l : Link} {nm : Str} (hl : Named l nm) (ho : w.heap i = l.obj r)
    (hn : refOf w.repo.log r nm = none) : ∃ w', readIn C i w = (.error .runtime, w') := by
  have hk : l.kind ≠ .metadata := by rcases hl with ⟨rfl, rfl⟩ | ⟨rfl, rfl⟩ <;> decide
  have hdec : decode C w.repo.log r l.kind nm = .error .runtime := by
    rcases hl with ⟨rfl, rfl⟩ | ⟨rfl, rfl⟩
    · simp only [tvlLink, decode, jsonAt, textAt, resolve]
      rw [if_neg (by decide), hn]
      rfl
    · simp only [uuidSetLink, decode, treeAt, resolve]
      rw [if_neg (by decide), hn]
      rfl
  have hg : ∃ w', liftG (decodeG C r l.kind nm) w = (.error .runtime, w') := by
    rw [decodeG_ne hk]
    unfold liftG gitCmd
    simp only [hdec]
    cases w.repo.faults with
    | nil => exact ⟨_, rfl⟩
    | cons f fs => cases f <;> exact ⟨_, rfl⟩
  obtain ⟨w', hg⟩ := hg
  refine ⟨w', ?_⟩
  obtain ⟨hloc, _⟩ := hl.ref
  have hnn : l.ref.isNone = false := by rcases hl with ⟨rfl, rfl⟩ | ⟨rfl, rfl⟩ <;> decide
  have hac : l.kind.accepts l.ref.cls = true := by rcases hl with ⟨rfl, rfl⟩ | ⟨rfl, rfl⟩ <;> decide
  have hsv : r ∈ (l.obj r).savedOn := by
    show r ∈ (if l.ref.isNone || r.isEmpty then [] else [r])
    rw [hnn]
    cases r with
    | nil => exact absurd rfl hr
    | cons a l => simp
  unfold readIn
  rw [M.bind_of_ok (getObj_run i w), ho, if_neg (show ¬ (l.obj r).mapped = true by simp [Link.obj])]
  show (if l.ref.isNone then _ else _ : W Unit) w = _
  rw [if_neg (by rw [hnn]; simp), if_neg (fun h => h hsv), kind_linkObj,
    M.bind_of_ok (show (M.assert (l.kind.accepts l.ref.cls) : W Unit) w = (.ok (), w) by rw [hac]; rfl), hloc]
  exact M.bind_of_error hg


theorem read_set (hr : r ≠ []) {w : World} {i : ObjId} {l : Link} {nm : Str} (hl : Named l nm) (ho : w.heap i = l.obj r)
    (hw : w.repo.faults = []) (hf : Full C w.repo.log w.heap (.sto r l)) :
    ∃ w', readIn C i w = (.ok (), w') ∧ w'.repo = w.repo ∧ ∀ j, j < w.next → j ≠ i → w'.heap j = w.heap j := by
  have hk : l.kind ≠ .metadata := by rcases hl with ⟨rfl, rfl⟩ | ⟨rfl, rfl⟩ <;> decide
  have hnn : l.ref.isNone = false := by rcases hl with ⟨rfl, rfl⟩ | ⟨rfl, rfl⟩ <;> decide
  have hac : l.kind.accepts l.ref.cls = true := by rcases hl with ⟨rfl, rfl⟩ | ⟨rfl, rfl⟩ <;> decide
  have hloc : l.ref.loc = some nm := by rcases hl with ⟨rfl, rfl⟩ | ⟨rfl, rfl⟩ <;> rfl
  obtain ⟨b, hb⟩ : ∃ b, decode C w.repo.log r l.kind nm = .ok b := by
    obtain ⟨b', hv⟩ := hf.view_ok
    simp only [view, strictFetch, fetch] at hv
    rw [hnn, hac, hloc] at hv
    cases hd : decode C w.repo.log r l.kind nm with
    | ok b => exact ⟨b, rfl⟩
    | error e =>
      simp only [hd] at hv
      cases hv
  have hg : liftG (decodeG C r l.kind nm) w = (.ok b, w) := by
    rw [decodeG_ne hk]
    unfold liftG
    rw [gitCmd_runs hw, hb]
    have : (⟨w.repo.log, []⟩ : Repo) = w.repo := by rw [← hw]
    simp only [List.reverse_nil, List.nil_append, this]
  have hsv : r ∈ (l.obj r).savedOn := by
    show r ∈ (if l.ref.isNone || r.isEmpty then [] else [r])
    rw [hnn]
    cases r with
    | nil => exact absurd rfl hr
    | cons a l => simp
  obtain ⟨is, w1, h1, h2, _, _, _, h3, _⟩ := allocKids_ok (r := r) b.kids w
  have key : ∃ o, readIn C i w = (.ok (), { w1 with heap := w1.heap.set i o }) := by
    unfold readIn
    rw [M.bind_of_ok (getObj_run i w), ho, if_neg (show ¬ (l.obj r).mapped = true by simp [Link.obj])]
    show ∃ o, (if l.ref.isNone then _ else _ : W Unit) w = _
    rw [if_neg (by rw [hnn]; simp), if_neg (fun h => h hsv), kind_linkObj,
      M.bind_of_ok (show (M.assert (l.kind.accepts l.ref.cls) : W Unit) w = (.ok (), w) by rw [hac]; rfl), hloc]
    show ∃ o, (liftG (decodeG C r l.kind nm) >>= _ : W Unit) w = _
    rw [M.bind_of_ok hg, M.bind_of_ok h1]
    exact ⟨_, rfl⟩
  obtain ⟨o, key⟩ := key
  refine ⟨_, key, h2, fun j hj hji => ?_⟩
  show (w1.heap.set i o) j = _
  rw [Heap.set_ne hji]
  exact h3 j hj

/-- What the top-level objects of a repository must be like so that it can be opened -/
def Openable (C : Cfg) (r : Realm) (L : Log) : Prop :=
  (refOf L r uuidSetRefName = none ∧ (refOf L r tvlRefName = none ∨ ∀ h, Full C L h (.sto r tvlLink))) ∨ Stocked C r L

/-- While git works, a process that opens the repository gets an answer. -/
theorem Openable.answer (hr : r ≠ []) {s : Repo} (h : Openable C r s.log) (hf : s.faults = []) {i : World} (hi : Idle s i) :
    (refOf s.log r uuidSetRefName = none ∧ ∃ w, topLevel C r i = (.ok none, w)) ∨
      (Stocked C r s.log ∧ ∃ w, topLevel C r i = (.ok (some (i.next, i.next + 1)), w)) := by
  rcases h with ⟨hu, ht | ht⟩ | hs
  · exact Or.inl ⟨hu, topLevel_none hr (by rw [hi.repo]; exact ht)⟩
  · refine Or.inl ⟨hu, ?_⟩
    unfold topLevel
    rw [M.bind_of_ok (alloc_run _ _), M.bind_of_ok (alloc_run _ _)]
    have h0 : (create (uuidSetLink.obj r) (create (tvlLink.obj r) i)).heap i.next = tvlLink.obj r := by
      rw [create_ne _ _ (show i.next ≠ i.next + 1 by oomega)]
      exact create_self _ i
    have h1 : (create (uuidSetLink.obj r) (create (tvlLink.obj r) i)).heap (i.next + 1) = uuidSetLink.obj r :=
      create_self _ (create (tvlLink.obj r) i)
    have hrep : (create (uuidSetLink.obj r) (create (tvlLink.obj r) i)).repo = s := hi.repo
    have hn : (create (uuidSetLink.obj r) (create (tvlLink.obj r) i)).next = i.next + 2 := rfl
    change ∃ w, M.catchRuntime (do readIn C i.next; readIn C (i.next + 1); pure (some (i.next, i.next + 1))) _
      (create (uuidSetLink.obj r) (create (tvlLink.obj r) i)) = _
    generalize create (uuidSetLink.obj r) (create (tvlLink.obj r) i) = w at h0 h1 hrep hn ⊢
    obtain ⟨w1, e1, e2, e3⟩ := read_set (C := C) hr (w := w) (i := i.next) (nm := tvlRefName) (Or.inl ⟨rfl, rfl⟩) h0
      (by rw [hrep]; exact hf) (by rw [hrep]; exact ht _)
    obtain ⟨w2, e4⟩ := read_unset (C := C) hr (w := w1) (i := i.next + 1) (nm := uuidSetRefName) (Or.inr ⟨rfl, rfl⟩)
      (by rw [e3 (i.next + 1) (by rw [hn]; oomega) (by oomega)]; exact h1) (by rw [e2, hrep]; exact hu)
    refine ⟨w2, ?_⟩
    unfold M.catchRuntime
    rw [M.bind_of_ok e1, M.bind_of_error e4]
    rfl
  · exact Or.inr ⟨hs, hi.finds hr hf hs⟩

theorem Openable.opens (hr : r ≠ []) {L : Log} (h : Openable C r L) : ∃ g t u w, Opens C r ⟨L, []⟩ g t u w := by
  rcases h.answer (s := ⟨L, []⟩) hr rfl (idle_start _) with ⟨_, w, hw⟩ | ⟨hs, w, hw⟩
  · exact ⟨_, _, _, _, .made _ w (idle_start _) hw⟩
  · exact ⟨_, _, _, _, .found _ _ _ w (idle_start _) hs hw⟩

/-! ### What holds after every history -/

theorem trim_unset {L : Log} {h : Heap} {l : Link} {nm : Str} (hl : Named l nm) (hn : refOf L r nm = none) :
    Trim C L h (.sto r l) :=
  ⟨fun ks t0 s d b _ h1 => (by rw [unset_missing hl hn] at h1; cases h1),
   fun ks k t0 s d b s' d' b' h1 => (by rw [unset_missing hl hn] at h1; cases h1)⟩

/-- The repository can be opened, and its content can be worked with. -/
structure Usable (C : Cfg) (r : Realm) (L : Log) : Prop where
  trees : HashTrees L r
  trim : TrimAt C r L
  open_ : Openable C r L

theorem Usable.after {L L' : Log} (h : Usable C r L) (ha : After C r L L') (ht : HashTrees L' r) : Usable C r L' := by
  have hu := ha.names uuidSetRefName (Or.inr rfl)
  have hv := ha.names tvlRefName (Or.inl rfl)
  rcases h.open_ with ⟨h1, h2⟩ | h1
  · have same := fun x => named_kept (C := C) ha.grows ha.unique (Or.inl ⟨rfl, rfl⟩) hv h2 x
    refine ⟨ht, fun l nm hl x => ?_, Or.inl ⟨hu.trans h1, h2.imp hv.trans fun h2 x => Full.of_same (same x) (h2 x)⟩⟩
    rcases hl with ⟨rfl, rfl⟩ | ⟨rfl, rfl⟩
    · exact (h.trim tvlLink tvlRefName (Or.inl ⟨rfl, rfl⟩) x).of_same (same x)
    · exact trim_unset (Or.inr ⟨rfl, rfl⟩) (hu.trans h1)
  · obtain ⟨st, same⟩ := h1.after ha
    exact ⟨ht, fun l nm hl x => (h.trim l nm hl x).of_same (same l nm hl x x), Or.inr st⟩

theorem HashTrees.suffix {L L' : Log} (h : HashTrees L' r) (hs : L <:+ L') : HashTrees L r :=
  fun es he => h es (hs.subset he)

/-- A session that ends while it writes out the tree version list -/
theorem Usable.first (hr : r ≠ []) {L L' : Log} (h : Usable C r L) {v v1 : World} (hL : v.repo.log = L)
    (hd : Desk C r t u v) (hk : Trim C v.repo.log v.heap (.mem t)) {n : Nat} {force : Bool} {x : Except PyErr Ref}
    (hw : writeOut C n (some r) force t v = (x, v1)) (hc : CollisionFree C v1.repo.log) (h1 : L <:+ L')
    (h2 : L' <:+ v1.repo.log) : Usable C r L' := by
  subst hL
  have ht : HashTrees L' r := by
    have := writeOut_treesOn (C := C) hr n force t v h.trees
    rw [hw] at this
    exact this.suffix h2
  have hcL := suffix_collisionFree h2 hc
  have m := hd.intact.moved hr hw hc (hd.storable hd.tl) (fun j _ => hd.truth j) hd.rooted.tree_owned
    (nm := tvlRefName) (Or.inl ⟨rfl, rfl⟩) hd.tk (L := L') h1 h2
  have hu := m.others uuidSetRefName (by decide)
  rcases m.name with hn | hs
  · refine h.after ⟨m.grows, fun nm hnm => ?_, hcL⟩ ht
    rcases hnm with rfl | rfl
    · exact hn
    · exact hu
  · have hp : ∀ x, Trim C L' x (.sto r tvlLink) := fun x => hk.of_same (hs.same x)
    rcases h.open_ with ⟨h3, _⟩ | h3
    · refine ⟨ht, fun l nm hl x => ?_, Or.inl ⟨hu.trans h3, Or.inr hs.full⟩⟩
      rcases hl with ⟨rfl, rfl⟩ | ⟨rfl, rfl⟩
      · exact hp x
      · exact trim_unset (Or.inr ⟨rfl, rfl⟩) (hu.trans h3)
    · have same : ∀ x, SameContent C v.repo.log x (.sto r uuidSetLink) L' x (.sto r uuidSetLink) := fun x =>
        named_kept m.grows hcL (Or.inr ⟨rfl, rfl⟩) hu (Or.inr fun h0 => (h3 uuidSetLink uuidSetRefName (Or.inr ⟨rfl, rfl⟩) h0).1) x
      refine ⟨ht, fun l nm hl x => ?_, Or.inr fun l nm hl x => ?_⟩
      · rcases hl with ⟨rfl, rfl⟩ | ⟨rfl, rfl⟩
        · exact hp x
        · exact (h.trim uuidSetLink uuidSetRefName (Or.inr ⟨rfl, rfl⟩) x).of_same (same x)
      · rcases hl with ⟨rfl, rfl⟩ | ⟨rfl, rfl⟩
        · exact ⟨hs.full x, (hd.all_proper t hd.tl).of_same (hs.same x)⟩
        · obtain ⟨f, p⟩ := h3 uuidSetLink uuidSetRefName (Or.inr ⟨rfl, rfl⟩) x
          exact ⟨Full.of_same (same x) f, p.of_same (same x)⟩

/-- A session that ends while it writes out the UUID set -/
theorem Usable.second (hr : r ≠ []) {L L' : Log} (h : Usable C r L) {v v1 v2 : World} (hL : v.repo.log = L)
    (hd : Desk C r t u v) (hk : Trim C v.repo.log v.heap (.mem t)) (hk' : Trim C v.repo.log v.heap (.mem u)) {n n' : Nat}
    {force force' : Bool} {ref : Ref} {fs : List Fault} {x : Except PyErr Ref} (hw : writeOut C n (some r) force t v = (.ok ref, v1))
    (hw' : writeOut C n' (some r) force' u (outside v1.repo.log fs v1) = (x, v2)) (hc : CollisionFree C v2.repo.log)
    (h1 : v1.repo.log <:+ L') (h2 : L' <:+ v2.repo.log) : Usable C r L' := by
  have hc1 : CollisionFree C v1.repo.log := suffix_collisionFree (h1.trans h2) hc
  have hsuf : v.repo.log <:+ v1.repo.log :=
    (hd.intact.steps hr hw hc1 (hd.storable hd.tl) (fun j _ => hd.truth j) hd.rooted.tree_owned).suffix
  have r1 := h.first hr hL hd hk hw hc1 (L' := v1.repo.log) (by rw [← hL]; exact hsuf) List.suffix_rfl
  obtain ⟨hdn, hu, htr, how, hal⟩ := hd.after_tree hr hw hc1
  have sh := hd.intact.shown hr hw hc1 (hd.storable hd.tl) hd.alone_tree (fun j _ => hd.truth j) hd.rooted.tree_owned
    (nm := tvlRefName) (Or.inl ⟨rfl, rfl⟩) hd.tk hd.tshown
  obtain ⟨int, keep⟩ := hdn.intact.outside (L := v1.repo.log) (fs := fs) (Grows.refl _) (fun _ => rfl) hc1
  have hsto : Storable v1.heap u := (hd.storable hd.ul).mono hdn.tried.any.same
  have ht : HashTrees L' r := by
    have := writeOut_treesOn (C := C) hr n' force' u (outside v1.repo.log fs v1) r1.trees
    rw [hw'] at this
    exact this.suffix h2
  have hcL := suffix_collisionFree h2 hc
  have hsame : SameContent C v.repo.log v.heap (.mem u) v1.repo.log v1.heap (.mem u) := hdn.look u
  have m := int.moved hr hw' hc hsto (fun j hj => keep j (htr j hj)) how (nm := uuidSetRefName) (Or.inr ⟨rfl, rfl⟩)
    (by show (v1.heap u).kind = _; rw [hu, hd.uk]; rfl) (L := L') h1 h2
  have hg : Grows v1.repo.log L' := m.grows
  have hv : refOf L' r tvlRefName = refOf v1.repo.log r tvlRefName := m.others tvlRefName (by decide)
  rcases m.name with hn | hs
  · refine r1.after ⟨hg, fun nm hnm => ?_, hcL⟩ ht
    rcases hnm with rfl | rfl
    · exact hv
    · exact hn
  · have st : Shows C r v t L' tvlLink := sh.later (Or.inl ⟨rfl, rfl⟩) hg hcL hv
    have su : Shows C r v u L' uuidSetLink := ⟨fun h0 => hsame.trans (hs.same h0), hs.full⟩
    refine ⟨ht, fun l nm hl x => ?_, Or.inr fun l nm hl x => ?_⟩
    · rcases hl with ⟨rfl, rfl⟩ | ⟨rfl, rfl⟩
      · exact hk.of_same (st.same x)
      · exact hk'.of_same (su.same x)
    · rcases hl with ⟨rfl, rfl⟩ | ⟨rfl, rfl⟩
      · exact ⟨st.full x, (hd.all_proper t hd.tl).of_same (st.same x)⟩
      · exact ⟨su.full x, (hd.all_proper u hd.ul).of_same (su.same x)⟩

theorem Orderly.log {g : ObjId} {w w' : World} (h : Orderly C g t u w w') : w'.repo.log = w.repo.log := h.busy.log

theorem Past.ready (hr : r ≠ []) {L : Log} (h : Past C r L) : Usable C r L := by
  induction h with
  | blank => exact ⟨fun es hs => (by cases hs), trimAt_empty, Or.inl ⟨rfl, Or.inl rfl⟩⟩
  | first L L' g t u w0 w w1 n force fs0 fs x _ ho hb hw hc h1 h2 ih =>
    obtain ⟨v, b, l⟩ := ho.session hr ih.trim ih.trees hb
    have hL : w.repo.log = L := hb.log.trans ho.log
    have hvr := b.side.repo
    obtain ⟨e1, s1, _⟩ := twin_writeOut (C := C) n (dest := some r) (force := force) b.gt (outside w.repo.log fs w)
      (outside w.repo.log fs v) ⟨b.side.heap, b.side.next, rfl, b.side.caches, b.side.refs, b.side.subs, b.side.fresh⟩
    rw [hw] at e1 s1
    have hd : Desk C r t u (outside w.repo.log fs v) := l.desk.congr rfl rfl (by rw [hvr]; rfl) rfl
    have hk : Trim C w.repo.log v.heap (.mem t) := by
      rw [← hvr]; exact l.tidy.trim l.desk.sound.fine l.desk.tl
    cases hv : writeOut C n (some r) force t (outside w.repo.log fs v) with
    | mk res v1 =>
      rw [hv] at e1 s1
      exact ih.first hr (v := outside w.repo.log fs v) hL hd hk hv (by rw [s1.repo]; exact hc) (by rw [← hL]; exact h1)
        (by rw [s1.repo]; exact h2)
  | second L L' g t u w0 w w1 w2 n n' force force' fs0 fs fs' ref x _ ho hb hw hw' hc h1 h2 ih =>
    obtain ⟨v, b, l⟩ := ho.session hr ih.trim ih.trees hb
    have hL : w.repo.log = L := hb.log.trans ho.log
    have hvr := b.side.repo
    obtain ⟨e1, s1, _⟩ := twin_writeOut (C := C) n (dest := some r) (force := force) b.gt (outside w.repo.log fs w)
      (outside w.repo.log fs v) ⟨b.side.heap, b.side.next, rfl, b.side.caches, b.side.refs, b.side.subs, b.side.fresh⟩
    rw [hw] at e1 s1
    have hd : Desk C r t u (outside w.repo.log fs v) := l.desk.congr rfl rfl (by rw [hvr]; rfl) rfl
    have hk : ∀ i, i < v.next → Trim C w.repo.log v.heap (.mem i) := fun i hi => by
      rw [← hvr]; exact l.tidy.trim l.desk.sound.fine hi
    cases hv : writeOut C n (some r) force t (outside w.repo.log fs v) with
    | mk res v1 =>
      rw [hv] at e1 s1
      simp only at e1 s1
      subst e1
      obtain ⟨e2, s2, _⟩ := twin_writeOut (C := C) n' (dest := some r) (force := force') b.gu (outside w1.repo.log fs' w1)
        (outside v1.repo.log fs' v1) ⟨s1.heap, s1.next, (by rw [s1.repo]; rfl), s1.caches, s1.refs, s1.subs, s1.fresh⟩
      rw [hw'] at e2 s2
      cases hv' : writeOut C n' (some r) force' u (outside v1.repo.log fs' v1) with
      | mk res' v2 =>
        rw [hv'] at e2 s2
        exact ih.second hr (v := outside w.repo.log fs v) hL hd (hk t l.desk.tl) (hk u l.desk.ul) hv hv'
          (by rw [s2.repo]; exact hc) (by rw [s1.repo]; exact h1) (by rw [s2.repo]; exact h2)
  | others L L' _ ha ht ih => exact ih.after ha ht


/-! ### C72 -/

/-- C72: after every history the repository can be opened. -/
theorem C72_opens (hr : r ≠ []) {L : Log} (h : Past C r L) : ∃ g t u w, Opens C r ⟨L, []⟩ g t u w :=
  (h.ready hr).open_.opens hr

/-- C72: after every history, every request of a session is answered, wherever the session has got to. -/
theorem C72_answered (hr : r ≠ []) {L : Log} (hL : Past C r L) {fs : List Fault} {g : ObjId} {w0 w : World}
    (ho : Opens C r ⟨L, fs⟩ g t u w0) (h : Orderly C g t u w0 w) (hf : w.repo.faults = []) (auto : Option Bool) (now : Str) (id : Uuid) (v : Str) {pre : PPath} (hc : Canonical pre)
    {path : List Str} (hp : ∀ n ∈ path, CompOk n ∧ NameOk n) (hnm : rootRecordName ∉ path) {root : Option Uuid}
    {rv : Option Str} (hroot : path ≠ [] → root ≠ none ∧ rv ≠ none) :
    ∃ o w', rootRecord C auto now t u id v pre path root rv w = (.ok o, w') ∧ w'.repo = w.repo ∧
      (auto ≠ some false → ∃ m, o = some m) :=
  C71_answered hr ho (hL.ready hr).trim (hL.ready hr).trees h hf auto now id v hc hp hnm hroot

/-- C72: after every history, a session can save, wherever it has got to, if its UUID set lists a dataset;
and what it leaves is a history again. -/
theorem C72_saves (hr : r ≠ []) (hrem : Ref.isRemote r = false) {L : Log} (hL : Past C r L) {fs : List Fault} {g : ObjId}
    {w0 w : World} (ho : Opens C r ⟨L, fs⟩ g t u w0) (h : Orderly C g t u w0 w) (hf : w.repo.faults = [])
    (hset : ∃ id, look C w.repo.log w.heap [.uuid id] [] (.mem u) ≠ .absent) :
    ∃ N, ∀ n n' force force', N ≤ n → N ≤ n' → CollisionFree C (writeOut C n (some r) force t w).2.eff →
      ∃ ref w1, writeOut C n (some r) force t w = (.ok ref, w1) ∧
        (CollisionFree C (writeOut C n' (some r) force' u w1).2.eff →
          ∃ ref' w2, writeOut C n' (some r) force' u w1 = (.ok ref', w2) ∧ Past C r w2.repo.log) := by
  have hU := hL.ready hr
  obtain ⟨N, hN⟩ := C71_saves hr hrem ho hU.trim hU.trees h hf hset
  refine ⟨N, fun n n' force force' h1 h2 hc => ?_⟩
  obtain ⟨ref, w1, h3, h4⟩ := hN n n' force force' h1 h2 hc
  refine ⟨ref, w1, h3, fun hc' => ?_⟩
  obtain ⟨ref', w2, h5, _, _⟩ := h4 hc'
  refine ⟨ref', w2, h5, ?_⟩
  have hca : w.caches = [] := by
    obtain ⟨v, b, l⟩ := ho.session hr hU.trim hU.trees h
    rw [← b.side.caches]; exact l.desk.intact.caches
  have hca1 : w1.caches = [] := caches_writeAs (via := .own) h3 hca
  have hca2 : w2.caches = [] := caches_writeAs (via := .own) h5 hca1
  rw [h5, eff_log hca2] at hc'
  have e : ∀ w : World, outside w.repo.log w.repo.faults w = w := fun w => rfl
  refine .second L w2.repo.log g t u w0 w w1 w2 n n' force force' fs w.repo.faults w1.repo.faults ref (.ok ref') hL ho h
    (by rw [e]; exact h3) (by rw [e]; exact h5) hc' ?_ List.suffix_rfl
  obtain ⟨ops, ho, _⟩ := (writeOut_any (C := C) hr n' force' u w1).log
  rw [h5] at ho
  exact ⟨ops, ho.symm⟩

/-! ### A non-trivial case -/

/-- The first session, which makes a record and adds metadata, stops when it has saved the tree version list and
stored nothing of the UUID set. -/
theorem pastHalf : Past sampleCfg sampleRealm wholeFirst.2.repo.log := by
  have h1 : writeOut sampleCfg 20 (some sampleRealm) false 2 wholeFiled = wholeFirst := by unfold wholeFirst; rfl
  have hc : CollisionFree sampleCfg wholeFirst.2.repo.log := collisionFree_of_check (by decide +kernel)
  have hs : wholeFiled.repo.log <:+ wholeFirst.2.repo.log := by
    obtain ⟨ops, ho, _⟩ := (writeOut_any (C := sampleCfg) (r := sampleRealm) (by decide) 20 false 2 wholeFiled).log
    rw [h1] at ho
    exact ⟨ops, ho.symm⟩
  have ho := wholeOpens
  have hb := wholeOrderly
  generalize wholeFirst = wf at h1 hc hs ⊢
  generalize wholeFiled = w at h1 hs hb
  generalize wholeOpen = w0 at ho hb
  have h1' : writeOut sampleCfg 20 (some sampleRealm) false 2 (outside w.repo.log w.repo.faults w) = (wf.1, wf.2) := h1
  exact .first [] wf.2.repo.log 2 2 3 w0 w wf.2 20 false [] w.repo.faults wf.1 .blank ho hb h1' hc hs List.suffix_rfl

/-- The name of the tree version list is set, that of the UUID set is not. -/
theorem pastHalf_names : refOf wholeFirst.2.repo.log sampleRealm tvlRefName ≠ none ∧
    refOf wholeFirst.2.repo.log sampleRealm uuidSetRefName = none := by
  constructor <;> decide +kernel

/-- The next session opens the repository and is answered. -/
example : ∃ g t u w, Opens sampleCfg sampleRealm ⟨wholeFirst.2.repo.log, []⟩ g t u w ∧
    ∃ m w', rootRecord sampleCfg none c!"0.2" t u sampleUuid c!"v1" ⟨[], []⟩ [c!"sub"] (some sampleUuid) (some c!"v1") w =
      (.ok (some m), w') := by
  have hL := pastHalf
  generalize wholeFirst.2.repo.log = L at hL ⊢
  obtain ⟨g, t, u, w, ho⟩ := C72_opens (C := sampleCfg) (r := sampleRealm) (by decide) hL
  refine ⟨g, t, u, w, ho, ?_⟩
  obtain ⟨o, w', h1, _, h2⟩ := C72_answered (by decide) hL ho .refl (ho.works rfl) none c!"0.2" sampleUuid c!"v1"
    (pre := ⟨[], []⟩) ⟨rfl, fun c hc => by cases hc⟩ (path := [c!"sub"])
    (fun n hn => by
      rw [List.mem_singleton.mp hn]
      exact ⟨by decide, by decide, by decide, by decide, by decide⟩) (by decide)
    (root := some sampleUuid) (rv := some c!"v1") (fun _ => ⟨by simp, by simp⟩)
  obtain ⟨m, rfl⟩ := h2 (by decide)
  exact ⟨m, w', h1⟩

end MM
