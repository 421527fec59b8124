/-
C17, C18, C19, C20, C21, C22, C23, C25, C26 and C48: reading, writing and purging.

The specification is `SameContent` in `Content.lean`: two places hold the same
content if every lookup, at any depth, gives the same result at both.  A place is an
object in memory (`.mem i`), or what a repository holds under a reference
(`.sto r ⟨class, reference⟩`).
-/
import Verif.Example
import Verif.Purge
import Verif.History

namespace MM

variable {C : Cfg} {r : Realm}

/-! ### C17 -/

/-- C17: after an object was written, the repository holds, under the returned
reference and completely, the content that the object had, whatever else is in
memory (`h0`).  This covers all object graphs, with any mixture of loaded, unloaded,
saved and modified parts, any history of the process, with failed writes, and any pattern of
failures of git commands.

`hsto`: names, identifiers and texts are those that can
be stored, see C46, C49 and C50.  `hal`: see `History`.  `ht`, `ho`: what passes for saved in the
object is stored as it is, and no modified part of it is shared; C21 shows what happens otherwise.
Both hold for all objects in the states of `Session` (`Sane.trusted`, `Sane.owned`).  The class name
in the reference of a tree version list is corrected by `normRef`, see C25. -/
theorem C17_read_back_partial {w w' : World} (hr : r ≠ []) (hs : History C r w) {via : Via} {n : Nat}
    {force : Bool} {i : ObjId} {ref : Ref} (h : writeAs C via n (some r) force i w = (.ok ref, w'))
    (hc : CollisionFree C w'.repo.log) (hsto : Storable w.heap i)
    (hal : Alone r w.heap i) (ht : Trusted C r w i) (ho : Owned r w.heap i) (h0 : Heap) :
    SameContent C w.repo.log w.heap (.mem i) w'.repo.log h0
        (.sto r ⟨(w.heap i).kind, normRef (w.heap i).kind ref⟩) ∧
      Full C w'.repo.log h0 (.sto r ⟨(w.heap i).kind, normRef (w.heap i).kind ref⟩) :=
  (hs.intact hr).read_back ((hs.intact hr).done hr h hc hsto hal ht ho) h0

theorem sample_history : History sampleCfg sampleRealm sampleWorld := sample_session.1.history (by decide)

theorem sample_trusted (i : ObjId) : Trusted sampleCfg sampleRealm sampleWorld i :=
  (sample_session.1.sane (by decide)).trusted i

theorem sample_owned (i : ObjId) : Owned sampleRealm sampleWorld.heap i := (sample_session.1.sane (by decide)).owned i

/-- The hypotheses of C17 are met by the tree version list of the example. -/
example : ∃ ref w', writeAs sampleCfg .own 20 (some sampleRealm) false 6 sampleWorld = (.ok ref, w') ∧
    ∀ h0, SameContent sampleCfg sampleWorld.repo.log sampleWorld.heap (.mem 6) w'.repo.log h0
        (.sto sampleRealm ⟨.tvl, normRef .tvl ref⟩) :=
  ⟨_, _, sampleWrite_ok, fun h0 => (C17_read_back_partial (by decide) sample_history sampleWrite_ok
    sampleWrite_distinct (sample_storable (by decide)) (sample_alone _) (sample_trusted _) (sample_owned _) h0).1⟩

/-- Reading gives the same under two locations of the same object. -/
theorem strictFetch_resolve {L : Log} {k : Kind} {cls l l' : Str} (hn : l ≠ noneLocation)
    (hn' : l' ≠ noneLocation) (h : resolve C L r l' = resolve C L r l) :
    strictFetch C L r k ⟨cls, some l'⟩ = strictFetch C L r k ⟨cls, some l⟩ := by
  have e1 : (Ref.mk cls (some l)).isNone = false := by simp [Ref.isNone, hn]
  have e2 : (Ref.mk cls (some l')).isNone = false := by simp [Ref.isNone, hn']
  have ht : textAt C L r l' = textAt C L r l := by unfold textAt; rw [h]
  have ht' : treeAt C L r l' = treeAt C L r l := by unfold treeAt; rw [h]
  have hj : jsonAt C L r l' = jsonAt C L r l := by unfold jsonAt; rw [ht]
  have hd : decode C L r k l' = decode C L r k l := by
    unfold decode
    cases k <;> simp only [ht, ht', hj]
  have hf : fetch C L r k ⟨cls, some l'⟩ = fetch C L r k ⟨cls, some l⟩ := by
    unfold fetch
    rw [e1, e2]
    simp only [hd]
  have hi : innerDirect C L r k ⟨cls, some l'⟩ = innerDirect C L r k ⟨cls, some l⟩ := by
    unfold innerDirect
    rw [e1, e2]
    simp only [ht]
  unfold strictFetch
  rw [hf, hi]

/-- Saving a top-level object sets its name to what the returned reference holds. -/
theorem mapOut_publishes {wr : Bool → ObjId → W Ref} {force : Bool} {b : Body ObjId} {w w' : World}
    {ref : Ref} {nm : Str} (hk : pubName b.data.kind = some nm)
    (h : mapOut C wr r force b w = (.ok ref, w')) :
    ∃ l, ref.loc = some l ∧ isHash l = true ∧ refOf w'.repo.log r nm = some l := by
  have upd : ∀ {h : Str} {w w' : World}, liftG (gitUpdateRef C r nm h) w = (.ok (), w') →
      refOf w'.repo.log r nm = some h := by
    intro h w w' hu
    obtain ⟨s, hg, rfl⟩ := liftG_ok hu
    obtain ⟨g1, g2⟩ := gitCmd_ok hg
    cases hres : resolve C w.repo.log r h with
    | none => simp [hres] at g1
    | some o =>
      simp only [hres] at g2
      show refOf s.log r nm = _
      rw [g2]
      simp [refOf]
  have saved : ∀ {j : Json} {w w' : World} {h : Str}, liftG (gitSaveJson C r j) w = (.ok h, w') →
      isHash h = true := by
    intro j w w' h hg
    obtain ⟨s, hg2, rfl⟩ := liftG_ok hg
    unfold gitSaveJson gitSaveStr at hg2
    obtain ⟨g1, _⟩ := gitCmd_ok hg2
    cases g1
    exact C.valid _
  have treeSaved : ∀ {es : List TreeEntry} {w w' : World} {h : Str},
      liftG (gitSaveTree C r es) w = (.ok h, w') → isHash h = true := by
    intro es w w' h hg
    obtain ⟨s, hg2, rfl⟩ := liftG_ok hg
    obtain ⟨g1, _⟩ := gitCmd_ok hg2
    cases hm : mktree (treeSpec es) with
    | none => simp [hm] at g1
    | some es' => simp only [hm] at g1; cases g1; exact C.valid _
  cases hd : b.data with
  | tvl =>
    rw [hd] at hk
    cases hk
    unfold mapOut at h
    rw [hd] at h
    simp only at h
    obtain ⟨l, w1, h1, h⟩ := M.bind_ok h
    obtain ⟨_, w2, h2, h⟩ := M.bind_ok h
    cases h
    unfold writeVersionList at h1
    obtain ⟨_, w3, _, h1⟩ := M.bind_ok h1
    exact ⟨l, rfl, saved h1, upd h2⟩
  | uuidset =>
    rw [hd] at hk
    cases hk
    unfold mapOut at h
    rw [hd] at h
    simp only at h
    obtain ⟨_, w3, _, h⟩ := M.bind_ok h
    obtain ⟨l, w1, h1, h⟩ := M.bind_ok h
    obtain ⟨_, w2, h2, h⟩ := M.bind_ok h
    cases h
    exact ⟨l, rfl, treeSaved h1, upd h2⟩
  | text s => rw [hd] at hk; cases hk
  | metadata m => rw [hd] at hk; cases hk
  | mtree l => rw [hd] at hk; cases hk
  | mrr a b => rw [hd] at hk; cases hk
  | vlist => rw [hd] at hk; cases hk

/-- Whether an object passes for saved does not depend on where objects belong. -/
theorem clean_realm {h : Heap} (x : Option Realm) (i : ObjId) {j : ObjId} :
    Clean r (h.set i { h i with realm := x }) j ↔ Clean r h j := by
  have e : ∀ k, ((h.set i { h i with realm := x }) k).savedOn = (h k).savedOn ∧
      ((h.set i { h i with realm := x }) k).mapped = (h k).mapped ∧
      ((h.set i { h i with realm := x }) k).body = (h k).body := by
    intro k
    by_cases hk : k = i
    · subst hk; rw [Heap.set_self]; exact ⟨rfl, rfl, rfl⟩
    · rw [Heap.set_ne hk]; exact ⟨rfl, rfl, rfl⟩
  constructor
  · intro hc
    induction hc with
    | mk j hf _ ih =>
      obtain ⟨e1, e2, e3⟩ := e j
      exact Clean.mk j (by rw [← e1]; exact hf) fun hm k hk => ih (by rw [e2]; exact hm) k (by rw [e3]; exact hk)
  · intro hc
    induction hc with
    | mk j hf _ ih =>
      obtain ⟨e1, e2, e3⟩ := e j
      exact Clean.mk j (by rw [e1]; exact hf) fun hm k hk => ih (by rw [← e2]; exact hm) k (by rw [← e3]; exact hk)

/-- Writing a loaded object that does not pass for saved, or with force, calls the mapper. -/
theorem writeOut_unsaved {w w' : World} (hr : r ≠ []) {n : Nat} {force : Bool} {i : ObjId} {ref : Ref}
    (hm : (w.heap i).mapped = true) (hu : ¬ Clean r w.heap i ∨ force = true)
    (h : writeOut C n (some r) force i w = (.ok ref, w')) :
    ∃ k w1 w2, n = k + 1 ∧ w1 = { w with heap := w.heap.set i { w.heap i with realm := some r } } ∧
      mapOut C (writeOut C k (some r)) r force (w.heap i).body w1 = (.ok ref, w2) ∧
      w' = { w2 with heap := w2.heap.set i { w2.heap i with
        ref := some ref, savedOn := r :: (w2.heap i).savedOn } } := by
  cases n with
  | zero => cases h
  | succ n =>
    have e := writeOut_mapped (C := C) (n := n) (force := force) (i := i) (w := w) hr hm rfl
    rw [h] at e
    have hns : ∀ saved, isSavedOn (n + 1) ({ w with heap := w.heap.set i { w.heap i with realm := some r } } : World).heap r i
        = .ok saved → ¬ (saved = true ∧ force = false) := by
      intro saved hsv hcon
      rcases hu with hu | hu
      · rw [hcon.1] at hsv
        exact hu ((clean_realm (some r) i).mp (clean_of_isSavedOn hsv))
      · rw [hu] at hcon; cases hcon.2
    split at e
    · cases e
    · split at e
      · cases e
      · rename_i saved hsv
        rw [if_neg (hns saved hsv)] at e
        split at e
        · cases e
        · rename_i ref' w2 hmo
          injection e with e1 e2
          injection e1 with e1
          subst e1
          exact ⟨n, _, w2, rfl, rfl, hmo, e2⟩

/-- Writing an object that passes for saved leaves the repository as it is. -/
theorem writeOut_saved {w w' : World} (hr : r ≠ []) {n : Nat} {i : ObjId} {ref : Ref} (hcl : Clean r w.heap i)
    (h : writeOut C n (some r) false i w = (.ok ref, w')) : w'.repo = w.repo ∧ (w.heap i).ref = some ref := by
  cases n with
  | zero => cases h
  | succ n =>
    cases hm : (w.heap i).mapped with
    | false =>
      rw [writeOut_away hm] at h
      split at h
      · rename_i x ref' _ hf
        split at h
        · cases h; exact ⟨rfl, hf⟩
        · cases h
      · cases h
    | true =>
      have e := writeOut_mapped (C := C) (n := n) (force := false) (i := i) (w := w) hr hm rfl
      rw [h] at e
      split at e
      · cases e
      · split at e
        · cases e
        · rename_i saved hsv
          have : saved = true := by
            cases saved with
            | true => rfl
            | false => exact absurd ((clean_realm (some r) i).mpr hcl) (not_clean_of_isSavedOn hsv)
          rw [if_pos ⟨this, rfl⟩] at e
          split at e
          · rename_i ref' hf
            cases e
            exact ⟨rfl, hf⟩
          · cases e

/-- Writing a loaded object that is not saved, or with force, calls the mapper. -/
theorem writeOut_not_skipped {w w' : World} (hr : r ≠ []) {n : Nat} {force : Bool} {i : ObjId} {ref : Ref}
    (hm : (w.heap i).mapped = true) (hu : (w.heap i).savedOn = [] ∨ force = true)
    (h : writeOut C n (some r) force i w = (.ok ref, w')) :
    ∃ k w1 w2, n = k + 1 ∧ w1 = { w with heap := w.heap.set i { w.heap i with realm := some r } } ∧
      mapOut C (writeOut C k (some r)) r force (w.heap i).body w1 = (.ok ref, w2) ∧
      w' = { w2 with heap := w2.heap.set i { w2.heap i with
        ref := some ref, savedOn := r :: (w2.heap i).savedOn } } :=
  writeOut_unsaved hr hm (hu.imp (fun e hc => by have := hc.flag; rw [e] at this; cases this) id) h

/-- A top-level object that is written is found under its published name. -/
theorem Intact.published {w w' : World} (hr : r ≠ []) (hs : Intact C r w) {n : Nat}
    {force : Bool} {i : ObjId} {ref : Ref} (h : writeOut C n (some r) force i w = (.ok ref, w'))
    (hc : CollisionFree C w'.repo.log) (hm : (w.heap i).mapped = true) (hsto : Storable w.heap i)
    (hal : Alone r w.heap i) (ht : Trusted C r w i) (ho : Owned r w.heap i) {nm : Str}
    (hk : pubName (w.heap i).kind = some nm) (hu : ¬ Clean r w.heap i ∨ force = true)
    (h0 : Heap) :
    SameContent C w.repo.log w.heap (.mem i) w'.repo.log h0
      (.sto r ⟨(w.heap i).kind, ⟨(w.heap i).kind.name, some nm⟩⟩) := by
  have h17 := (hs.read_back (hs.done hr (via := .own) h hc hsto hal ht ho) h0).1
  refine h17.trans ?_
  obtain ⟨n, w1, w2, _, _, hmo, e2⟩ := writeOut_unsaved hr hm hu h
  obtain ⟨l, hl, hh, href⟩ := mapOut_publishes hk hmo
  have hlog : w'.repo.log = w2.repo.log := by rw [e2]
  have hno : isHash nm = false := by
    cases hkd : (w.heap i).kind <;> rw [hkd] at hk <;> cases hk <;> decide
  have hnn : nm ≠ noneLocation := by
    cases hkd : (w.heap i).kind <;> rw [hkd] at hk <;> cases hk <;> decide
  have hres : resolve C w'.repo.log r nm = resolve C w'.repo.log r l := by
    rw [resolve_hash hh]
    unfold resolve
    rw [hno, hlog, href]
    rfl
  have hv : view C w'.repo.log h0 (.sto r ⟨(w.heap i).kind, normRef (w.heap i).kind ref⟩) =
      view C w'.repo.log h0 (.sto r ⟨(w.heap i).kind, ⟨(w.heap i).kind.name, some nm⟩⟩) := by
    have hcls : (normRef (w.heap i).kind ref) = ⟨(w.heap i).kind.name, some l⟩ := by
      unfold normRef
      by_cases ht : (w.heap i).kind = .tvl
      · rw [if_pos ht, hl]
      · rw [if_neg ht]
        have hux : (w.heap i).kind = .uuidset := by
          cases hkd : (w.heap i).kind <;> rw [hkd] at hk <;> first | cases hk; done | skip
          exact absurd hkd ht
        have : (w.heap i).body.data = .uuidset := by
          unfold Obj.kind at hux
          cases hdd : (w.heap i).body.data <;> rw [hdd] at hux <;> first | cases hux; done | rfl
        unfold mapOut at hmo
        rw [this] at hmo
        simp only at hmo
        obtain ⟨_, _, _, hmo⟩ := M.bind_ok hmo
        obtain ⟨_, _, _, hmo⟩ := M.bind_ok hmo
        obtain ⟨_, _, _, hmo⟩ := M.bind_ok hmo
        injection hmo with hmo _
        injection hmo with hmo
        rw [← hmo] at hl ⊢
        simp only [Option.some.injEq] at hl
        rw [hux, hl]
        rfl
    rw [hcls]
    simp only [view]
    rw [strictFetch_resolve (isHash_ne_none hh) hnn hres]
  exact look_of_view hv rfl

/-- C17 for the two top-level objects: when a tree version list or a UUID set that was
not saved before is written, it is found under its published name. -/
theorem C17_published_partial {w w' : World} (hr : r ≠ []) (hs : History C r w) {n : Nat}
    {force : Bool} {i : ObjId} {ref : Ref} (h : writeOut C n (some r) force i w = (.ok ref, w'))
    (hc : CollisionFree C w'.repo.log) (hm : (w.heap i).mapped = true) (hsto : Storable w.heap i)
    (hal : Alone r w.heap i) (ht : Trusted C r w i) (ho : Owned r w.heap i) {nm : Str}
    (hk : pubName (w.heap i).kind = some nm) (hu : (w.heap i).savedOn = [] ∨ force = true)
    (h0 : Heap) :
    SameContent C w.repo.log w.heap (.mem i) w'.repo.log h0
      (.sto r ⟨(w.heap i).kind, ⟨(w.heap i).kind.name, some nm⟩⟩) :=
  (hs.intact hr).published hr h hc hm hsto hal ht ho hk
    (hu.imp (fun e hc => by have := hc.flag; rw [e] at this; cases this) id) h0


/-! ### C18 -/

/-- C18, one step: reading an object, whether it works or fails, changes no content of
any existing object. -/
theorem C18_read {w : World} (hr : r ≠ []) (hs : History C r w) {i : ObjId} (hi : i < w.next)
    {j : ObjId} (hj : j < w.next) :
    SameContent C w.repo.log w.heap (.mem j) (ensureMapped C i w).2.repo.log
      (ensureMapped C i w).2.heap (.mem j) := by
  by_cases hm : (w.heap i).mapped = true
  · rw [ensureMapped_mapped hm]; exact SameContent.refl _ _ _ _
  · have hm : (w.heap i).mapped = false := by simpa using hm
    exact (hs.intact hr).read_look hi hm (ensureMapped_cases C i w hm) j hj

/-- C18, one step: purging an object, whether it works or fails, changes no content
of any object.  Partial: what passes for saved is stored as it is, and is known under the name of
its class, which tree version lists written in this process are not (see `Purgeable`, C21, C25). -/
theorem C18_purge_partial {w : World} (hr : r ≠ []) (hs : History C r w) (n : Nat) (i : ObjId)
    (ho : Purgeable C r w i) (j : ObjId) :
    SameContent C w.repo.log w.heap (.mem j) (purge n i w).2.repo.log (purge n i w).2.heap (.mem j) := by
  have h := ((hs.intact hr).purge n i w ho).1
  rw [h.unloads.repo]
  exact h.look j

/-- C18: everything that is known to an object can be loaded, if git works. -/
theorem C18_loads {w : World} (hr : r ≠ []) (hs : History C r w) (hf : w.repo.faults = []) {i : ObjId}
    (hm : (w.heap i).mapped = false) :
    (ensureMapped C i w).1 = .ok true ∧ ((ensureMapped C i w).2.heap i).mapped = true := by
  have int := hs.intact hr
  obtain ⟨ref, a, h2, h3, _⟩ := int.fetched hm
  have h1 := int.away i hm
  obtain ⟨hfe, _, _⟩ := strictFetch_ok h3
  have hread : ∃ w1, readIn C i w = (.ok (), w1) := by
    unfold readIn
    rw [M.bind_of_ok (getObj_run i w), if_neg (by simp [hm]), h1, h2]
    simp only
    unfold fetch at hfe
    by_cases hn : ref.isNone = true
    · rw [if_pos hn] at hfe ⊢
      by_cases hcls : ref.cls = (w.heap i).kind.name
      · rw [if_pos hcls] at hfe
        have : (w.heap i).kind ≠ .mrr := by intro e; rw [if_pos e] at hfe; cases hfe
        rw [decide_eq_true hcls, M.bind_of_ok (M.assert_true w), if_neg (fun h => this h.1)]
        exact ⟨_, rfl⟩
      · rw [if_neg hcls] at hfe; cases hfe
    · rw [if_neg hn] at hfe ⊢
      have hr0 : r ∈ (w.heap i).savedOn := int.marked i hm ref h2 (by simpa using hn)
      rw [if_neg (by simpa using hr0)]
      by_cases ha : (w.heap i).kind.accepts ref.cls = true
      · rw [if_pos ha] at hfe
        rw [ha, M.bind_of_ok (M.assert_true w)]
        cases hl : ref.loc with
        | none => rw [hl] at hfe; cases hfe
        | some loc =>
          rw [hl] at hfe
          simp only at hfe ⊢
          have hd := decodeG_total (C := C) hf hfe
          have hlift : liftG (decodeG C r (w.heap i).kind loc) w = (.ok a, w) := by
            unfold liftG; rw [hd]
          rw [M.bind_of_ok hlift]
          obtain ⟨is, w', hal, _⟩ := allocKids_ok (r := r) a.kids w
          rw [M.bind_of_ok hal]
          exact ⟨_, rfl⟩
      · rw [if_neg ha] at hfe; cases hfe
  obtain ⟨w1, hread⟩ := hread
  unfold ensureMapped
  rw [M.bind_of_ok (getObj_run i w), if_neg (by simp [hm]), M.bind_of_ok hread,
    M.bind_of_ok (updObj_run i _ w1)]
  exact ⟨rfl, by simp⟩

/-- Any sequence of loading and purging -/
inductive Visits (C : Cfg) (r : Realm) : World → World → Prop
  | refl (w : World) : Visits C r w w
  | read {w w1 : World} (i : ObjId) : Visits C r w w1 → i < w1.next → Visits C r w (ensureMapped C i w1).2
  | purge {w w1 : World} (n : Nat) (i : ObjId) : Visits C r w w1 →
      (∀ j, Reach w1.heap i j → OwnName w1.heap j) →
      (∀ j, Reach w1.heap i j → (w1.heap j).mapped = false → r ∈ (w1.heap j).savedOn) →
      Visits C r w (purge n i w1).2

theorem ensureMapped_next (C : Cfg) (i : ObjId) (w : World) : w.next ≤ (ensureMapped C i w).2.next := by
  by_cases hm : (w.heap i).mapped = true
  · rw [ensureMapped_mapped hm]; exact Nat.le_refl _
  · have h := ensureMapped_cases C i w (by simpa using hm)
    cases hres : (ensureMapped C i w).1 <;> rw [hres] at h <;> cases h <;> oomega

/-- C18: any sequence of loading and purging, in any order, with any failures, keeps
the content of all objects that existed before.

The steps exclude purging tree version lists written in this process (C25), and purging
version lists from which dataset trees without any dataset were read (C52). -/
theorem C18_transparent_partial {w w' : World} (hr : r ≠ []) (hs : History C r w)
    (ht : ∀ j, Truth C r w.repo.log w.heap j) (hv : Visits C r w w') :
    History C r w' ∧ w.next ≤ w'.next ∧ (∀ j, Truth C r w'.repo.log w'.heap j) ∧ ∀ j, j < w.next →
      SameContent C w.repo.log w.heap (.mem j) w'.repo.log w'.heap (.mem j) := by
  induction hv with
  | refl => exact ⟨hs, Nat.le_refl _, ht, fun _ _ => SameContent.refl _ _ _ _⟩
  | @read w1 i _ hi ih =>
    obtain ⟨h1, h2, h3, h4⟩ := ih
    refine ⟨History.read _ i h1 hi, Nat.le_trans h2 (ensureMapped_next ..), ?_, fun j hj =>
      (h4 j hj).trans (C18_read hr h1 hi (Nat.lt_of_lt_of_le hj h2))⟩
    intro j
    by_cases hm : (w1.heap i).mapped = true
    · rw [ensureMapped_mapped hm]; exact h3 j
    · have hm : (w1.heap i).mapped = false := by simpa using hm
      exact ((h1.intact hr).read hr hi hm (ensureMapped_cases C i w1 hm)).2 j (Or.inr (h3 j))
  | @purge w1 n i _ ho hb ih =>
    obtain ⟨h1, h2, h3, h4⟩ := ih
    have hp : Purgeable C r w1 i := ⟨fun j _ => h3 j, ho, hb⟩
    have e := ((h1.intact hr).purge n i w1 hp).1
    refine ⟨History.purge _ n i h1 hp, by rw [(purge_purged n i _).next]; exact h2, fun j => ?_, fun j hj =>
      (h4 j hj).trans (C18_purge_partial hr h1 n i hp j)⟩
    rw [e.unloads.repo]
    exact e.truth j (h3 j)

/-- C17 for a new process: an object that is created there from the returned
reference shows the content of the original object, in whatever order its parts are
loaded and purged. -/
theorem C17_new_process_partial {w w' : World} (hr : r ≠ []) (hs : History C r w) {via : Via} {n : Nat}
    {force : Bool} {i : ObjId} {ref : Ref} (h : writeAs C via n (some r) force i w = (.ok ref, w'))
    (hc : CollisionFree C w'.repo.log) (hsto : Storable w.heap i)
    (hal : Alone r w.heap i) (ht : Trusted C r w i) (ho : Owned r w.heap i)
    (fs : List Fault) {l : Link} (hl : l = ⟨(w.heap i).kind, normRef (w.heap i).kind ref⟩) {v : World}
    (hv : Visits C r (create (l.obj r) (start ⟨w'.repo.log, fs⟩)) v) :
    SameContent C w.repo.log w.heap (.mem i) v.repo.log v.heap (.mem 0) := by
  have h17 := C17_read_back_partial hr hs h hc hsto hal ht ho
  subst hl
  have d := (hs.intact hr).done hr h hc hsto hal ht ho
  have hok := d.good.ok
  rw [(d.tried.any.same i).kind] at hok
  have hok' : RefOk (w.heap i).kind (normRef (w.heap i).kind ref) := by
    unfold normRef
    split
    · rename_i e
      exact ⟨hok.loc, fun e' => by rw [e] at e'; cases e'⟩
    · exact hok
  have s0 := (session_start (C := C) (r := r) ⟨w'.repo.log, fs⟩).history hr
  have hs2 : History C r (create (Link.obj r ⟨(w.heap i).kind, normRef (w.heap i).kind ref⟩)
      (start ⟨w'.repo.log, fs⟩)) :=
    History.load _ _ s0 (fun _ => hok') (h17 _).2
  have ht2 := ((s0.intact hr).load hr (l := ⟨(w.heap i).kind, normRef (w.heap i).kind ref⟩) (fun _ => hok') (h17 _).2).2
  obtain ⟨_, _, _, h3⟩ := C18_transparent_partial hr hs2 (fun j => ht2 j (Or.inr
    (((session_start (C := C) (r := r) ⟨w'.repo.log, fs⟩).sane hr).truth j))) hv
  refine (h17 (fun _ => Obj.new (Body.empty .text))).1.trans (SameContent.trans (SameContent.symm ?_) (h3 0 (Nat.lt_succ_self _)))
  have e : (create (Link.obj r ⟨(w.heap i).kind, normRef (w.heap i).kind ref⟩)
      (start ⟨w'.repo.log, fs⟩)).heap 0 = Link.obj r ⟨(w.heap i).kind, normRef (w.heap i).kind ref⟩ :=
    create_self _ _
  have e2 := look_unloaded (C := C) (L := w'.repo.log) (h' := fun _ => Obj.new (Body.empty .text)) (i := 0)
    (h := (create (Link.obj r ⟨(w.heap i).kind, normRef (w.heap i).kind ref⟩)
      (start ⟨w'.repo.log, fs⟩)).heap) (r := r) (ref := normRef (w.heap i).kind ref)
    (by rw [e]; rfl) (by rw [e]; rfl) (by rw [e]; rfl)
  rw [e, show (Link.obj r ⟨(w.heap i).kind, normRef (w.heap i).kind ref⟩).kind = (w.heap i).kind from
    Data.kind_empty _] at e2
  exact e2

end MM
