/-
C79: what sessions saved survives garbage collection.
-/
import Verif.Tended
import Verif.Repos
import Verif.Canon
import Verif.Props.Protect
import Verif.Props.Together

namespace MM

variable {C : Cfg} {r : Realm} {t u : ObjId}

/-! ### Histories -/

/-- A new process has got the tree version list `t` and the UUID set `u` of the repository: either those that are
stored or, after it was told that there are none, new ones (common.py 42-75, 114-123). -/
inductive Begins (C : Cfg) (r : Realm) (s : Repo) : ObjId → ObjId → ObjId → World → Prop
  | found (t u : ObjId) (w : World) : topLevel C r (start s) = (.ok (some (t, u)), w) → Begins C r s 0 t u w
  | made (w : World) : topLevel C r (start s) = (.ok none, w) →
      Begins C r s w.next w.next (w.next + 1)
        (create (Obj.new (Body.empty .uuidset)) (create (Obj.new (Body.empty .tvl)) w))

/-- The process writes out the tree version list and the UUID set, and flushes the object references
(`flush_object_references`); all of this is successful. -/
structure Tends (C : Cfg) (r : Realm) (t u : ObjId) (w w' : World) (s : RefState) : Prop where
  saves : ∃ n n' force force' ref ref' w1, writeOut C n (some r) force t w = (.ok ref, w1) ∧
    writeOut C n' (some r) force' u w1 = (.ok ref', w')
  flushes : ∃ checked, flush C r ⟨w'.repo, w'.refs, checked⟩ = (.ok (), s) ∧ StoreReadable r ⟨w'.repo, w'.refs, checked⟩
  unique : CollisionFree C s.repo.log

/-- What a repository holds after any number of sessions, one after the other, that began with no metadata in it.
Each is a process of its own, does whatever it wants, saves, and flushes the object references.
Between the sessions others may store objects. -/
inductive Tended (C : Cfg) (r : Realm) : Log → Prop
  | blank : Tended C r []
  | session (L : Log) (fs : List Fault) (g t u : ObjId) (w0 w w' : World) (s : RefState) : Tended C r L →
      Begins C r ⟨L, fs⟩ g t u w0 → Orderly C g t u w0 w → Tends C r t u w w' s → Tended C r s.repo.log
  | others (L L' : Log) : Tended C r L → Grows L L' → (∀ x n, refOf L' x n = refOf L x n) → CollisionFree C L' →
      WellTrees L' r → Tended C r L'

theorem Begins.opens {s : Repo} (hU : Usable C r s.log) {g : ObjId} {w : World} (h : Begins C r s g t u w) : Opens C r s g t u w := by
  cases h with
  | found _ _ _ h => exact .found (start s) _ _ _ (idle_start s) (Opens.found_stocked hU (idle_start s) h) h
  | made w1 h => exact .made (start s) w1 (idle_start s) h

theorem Begins.lifetime {s : Repo} {g : ObjId} {w : World} (h : Begins C r s g t u w) {ks : List Link} (hl : Lifetime C r (start s) ks) :
    Lifetime C r w ks := by
  have h0 := lives_topLevel (C := C) (r := r) (start s) ks hl
  cases h with
  | found _ _ _ h => rw [h] at h0; exact h0
  | made w1 h => rw [h] at h0; exact .new _ _ _ (.new _ _ _ h0)

theorem Side.turn {A : ObjId → Prop} {w v : World} (h : Side A w v) : Side A v w :=
  ⟨fun j hj => (h.heap j hj).symm, h.next.symm, h.repo.symm, h.caches.symm, h.refs.symm,
   fun p hp hm k hk => h.subs p hp (by rw [← h.heap p hp]; exact hm) k (by rw [← h.heap p hp]; exact hk),
   fun j hj => h.fresh j (by rw [← h.next]; exact hj)⟩

/-- A session after a history, up to the flush -/
theorem Tends.done (hr : r ≠ []) {L : Log} (hU : Usable C r L) {fs : List Fault} {g : ObjId} {w0 w w' : World} {s : RefState}
    (hb : Begins C r ⟨L, fs⟩ g t u w0) (ho : Orderly C g t u w0 w) (h : Tends C r t u w w' s) {ks : List Link}
    (hl : Lifetime C r (start ⟨L, fs⟩) ks) :
    (∃ ks', Lifetime C r { w' with repo := s.repo, refs := s.cached } ks') ∧ s.cached = [] ∧
      SavesBoth C r t u w w' ∧ After C r w'.repo.log s.repo.log := by
  obtain ⟨n, n', force, force', ref, ref', w1, h1, h2⟩ := h.saves
  obtain ⟨checked, hf, hrd⟩ := h.flushes
  obtain ⟨v, b, l⟩ := (hb.opens hU).session hr hU.trim hU.trees ho
  have hw : Lifetime C r w ks := ho.busy.lives ks (hb.lifetime hl)
  obtain ⟨hg, hk⟩ := flush_topKept hf
  simp only at hg hk
  have hc' : CollisionFree C w'.repo.log := h.unique.mono hg
  have hc1 : CollisionFree C w1.repo.log := by
    obtain ⟨ops, e, _⟩ := (writeOut_any (C := C) hr n' force' u w1).log
    rw [h2] at e
    exact suffix_collisionFree ⟨ops, e.symm⟩ hc'
  obtain ⟨e1, s1, _⟩ := twin_writeOut (C := C) n (dest := some r) (force := force) b.gt w v b.side
  rw [h1] at e1 s1
  cases hv : writeOut C n (some r) force t v with
  | mk res v1 =>
    rw [hv] at e1 s1
    simp only at e1 s1
    subst e1
    obtain ⟨hdn, _⟩ := b.desk.after_tree hr hv (by rw [s1.repo]; exact hc1)
    have q1 : Storable w.heap t := b.side.turn.storable b.gt (b.desk.storable b.desk.tl)
    have q2 : Storable w1.heap u := s1.turn.storable b.gu ((b.desk.storable b.desk.ul).mono hdn.tried.any.same)
    have l1 := Lifetime.write w ks .own n force t ref w1 hw h1 hc1 q1 (fun h => absurd rfl h)
    have l2 := Lifetime.write w1 _ .own n' force' u ref' w' l1 h2 hc' q2 (fun h => absurd rfl h)
    have hG := l2.guarded hr
    exact ⟨⟨_, Lifetime.flush w' _ checked s l2 hf hrd h.unique⟩,
      (flush_any (s := ⟨w'.repo, w'.refs, checked⟩) hG.wells hG.hashes h.unique hf).done rfl, SavesBoth.direct h1 h2, hg, hk, h.unique⟩

/-- What is known after a history -/
theorem Tended.known (hr : r ≠ []) {L : Log} (h : Tended C r L) :
    Past C r L ∧ ∃ w ks, Lifetime C r w ks ∧ w.refs = [] ∧ w.repo.log = L := by
  induction h with
  | blank => exact ⟨.blank, _, _, lifetime_start, rfl, rfl⟩
  | session L fs g t u w0 w w' s _ hb ho ht ih =>
    obtain ⟨hp, wl, ks, hl, hn, hL⟩ := ih
    have hU := hp.ready hr
    have hst : Lifetime C r (start ⟨L, fs⟩) ks := .next wl _ ks hl hn hL.symm rfl rfl (fun _ => rfl)
    obtain ⟨⟨ks', h1⟩, h2, _, h3⟩ := ht.done hr hU hb ho hst
    refine ⟨?_, _, ks', h1, h2, rfl⟩
    obtain ⟨n, n', force, force', ref, ref', w1, e1, e2⟩ := ht.saves
    have hw := (h1.guarded hr).wells
    refine .others w'.repo.log _ ?_ h3 fun es hs => (hw es hs).hashes
    refine .second L w'.repo.log g t u w0 w w1 w' n n' force force' fs w.repo.faults w1.repo.faults ref (.ok ref') hp
      (hb.opens hU) ho e1 e2 (h3.unique.mono h3.grows) ?_ List.suffix_rfl
    obtain ⟨ops, e, _⟩ := (writeOut_any (C := C) hr n' force' u w1).log
    rw [e2] at e
    exact ⟨ops, e.symm⟩
  | others L L' _ hg hn hc hw ih =>
    obtain ⟨hp, wl, ks, hl, hnr, hL⟩ := ih
    subst hL
    exact ⟨.others _ _ hp ⟨hg, fun nm _ => hn r nm, hc⟩ fun es hs => (hw es hs).hashes,
      _, ks, .outside wl ks L' [] hl hg hn hc hw, hnr, rfl⟩

/-- After a history, no root record is an element of the tree version list. -/
theorem Usable.noRecords {L : Log} (h : Usable C r L) : NoRecords C L r tvlLink := by
  have hfull : refOf L r tvlRefName = none ∨ ∀ h, Full C L h (.sto r tvlLink) := by
    rcases h.open_ with ⟨_, h1⟩ | h1
    · exact h1
    · exact Or.inr fun x => (h1 tvlLink tvlRefName (Or.inl ⟨rfl, rfl⟩) x).1
  have hnn : tvlLink.ref.isNone = false := by decide
  refine noRecords_of_trees fun b hb e he hk => ?_
  have hd := fetch_decode hb rfl hnn
  rcases hfull with hn | hfull
  · simp only [decode, jsonAt, textAt, resolve] at hd
    rw [if_neg (by decide), hn] at hd
    cases hd
  · have hv : view C L start0 (.sto r tvlLink) = .ok (b.map (.sto r)) := by
      have hx := hfull start0 [] []
      simp only [look] at hx
      cases hv : view C L start0 (.sto r tvlLink) with
      | error e => rw [hv] at hx; exact absurd rfl hx
      | ok b0 =>
        simp only [view] at hv
        cases hs : strictFetch C L r tvlLink.kind tvlLink.ref with
        | error e => rw [hs] at hv; cases hv
        | ok b1 =>
          rw [hs] at hv
          cases hv
          have := fetch_of_strict hs
          rw [show fetch C L r tvlLink.kind tvlLink.ref = .ok b from hb] at this
          cases this
          rfl
    have hget : dget (b.map (Node.sto r)).kids e.1 = some (e.2.1, .sto r e.2.2) := by
      rw [Body.dget_map, dget_of_mem (decode_nodup hd) (show (e.1, e.2) ∈ b.kids from he)]
      rfl
    have hft : e.1 ≠ .ft := by
      intro h0
      have := fetch_kinds hb e he
      rw [h0] at this
      exact this
    have h1 : look C L start0 [] [] (.sto r tvlLink) = .found [] b.data (b.map (Node.sto r)).blank := by
      simp only [look]; rw [hv]; rfl
    have hx := hfull start0 [e.1] []
    have h2 : look C L start0 [e.1] [] (.sto r tvlLink) = match view C L start0 (.sto r e.2.2) with
        | .ok b' => .found e.2.1 b'.data b'.blank
        | .error _ => .missing := by
      simp only [look]
      rw [hv]
      simp only [hget]
      cases view C L start0 (.sto r e.2.2) with
      | error _ => rfl
      | ok b' => simp [hft]
    cases hw : view C L start0 (.sto r e.2.2) with
    | error x => rw [h2, hw] at hx; exact hx rfl
    | ok b' =>
      rw [hw] at h2
      have hf := ((h.trim tvlLink tvlRefName (Or.inl ⟨rfl, rfl⟩) start0).form [] e.1 [] _ _ _ _ _ _ h1 h2).2 (decode_links hd).1
      have hc := view_class' hw
      rw [hf] at hc
      have : Kind.mtree .mrr = e.2.2.kind := hc
      rw [hk] at this
      cases this
where
  start0 : Heap := fun _ => Obj.new (Body.empty .text)

/-! ### C79 -/

/-- C79: after every history, git reaches from the names of the repository everything that is needed to read the
tree version list, and everything in it. -/
theorem C79_reached_partial (hr : r ≠ []) {L : Log} (h : Tended C r L) {x : Str} (hx : Needs C L r tvlLink x) : Reachable C L r x := by
  obtain ⟨hp, w, ks, hl, hn, rfl⟩ := h.known hr
  exact C43_no_records_partial hr hl hn (Or.inl ⟨rfl, rfl⟩) (hp.ready hr).noRecords hx

/-- C79: garbage collection after a history does not change what is read from the tree version list, at any depth. -/
theorem C79_collected_partial (hr : r ≠ []) {L L' : Log} (h : Tended C r L) (hg : Collected C r L L') (m m' : Heap) :
    SameContent C L' m' (.sto r tvlLink) L m (.sto r tvlLink) := by
  obtain ⟨hp, w, ks, hl, hn, rfl⟩ := h.known hr
  exact C43_collected_partial hr hl hn (Or.inl ⟨rfl, rfl⟩) (hp.ready hr).noRecords hg m m'

/-- C79: what a session had in its tree version list when it saved is what is read after garbage collection. -/
theorem C79_saved_partial (hr : r ≠ []) {L : Log} (h : Tended C r L) {fs : List Fault} {g : ObjId} {w0 w w' : World} {s : RefState}
    (hb : Begins C r ⟨L, fs⟩ g t u w0) (ho : Orderly C g t u w0 w) (ht : Tends C r t u w w' s) {L' : Log}
    (hg : Collected C r s.repo.log L') (m : Heap) :
    SameContent C w.repo.log w.heap (.mem t) L' m (.sto r tvlLink) ∧ Full C L' m (.sto r tvlLink) := by
  obtain ⟨hp, wl, ks, hl, hn, rfl⟩ := h.known hr
  have hU := hp.ready hr
  obtain ⟨_, _, hs, ha⟩ := ht.done hr hU hb ho (.next wl _ ks hl hn rfl rfl rfl (fun _ => rfl))
  obtain ⟨v, b, l⟩ := (Begins.opens (s := ⟨_, fs⟩) hU hb).session hr hU.trim hU.trees ho
  have sh := (b.saved hr hs ha).1
  have hc := C79_collected_partial hr (.session _ fs g t u w0 w w' s h hb ho ht) hg m m
  exact ⟨(b.look b.gt).trans ((sh.same m).trans hc.symm), Full.of_same hc.symm (sh.full m)⟩

/-! ### A non-trivial case -/

/-- The first session, which makes a record and adds metadata to the dataset and to a file, flushes the object references. -/
def tendFirst : Except PyErr Unit × RefState := flushAfter wholeSecond sampleRealm

/-- A second session opens the repository (objects 0 and 1), -/
def tendOpen : Except PyErr (Option (ObjId × ObjId)) × World :=
  topLevel sampleCfg sampleRealm (start ⟨tendFirst.2.repo.log, []⟩)

/-- asks for the record of the dataset, adds a run to its dataset-level metadata (6), -/
def tendAsked : World := (rootRecord sampleCfg none c!"0.2" 0 1 sampleUuid c!"v1" ⟨[], []⟩ [] none none tendOpen.2).2

def tendRan : World := (addExtractorRun sampleCfg 6 c!"second" sampleRun tendAsked).2

/-- saves, -/
def tendTree : Except PyErr Ref × World := writeOut sampleCfg 20 (some sampleRealm) false 0 tendRan

def tendSet : Except PyErr Ref × World := writeOut sampleCfg 20 (some sampleRealm) false 1 tendTree.2

/-- and flushes the object references. -/
def tendSecond : Except PyErr Unit × RefState := flushAfter tendSet sampleRealm

theorem tendFacts : distinctHashes sampleCfg tendFirst.2.repo.log = true ∧ rOk tendFirst = some () ∧ wholeSecond.2.repo.faults = [] ∧
    distinctHashes sampleCfg tendSecond.2.repo.log = true ∧ rOk tendSecond = some () ∧ tendSet.2.repo.faults = [] ∧
    isOk tendTree = true ∧ isOk tendSet = true := by
  decide +kernel

theorem wholeBegins : Begins sampleCfg sampleRealm ⟨[], []⟩ 2 2 3 wholeOpen := by
  have h : topLevel sampleCfg sampleRealm (start ⟨[], []⟩) =
      (.ok none, (topLevel sampleCfg sampleRealm (start ⟨[], []⟩)).2) := of_okVal (by decide +kernel)
  have hn : (topLevel sampleCfg sampleRealm (start ⟨[], []⟩)).2.next = 2 := by decide +kernel
  have := Begins.made (C := sampleCfg) (r := sampleRealm) (s := ⟨[], []⟩) _ h
  rw [hn] at this
  exact this

theorem storeReadable_quiet {r : Realm} {s : Repo} {refs : List (Bool × Str)} (h : s.faults = []) : StoreReadable r ⟨s, refs, []⟩ := by
  intro k hk
  simp only [h] at hk
  revert hk
  simp

theorem tended_first : Tended sampleCfg sampleRealm tendFirst.2.repo.log := by
  obtain ⟨h1, h2, h3, _⟩ := tendFacts
  have hb := wholeBegins
  have ho := wholeOrderly
  have e1 : writeOut sampleCfg 20 (some sampleRealm) false 2 wholeFiled = (.ok (okRef wholeFirst), wholeFirst.2) :=
    of_isOk (x := wholeFirst) (by decide +kernel)
  have e2 : writeOut sampleCfg 20 (some sampleRealm) false 3 wholeFirst.2 = (.ok (okRef wholeSecond), wholeSecond.2) :=
    of_isOk (x := wholeSecond) (by decide +kernel)
  have hf : flush sampleCfg sampleRealm ⟨wholeSecond.2.repo, wholeSecond.2.refs, []⟩ = (.ok (), tendFirst.2) := of_rOk h2
  have ht : Tends sampleCfg sampleRealm 2 3 wholeFiled wholeSecond.2 tendFirst.2 :=
    ⟨⟨_, _, _, _, _, _, _, e1, e2⟩, ⟨[], hf, storeReadable_quiet h3⟩, collisionFree_of_check h1⟩
  generalize tendFirst.2 = s at ht ⊢
  generalize wholeSecond.2 = w' at ht
  generalize wholeFiled = w at ht ho
  generalize wholeOpen = w0 at ho hb
  exact .session [] [] 2 2 3 w0 w w' s .blank hb ho ht

theorem tendBegins : Begins sampleCfg sampleRealm ⟨tendFirst.2.repo.log, []⟩ 0 0 1 tendOpen.2 :=
  .found 0 1 _ (of_okVal (x := tendOpen) (by decide +kernel))

theorem tendOrderly : Orderly sampleCfg 0 0 1 tendOpen.2 tendRan := by
  refine Orderly.ran _ 6 _ _ ?_ (Nat.zero_le _) (by decide +kernel) wf_sampleRun
  exact Orderly.asked _ _ _ _ _ _ _ _ _ .refl ⟨rfl, fun c hc => by cases hc⟩ (fun n hn => by cases hn) (by simp)
    (fun q => absurd rfl q) (Or.inl (by decide +kernel))

theorem tendTends : Tends sampleCfg sampleRealm 0 1 tendRan tendSet.2 tendSecond.2 := by
  obtain ⟨_, _, _, h4, h5, h6, h7, h8⟩ := tendFacts
  have e1 : writeOut sampleCfg 20 (some sampleRealm) false 0 tendRan = (.ok (okRef tendTree), tendTree.2) := of_isOk (x := tendTree) h7
  have e2 : writeOut sampleCfg 20 (some sampleRealm) false 1 tendTree.2 = (.ok (okRef tendSet), tendSet.2) := of_isOk (x := tendSet) h8
  have hf : flush sampleCfg sampleRealm ⟨tendSet.2.repo, tendSet.2.refs, []⟩ = (.ok (), tendSecond.2) := of_rOk h5
  exact ⟨⟨_, _, _, _, _, _, _, e1, e2⟩, ⟨[], hf, storeReadable_quiet h6⟩, collisionFree_of_check h4⟩

/-- The second session has two runs in the metadata of the dataset; and whatever garbage collection removes, they are read afterwards. -/
example {L' : Log} (hg : Collected sampleCfg sampleRealm tendSecond.2.repo.log L') (m : Heap) :
    (look sampleCfg L' m [.ver c!"v1" ⟨[], []⟩, .name rootRecordName, .dlm] [] (.sto sampleRealm tvlLink)).extractors = 2 := by
  have hx : (look sampleCfg tendRan.repo.log tendRan.heap [.ver c!"v1" ⟨[], []⟩, .name rootRecordName, .dlm] [] (.mem 0)).extractors = 2 := by
    decide +kernel
  have h := tended_first
  have hb := tendBegins
  have ho := tendOrderly
  have ht := tendTends
  generalize tendSecond.2 = s at *
  generalize tendSet.2 = w' at *
  generalize tendRan = w at *
  generalize tendOpen.2 = w0 at *
  generalize tendFirst.2.repo.log = L at *
  rw [← (C79_saved_partial (by decide) h hb ho ht hg m).1]
  exact hx

/-! ### The UUID set -/

/-- Garbage collection removes an object that git does not reach. -/
theorem collected_drop {L : Log} {o : GitObj} (h : ¬ Reachable C L r (C.hash o)) :
    Collected C r L (L.filter fun op => decide (op ≠ .save r o)) := by
  refine ⟨fun n => ?_, fun o' ho => (List.mem_filter.mp ho).1, fun o' ho hr => List.mem_filter.mpr ⟨ho, ?_⟩⟩
  · clear h
    induction L with
    | nil => rfl
    | cons op L ih =>
      cases op with
      | save r' o' =>
        rw [List.filter_cons]
        split
        · exact ih
        · exact ih
      | setRef r' n' x =>
        rw [List.filter_cons, if_pos (by simp)]
        simp only [refOf, ih]
      | delRef r' n' =>
        rw [List.filter_cons, if_pos (by simp)]
        simp only [refOf, ih]
  · simp only [ne_eq, GitOp.save.injEq, true_and, decide_not, Bool.not_eq_eq_eq_not, Bool.not_true, decide_eq_false_iff_not]
    rintro rfl
    exact h hr

/-- The second session gets the record of the dataset from the UUID set (`get_version_list`, `get_versioned_element`:
objects 3 and 4), and adds a run to its dataset-level metadata (5). -/
def lostRan : World :=
  (addExtractorRun sampleCfg 5 c!"second" sampleRun
    (getVersioned sampleCfg 3 c!"v1" ⟨[], []⟩ (getVersionList sampleCfg 1 sampleUuid tendOpen.2).2).2).2

/-- It saves, and flushes the object references. -/
def lostTree : Except PyErr Ref × World := writeOut sampleCfg 20 (some sampleRealm) false 0 lostRan

def lostSet : Except PyErr Ref × World := writeOut sampleCfg 20 (some sampleRealm) false 1 lostTree.2

def lostFlush : Except PyErr Unit × RefState := flushAfter lostSet sampleRealm

/-- The record, as it is stored -/
def lostRecord : GitObj :=
  (((needsList sampleCfg lostFlush.2.repo.log sampleRealm 9 uuidSetLink)[2]?).bind
    (findObj sampleCfg lostFlush.2.repo.log sampleRealm)).getD (.blob [])

theorem lostFacts : distinctHashes sampleCfg lostFlush.2.repo.log = true ∧ rOk lostFlush = some () ∧ lostSet.2.repo.faults = [] ∧
    isOk lostTree = true ∧ isOk lostSet = true := by
  decide +kernel

theorem lostReach : closedCheck sampleCfg lostFlush.2.repo.log sampleRealm (treesAndNames lostFlush.2.repo.log sampleRealm) = true ∧
    sampleCfg.hash lostRecord ∉ treesAndNames lostFlush.2.repo.log sampleRealm := by
  decide +kernel

theorem lostLook :
    (look sampleCfg lostFlush.2.repo.log lostRan.heap [.uuid sampleUuid, .ver c!"v1" ⟨[], []⟩, .dlm] [] (.sto sampleRealm uuidSetLink)).extractors = 2 ∧
    (look sampleCfg (lostFlush.2.repo.log.filter fun op => decide (op ≠ .save sampleRealm lostRecord)) lostRan.heap
      [.uuid sampleUuid, .ver c!"v1" ⟨[], []⟩, .dlm] [] (.sto sampleRealm uuidSetLink)).isMissing = true := by
  decide +kernel

theorem lostOrderly : Orderly sampleCfg 0 0 1 tendOpen.2 lostRan :=
  .ran _ 5 _ _ (.element _ 3 _ _ (.listed _ 1 _ .refl (Nat.zero_le _) (by decide +kernel)) (Nat.zero_le _) (by decide +kernel))
    (Nat.zero_le _) (by decide +kernel) wf_sampleRun

theorem tended_lost : Tended sampleCfg sampleRealm lostFlush.2.repo.log := by
  obtain ⟨h4, h5, h6, h7, h8⟩ := lostFacts
  have e1 : writeOut sampleCfg 20 (some sampleRealm) false 0 lostRan = (.ok (okRef lostTree), lostTree.2) := of_isOk (x := lostTree) h7
  have e2 : writeOut sampleCfg 20 (some sampleRealm) false 1 lostTree.2 = (.ok (okRef lostSet), lostSet.2) := of_isOk (x := lostSet) h8
  have hf : flush sampleCfg sampleRealm ⟨lostSet.2.repo, lostSet.2.refs, []⟩ = (.ok (), lostFlush.2) := of_rOk h5
  have ht : Tends sampleCfg sampleRealm 0 1 lostRan lostSet.2 lostFlush.2 :=
    ⟨⟨_, _, _, _, _, _, _, e1, e2⟩, ⟨[], hf, storeReadable_quiet h6⟩, collisionFree_of_check h4⟩
  have h := tended_first
  have hb := tendBegins
  have ho := lostOrderly
  generalize lostFlush.2 = s at ht ⊢
  generalize lostSet.2 = w' at ht
  generalize lostRan = w at ht ho
  generalize tendOpen.2 = w0 at hb ho
  generalize tendFirst.2.repo.log = L at h hb
  exact .session L [] 0 0 1 w0 w w' s h hb ho ht

theorem Res.of_isMissing {x : Res} (h : x.isMissing = true) : x = .missing := by cases x <;> first | rfl | cases h

/-- C79 is false for what a session changes in records that it gets from the UUID set: the session saves and
flushes the object references, the metadata is read from the UUID set, and garbage collection removes it. -/
theorem C79_false : ∃ (C : Cfg) (r : Realm) (L L' : Log) (m : Heap) (ks : List Key), r ≠ [] ∧ Tended C r L ∧ Collected C r L L' ∧
    (∃ s d b, look C L m ks [] (.sto r uuidSetLink) = .found s d b) ∧ look C L' m ks [] (.sto r uuidSetLink) = .missing := by
  obtain ⟨h1, h2⟩ := lostLook
  obtain ⟨h3, h4⟩ := lostReach
  refine ⟨sampleCfg, sampleRealm, lostFlush.2.repo.log, _, lostRan.heap, _, by decide, tended_lost,
    collected_drop fun hr => h4 (reachable_closed h3 hr), ?_, Res.of_isMissing h2⟩
  revert h1
  generalize look sampleCfg lostFlush.2.repo.log lostRan.heap [.uuid sampleUuid, .ver c!"v1" ⟨[], []⟩, .dlm] [] (.sto sampleRealm uuidSetLink) = x
  intro h1
  cases x with
  | found s d b => exact ⟨s, d, b, rfl⟩
  | missing => exact absurd h1 (by decide)
  | absent => exact absurd h1 (by decide)

end MM
