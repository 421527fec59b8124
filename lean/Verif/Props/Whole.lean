/-
C64: a whole session, from opening a repository to saving, and the sessions that follow it.
-/
import Verif.Meanwhile

namespace MM

variable {C : Cfg} {r : Realm}

/-- The process saves its tree version list and then its UUID set, and both calls succeed
(`write_out`, mappableobject.py 150-229).  Others may store objects between the two calls. -/
def SavesBoth (C : Cfg) (r : Realm) (t u : ObjId) (w w' : World) : Prop :=
  ∃ n n' force force' ref ref' w1 L fs, writeOut C n (some r) force t w = (.ok ref, w1) ∧
    Grows w1.repo.log L ∧ (∀ nm, refOf L r nm = refOf w1.repo.log r nm) ∧
    writeOut C n' (some r) force' u (outside L fs w1) = (.ok ref', w')

theorem SavesBoth.direct {t u : ObjId} {w w1 w' : World} {n n' : Nat} {force force' : Bool} {ref ref' : Ref}
    (h1 : writeOut C n (some r) force t w = (.ok ref, w1)) (h2 : writeOut C n' (some r) force' u w1 = (.ok ref', w')) :
    SavesBoth C r t u w w' :=
  ⟨n, n', force, force', ref, ref', w1, w1.repo.log, w1.repo.faults, h1, Grows.refl _, fun _ => rfl, h2⟩

/-- The repository has grown, and the names of the top-level objects in `r` are what they were.  Other
names may have been set, for instance by `flush_object_references`. -/
structure After (C : Cfg) (r : Realm) (L L' : Log) : Prop where
  grows : Grows L L'
  names : ∀ nm, nm = tvlRefName ∨ nm = uuidSetRefName → refOf L' r nm = refOf L r nm
  unique : CollisionFree C L'

theorem Bench.saved (hr : r ≠ []) {g t u : ObjId} {w w' v : World} (b : Bench C r g t u w v) (h : SavesBoth C r t u w w')
    {L : Log} (ha : After C r w'.repo.log L) : Shows C r v t L tvlLink ∧ Shows C r v u L uuidSetLink := by
  obtain ⟨n, n', force, force', ref, ref', w1, L1, fs, h1, hg1, hn1, h2⟩ := h
  obtain ⟨e1, s1, _⟩ := twin_writeOut (C := C) n (dest := some r) (force := force) b.gt w v b.side
  rw [h1] at e1 s1
  cases hv1 : writeOut C n (some r) force t v with
  | mk res1 v1 =>
    rw [hv1] at e1 s1
    simp only at e1 s1
    subst e1
    obtain ⟨e2, s2, _⟩ := twin_writeOut (C := C) n' (dest := some r) (force := force') b.gu (outside L1 fs w1) (outside L1 fs v1)
      ⟨s1.heap, s1.next, rfl, s1.caches, s1.refs, s1.subs, s1.fresh⟩
    rw [h2] at e2 s2
    cases hv2 : writeOut C n' (some r) force' u (outside L1 fs v1) with
    | mk res2 v2 =>
      rw [hv2] at e2 s2
      simp only at e2 s2
      subst e2
      refine b.desk.saved hr hv1 (by rw [s1.repo]; exact hg1) (by rw [s1.repo]; exact hn1) hv2 (L := L) ?_ ha.unique ?_
      · rw [s2.repo]; exact ha.grows
      · rw [s2.repo]; exact ha.names

theorem Side.looks {g i : ObjId} {w v : World} (h : Side (fun j => g ≤ j) w v) (hi : g ≤ i) (L : Log) :
    SameContent C L w.heap (.mem i) L v.heap (.mem i) := by
  refine look_kept fun j hj => h.heap j ?_
  induction hj with
  | refl => exact hi
  | step i k c hm hk _ ih => exact ih (h.subs i hi hm k hk)

theorem Bench.look {g t u : ObjId} {w v : World} (b : Bench C r g t u w v) {i : ObjId} (hi : g ≤ i) :
    SameContent C w.repo.log w.heap (.mem i) v.repo.log v.heap (.mem i) := by
  rw [b.side.repo]
  exact b.side.looks hi _

/-- Where the record of a call is, and what the top-level objects show there -/
theorem Done.there {t u : ObjId} {v : World} (hs : Sound C v) (tk : (v.heap t).kind = .tvl) {ds : Uuid} {dv : Str} {pre : PPath}
    {path : List Str} {root : Option Uuid} {rv : Option Str} {m : ObjId} (hd : Done v t u ds dv pre path root rv m)
    {id : Uuid} {vv : Str} (hroot : path ≠ [] → root = some id ∧ rv = some vv) :
    ∃ tv, tv = (if path = [] then dv else vv) ∧
      (∃ s d b, MM.look C v.repo.log v.heap [.ver tv pre] [] (.mem t) = .found s d b ∧ d.kind = .mtree .mrr) ∧
      (∀ q, q = path ∨ q = [] → ∃ s d b,
        MM.look C v.repo.log v.heap (.ver tv pre :: names (q ++ [rootRecordName])) [] (.mem t) = .found s d b ∧
          d.kind = .mrr) ∧
      MM.look C v.repo.log v.heap [.uuid ds] [] (.mem u) ≠ .absent ∧
      (path ≠ [] → MM.look C v.repo.log v.heap [.uuid id] [] (.mem u) ≠ .absent) ∧
      ∀ ks, MM.look C v.repo.log v.heap (.ver tv pre :: (names (path ++ [rootRecordName]) ++ ks)) [] (.mem t) =
        MM.look C v.repo.log v.heap ks [] (.mem m) := by
  obtain ⟨tv, dt, e, hva, hen, hsub0⟩ := hd
  have hdk := hva.treeKind hs tk hen.record.tree
  have htv : tv = if path = [] then dv else vv := by
    unfold treeVersion at e
    by_cases hpe : path = []
    · rw [if_pos hpe] at e ⊢; cases e; rfl
    · rw [if_neg hpe] at e ⊢
      rw [(hroot hpe).2] at e; cases e; rfl
  have hrecs : ∀ {q m}, RecordAt v dt q m → ∃ s d b,
      MM.look C v.repo.log v.heap (.ver tv pre :: names (q ++ [rootRecordName])) [] (.mem t) = .found s d b ∧
        d.kind = .mrr := by
    intro q m hra
    obtain ⟨n, ns, hns⟩ := names_ne q
    have := hra.look hs.fine []
    rw [List.append_nil] at this
    rw [hns, hva.look hs.fine, ← hns, this, look_nil _ (view_mapped hra.mapped)]
    exact ⟨_, _, _, rfl, hra.kind⟩
  have hdm : (v.heap dt).mapped = true := by
    have hl := hen.record.leads
    obtain ⟨n, ns, hns⟩ := names_ne path
    rw [hns] at hl
    cases hl with
    | cons _ _ hm _ _ => exact hm
  have htree : ∃ s d b, MM.look C v.repo.log v.heap [.ver tv pre] [] (.mem t) = .found s d b ∧ d.kind = .mtree .mrr := by
    obtain ⟨s, hs'⟩ := hva.part
    obtain ⟨d, bb, hl⟩ := look_here hs.fine dt s
    refine ⟨s, d, bb, by rw [look_part hva.mapped hs' (by simp)]; exact hl, ?_⟩
    rw [look_nil _ (view_mapped hdm)] at hl
    cases hl
    exact hdk
  have hrec : ∀ q, q = path ∨ q = [] → ∃ s d b,
      MM.look C v.repo.log v.heap (.ver tv pre :: names (q ++ [rootRecordName])) [] (.mem t) = .found s d b ∧
        d.kind = .mrr := by
    rintro q (rfl | rfl)
    · exact hrecs hen.record
    · by_cases hpe : path = []
      · subst hpe; exact hrecs hen.record
      · obtain ⟨_, _, _, h6⟩ := hsub0 hpe
        exact hrecs h6.record
  have hds : MM.look C v.repo.log v.heap [.uuid ds] [] (.mem u) ≠ .absent := by
    obtain ⟨vl, _, h1, _⟩ := hen.entry
    exact h1.here hs.fine
  have hid : path ≠ [] → MM.look C v.repo.log v.heap [.uuid id] [] (.mem u) ≠ .absent := by
    intro hpe
    obtain ⟨x, _, h5, h6⟩ := hsub0 hpe
    rw [(hroot hpe).1] at h5
    cases h5
    obtain ⟨vl, _, h1, _⟩ := h6.entry
    exact h1.here hs.fine
  refine ⟨tv, htv, htree, hrec, hds, hid, fun ks => ?_⟩
  obtain ⟨n, ns, hns⟩ := names_ne path
  rw [hns, List.cons_append, hva.look hs.fine, ← List.cons_append, ← hns]
  exact hen.record.look hs.fine ks

/-- `found_shown` for processes that may have worked before -/
theorem found_idle (hr : r ≠ []) {wt wu : World} {t u : ObjId} {s' : Repo} {i : World} (hi : Idle s' i)
    (st : Shows C r wt t s'.log tvlLink) (su : Shows C r wu u s'.log uuidSetLink) (hf : s'.faults = [])
    (auto : Option Bool) (now : Str) (id : Uuid) (v : Str) (pre : PPath) {path : List Str} (hp : ∀ n ∈ path, CompOk n)
    {sub : Option (Uuid × Str)} {ds : Uuid} {dv tv : Str}
    (hsub : sub = some (ds, dv) ∨ (sub = none ∧ path = [] ∧ ds = id ∧ dv = v)) (htv : tv = if path = [] then dv else v)
    (htree : ∃ s d b, look C wt.repo.log wt.heap [.ver tv pre] [] (.mem t) = .found s d b ∧ d.kind = .mtree .mrr)
    (hrec : ∀ q, q = path ∨ q = [] → ∃ s d b,
      look C wt.repo.log wt.heap (.ver tv pre :: names (q ++ [rootRecordName])) [] (.mem t) = .found s d b ∧ d.kind = .mrr)
    (hds : look C wu.repo.log wu.heap [.uuid ds] [] (.mem u) ≠ .absent)
    (hid : path ≠ [] → look C wu.repo.log wu.heap [.uuid id] [] (.mem u) ≠ .absent) :
    ∃ t' u' m w', topRecord C auto now r id v pre path sub i = (.ok (some (t', u'), some m), w') ∧
      ∀ ks, look C w'.repo.log w'.heap ks [] (.mem m) =
        look C wt.repo.log wt.heap (.ver tv pre :: (names (path ++ [rootRecordName]) ++ ks)) [] (.mem t) := by
  have hrep : i.cleared.repo = s' := hi.repo
  obtain ⟨t', u', m', v', h1, h2⟩ := found_shown hr (w := i.cleared) (by rw [hrep]; exact st) (by rw [hrep]; exact su)
    (hi.vacant.intact (r := r)).2.2 (by rw [hrep]; exact hf) auto now id v pre hp
    (ds := ds) (dv := dv) hsub htv htree hrec hds hid
  obtain ⟨e, sd, _, hin⟩ := twin_topRecord (C := C) (r := r) (A := fun j => i.next ≤ j) auto now id v pre path sub i i.cleared hi.side
  rw [h1] at e sd
  cases hx : topRecord C auto now r id v pre path sub i with
  | mk res w' =>
    rw [hx] at e sd hin
    simp only at e sd hin
    subst e
    refine ⟨t', u', m', w', rfl, fun ks => ?_⟩
    rw [sd.looks (hin _ rfl m' rfl), ← sd.repo]
    exact h2 ks

/-- What a successful request has passed is there for the requests of later processes. -/
theorem Done.found (hr : r ≠ []) {g t u : ObjId} {w v : World} (b : Bench C r g t u w v) {ds : Uuid} {dv : Str} {pre : PPath}
    {path : List Str} {root : Option Uuid} {rv : Option Str} {m : ObjId} (hd : Done v t u ds dv pre path root rv m)
    (hp : ∀ n ∈ path, CompOk n) {s' : Repo} {i : World} (hi : Idle s' i) (hf : s'.faults = []) (st : Shows C r v t s'.log tvlLink)
    (su : Shows C r v u s'.log uuidSetLink) (auto : Option Bool) (now : Str) {id : Uuid} {vv : Str}
    {sub : Option (Uuid × Str)} (hsub : sub = some (ds, dv) ∨ (sub = none ∧ path = [] ∧ ds = id ∧ dv = vv))
    (hroot : path ≠ [] → root = some id ∧ rv = some vv) :
    ∃ t' u' m' w', topRecord C auto now r id vv pre path sub i = (.ok (some (t', u'), some m'), w') ∧
      ∀ ks, MM.look C w'.repo.log w'.heap ks [] (.mem m') = MM.look C v.repo.log v.heap ks [] (.mem m) := by
  obtain ⟨tv, htv, htree, hrec, hds, hid, hl⟩ := Done.there b.desk.sound b.desk.tk hd hroot
  obtain ⟨t', u', m', w', h1, h2⟩ := found_idle hr hi st su hf auto now id vv pre hp hsub htv htree hrec hds hid
  exact ⟨t', u', m', w', h1, fun ks => (h2 ks).trans (hl ks)⟩

/-- C64: a process opens a repository, which has both top-level objects or none, works, asks for the
record of dataset `ds` in version `dv` and gets `m`, works on, and saves.  When a process asks for
this record later, it gets a record that has, in all its parts, the content `m` had when it was saved:
its identifier and version, its dataset-level metadata, and its file-level metadata. -/
theorem C64_saved (hr : r ≠ []) {s : Repo} {g t u : ObjId} {w0 w1 w2 w w' : World} (ho : Opens C r s g t u w0)
    (h1 : Meanwhile C r g t u w0 w1) {auto : Option Bool} {now : Str} {ds : Uuid} {dv : Str} {pre : PPath} {path : List Str}
    {root : Option Uuid} {rv : Option Str} {m : ObjId} (hc : Canonical pre) (hp : ∀ n ∈ path, CompOk n ∧ NameOk n)
    (hask : rootRecord C auto now t u ds dv pre path root rv w1 = (.ok (some m), w2))
    (h2 : Meanwhile C r g t u w2 w) (hsave : SavesBoth C r t u w w')
    {s' : Repo} (ha : After C r w'.repo.log s'.log) (hf : s'.faults = []) {i : World} (hi : Idle s' i)
    (auto' : Option Bool) (now' : Str) {id : Uuid} {v : Str} {sub : Option (Uuid × Str)}
    (hsub : sub = some (ds, dv) ∨ (sub = none ∧ path = [] ∧ ds = id ∧ dv = v))
    (hroot : path ≠ [] → root = some id ∧ rv = some v) :
    ∃ t' u' m' w3, topRecord C auto' now' r id v pre path sub i = (.ok (some (t', u'), some m'), w3) ∧
      ∀ ks, look C w3.repo.log w3.heap ks [] (.mem m') = look C w.repo.log w.heap ks [] (.mem m) := by
  obtain ⟨v0, b0⟩ := ho.bench hr
  obtain ⟨v1, b1, _⟩ := b0.meanwhile hr h1
  obtain ⟨e, _, _, hm⟩ := twin_rootRecord (C := C) b1.gt b1.gu auto now ds dv pre path root rv w1 v1 b1.side
  rw [hask] at e hm
  cases hx : rootRecord C auto now t u ds dv pre path root rv v1 with
  | mk res v2 =>
    rw [hx] at e
    simp only at e
    subst e
    have d2 := b1.desk.rootRecord hr auto now ds dv hc hp root rv hx
    have run := rootRecord_run b1.desk.sound auto now b1.desk.tl b1.desk.tk b1.desk.ul b1.desk.uk ds dv pre
      (fun n hn => (hp n hn).1) root rv hx
    have b2 := b1.step (twin_rootRecord b1.gt b1.gu auto now ds dv pre path root rv) (by rw [hx]; exact d2)
    rw [hask, hx] at b2
    obtain ⟨v', b, st, _⟩ := b2.meanwhile hr h2
    have hd := (run.done m rfl).stays d2.sound.fine st
    obtain ⟨s1, s2⟩ := b.saved hr hsave ha
    obtain ⟨t', u', m', w3, g1, g2⟩ := Done.found hr b hd (fun n hn => (hp n hn).1) hi hf s1 s2 auto' now' hsub hroot
    exact ⟨t', u', m', w3, g1, fun ks => (g2 ks).trans (b.look (hm (some m) rfl m rfl) ks []).symm⟩

/-- C64: after a session the repository has both top-level objects, and they can be read and
stored again in full: the next session can open it. -/
theorem C64_stocked (hr : r ≠ []) {s : Repo} {g t u : ObjId} {w0 w w' : World} (ho : Opens C r s g t u w0)
    (h1 : Meanwhile C r g t u w0 w) (hsave : SavesBoth C r t u w w') {L : Log} (ha : After C r w'.repo.log L) :
    Stocked C r L := by
  obtain ⟨v0, b0⟩ := ho.bench hr
  obtain ⟨v, b, _⟩ := b0.meanwhile hr h1
  obtain ⟨s1, s2⟩ := b.saved hr hsave ha
  intro l nm hl h
  rcases hl with ⟨rfl, rfl⟩ | ⟨rfl, rfl⟩
  · exact ⟨s1.full h, (b.desk.all_proper t b.desk.tl).of_same (s1.same h)⟩
  · exact ⟨s2.full h, (b.desk.all_proper u b.desk.ul).of_same (s2.same h)⟩

/-- C64: with `get_version_list` and `get_versioned_element` a later process gets every element of every
version list that the UUID set had when it was saved, with its time stamp and content. -/
theorem C64_listed (hr : r ≠ []) {s : Repo} {g t u : ObjId} {w0 w w' : World} (ho : Opens C r s g t u w0)
    (h1 : Meanwhile C r g t u w0 w) (hsave : SavesBoth C r t u w w') {s' : Repo} (ha : After C r w'.repo.log s'.log)
    (hf : s'.faults = []) {i : World} (hi : Idle s' i) {ds : Uuid} {v : Str} {p : PPath}
    (hel : look C w.repo.log w.heap [.uuid ds, .ver v p] [] (.mem u) ≠ .absent) :
    ∃ t' u' w1 x w2 s m w3, topLevel C r i = (.ok (some (t', u')), w1) ∧
      getVersionList C u' ds w1 = (.ok x, w2) ∧ getVersioned C x v p w2 = (.ok (s, p, m), w3) ∧
      ∀ ks, look C w3.repo.log w3.heap ks s (.mem m) = look C w.repo.log w.heap (.uuid ds :: .ver v p :: ks) [] (.mem u) := by
  obtain ⟨v0, b0⟩ := ho.bench hr
  obtain ⟨v', b, _⟩ := b0.meanwhile hr h1
  obtain ⟨s1, s2⟩ := b.saved hr hsave ha
  rw [b.look b.gu] at hel
  have hrep : i.cleared.repo = s' := hi.repo
  obtain ⟨t', u', v1, x, v2, st, m, v3, g1, g2, g3, g4⟩ := listed_shown (w := i.cleared) hr (by rw [hrep]; exact s1)
    (by rw [hrep]; exact s2) (hi.vacant.intact (r := r)).2.2 (by rw [hrep]; exact hf) hel
  obtain ⟨e1, d1, _, i1⟩ := twin_topLevel (C := C) (r := r) (fun j => i.next ≤ j) i i.cleared hi.side
  rw [g1] at e1 d1
  cases x1 : topLevel C r i with
  | mk r1 w1 =>
    rw [x1] at e1 d1 i1
    simp only at e1 d1 i1
    subst e1
    obtain ⟨e2, d2, _, i2⟩ := twin_getVersionList (C := C) (i1 _ rfl _ rfl).2 ds w1 v1 d1
    rw [g2] at e2 d2
    cases x2 : getVersionList C u' ds w1 with
    | mk r2 w2 =>
      rw [x2] at e2 d2 i2
      simp only at e2 d2 i2
      subst e2
      obtain ⟨e3, d3, _, i3⟩ := twin_getVersioned (C := C) (i2 _ rfl) v p w2 v2 d2
      rw [g3] at e3 d3
      cases x3 : getVersioned C x v p w2 with
      | mk r3 w3 =>
        rw [x3] at e3 d3 i3
        simp only at e3 d3 i3
        subst e3
        refine ⟨t', u', w1, x, w2, st, m, w3, rfl, x2, x3, fun ks => ?_⟩
        rw [d3.looks (i3 _ rfl), ← d3.repo]
        exact (g4 ks).trans (b.look b.gu _ _).symm

/-! ### A non-trivial case -/

/-- A process opens an empty repository; the failed attempts to read leave two objects. -/
def wholeOpen : World :=
  create (Obj.new (Body.empty .uuidset)) (create (Obj.new (Body.empty .tvl)) (topLevel sampleCfg sampleRealm (start ⟨[], []⟩)).2)

/-- It asks for the record of a dataset, which is created (8, with metadata 6 and file tree 7). -/
def wholeAsked : Except PyErr (Option ObjId) × World :=
  rootRecord sampleCfg (some true) c!"0.1" 2 3 sampleUuid c!"v1" ⟨[], []⟩ [] none none wholeOpen

/-- It adds a run to the dataset-level metadata, and a run to new metadata (9), which it puts into the file tree. -/
def wholeRan : World := (addExtractorRun sampleCfg 6 c!"core" sampleRun wholeAsked.2).2

def wholeNew : World := (addExtractorRun sampleCfg 9 c!"file" sampleRun (create (Obj.new (Body.empty .metadata)) wholeRan)).2

def wholeFiled : World := (addChildAt sampleCfg 9 [c!"d", c!"f"] 7 wholeNew).2

/-- It saves. -/
def wholeFirst : Except PyErr Ref × World := writeOut sampleCfg 20 (some sampleRealm) false 2 wholeFiled

def wholeSecond : Except PyErr Ref × World := writeOut sampleCfg 20 (some sampleRealm) false 3 wholeFirst.2

theorem wholeOpens : Opens sampleCfg sampleRealm ⟨[], []⟩ 2 2 3 wholeOpen := by
  have h : topLevel sampleCfg sampleRealm (start ⟨[], []⟩) =
      (.ok none, (topLevel sampleCfg sampleRealm (start ⟨[], []⟩)).2) := of_okVal (by decide +kernel)
  have hn : (topLevel sampleCfg sampleRealm (start ⟨[], []⟩)).2.next = 2 := by decide +kernel
  have := Opens.made (C := sampleCfg) (r := sampleRealm) (s := ⟨[], []⟩) _ _ (idle_start _) h
  rw [hn] at this
  exact this

theorem wf_sampleRun : sampleRun.WF := by
  simp [Instance.WF, sampleRun, Config.WF, Json.WF, Json.WFObj, dkeys]

theorem wholeBusy : Busy sampleCfg 2 2 3 wholeAsked.2 wholeFiled := by
  have hf : ∀ (q : ObjId), 2 ≤ q → q < wholeNew.next → ¬ Has wholeNew.heap q 9 := by
    have hn : wholeNew.next = 10 := by decide +kernel
    rw [hn]
    have : ∀ q, q < 10 → 2 ≤ q → 9 ∉ (wholeNew.heap q).body.subs := by decide +kernel
    exact fun q h1 h2 h => this q h2 h1 h.2
  have hd : ∀ n ∈ [c!"d", c!"f"], CompOk n ∧ NameOk n := by
    intro n hn
    rcases List.mem_cons.mp hn with rfl | hn
    · exact ⟨by decide, by decide, by decide, by decide, by decide⟩
    · rcases List.mem_cons.mp hn with rfl | hn
      · exact ⟨by decide, by decide, by decide, by decide, by decide⟩
      · cases hn
  refine Busy.filed wholeNew .metadata 7 9 _ ?_ (by decide) (by decide +kernel) (by decide +kernel) (by decide)
    (by decide +kernel) (by decide +kernel) hf hd
  refine Busy.ran _ 9 _ _ (Busy.new _ _ ?_ rfl ?_) (by decide) (by decide +kernel) wf_sampleRun
  · exact Busy.ran _ 6 _ _ .refl (by decide) (by decide +kernel) wf_sampleRun
  · exact ⟨List.nodup_nil, fun p hp => by cases hp⟩

theorem wholeSaved : SavesBoth sampleCfg sampleRealm 2 3 wholeFiled wholeSecond.2 :=
  SavesBoth.direct (of_isOk (x := wholeFirst) (by decide +kernel)) (of_isOk (x := wholeSecond) (by decide +kernel))

/-- A later process gets the record with both runs. -/
example (auto : Option Bool) : ∃ t' u' m' w3,
    topRecord sampleCfg auto c!"0.2" sampleRealm sampleUuid c!"v1" ⟨[], []⟩ [] none (start ⟨wholeSecond.2.repo.log, []⟩) =
      (.ok (some (t', u'), some m'), w3) ∧
    (look sampleCfg w3.repo.log w3.heap [.dlm] [] (.mem m')).extractors = 1 ∧
    (look sampleCfg w3.repo.log w3.heap [.ft, .name c!"d", .name c!"f"] [] (.mem m')).extractors = 1 := by
  have hc : CollisionFree sampleCfg wholeSecond.2.repo.log := collisionFree_of_check (by decide +kernel)
  have ha : rootRecord sampleCfg (some true) c!"0.1" 2 3 sampleUuid c!"v1" ⟨[], []⟩ [] none none wholeOpen =
      (.ok (some 8), wholeAsked.2) := of_okVal (x := wholeAsked) (by decide +kernel)
  have l1 : (look sampleCfg wholeFiled.repo.log wholeFiled.heap [.dlm] [] (.mem 8)).extractors = 1 := by decide +kernel
  have l2 : (look sampleCfg wholeFiled.repo.log wholeFiled.heap [.ft, .name c!"d", .name c!"f"] [] (.mem 8)).extractors = 1 := by
    decide +kernel
  have hb := wholeBusy
  have ho := wholeOpens
  have hs := wholeSaved
  generalize wholeSecond.2 = ws at hc hs ⊢
  generalize wholeFiled = wf at hb hs l1 l2
  generalize wholeAsked.2 = wa at ha hb
  generalize wholeOpen = wo at ha ho
  obtain ⟨t', u', m', w3, h, hl⟩ := C64_saved (C := sampleCfg) (by decide) ho .refl (path := [])
    ⟨rfl, fun c hc => by cases hc⟩ (fun n hn => by cases hn) ha hb.meanwhile hs (s' := ⟨ws.repo.log, []⟩)
    ⟨Grows.refl _, fun _ _ => rfl, hc⟩ rfl (idle_start _) auto c!"0.2" (id := sampleUuid) (v := c!"v1") (sub := none)
    (Or.inr ⟨rfl, rfl, rfl, rfl⟩) (fun q => absurd rfl q)
  exact ⟨t', u', m', w3, h, by rw [hl]; exact l1, by rw [hl]; exact l2⟩

end MM
