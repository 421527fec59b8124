/-
C74: a call that fails does no lasting harm.  C75: a repository with metadata is not taken for an empty one.
-/
import Verif.Props.Together
import Verif.Props.Failures

namespace MM

variable {C : Cfg} {r : Realm} {t u : ObjId}

/-! ### C74 -/

/-- C74: whatever commands failed while a process opened a repository and worked with it, its next request is answered
when git works again, if no request failed halfway for a new version of a root dataset (`Mild`). -/
theorem C74_answered_partial (hr : r ≠ []) {L : Log} (hL : Past C r L) {fs : List Fault} {g : ObjId} {w0 w : World}
    (ho : Opens C r ⟨L, fs⟩ g t u w0) (h : Orderly C g t u w0 w) (auto : Option Bool) (now : Str) (id : Uuid) (v : Str)
    {pre : PPath} (hc : Canonical pre) {path : List Str} (hp : ∀ n ∈ path, CompOk n ∧ NameOk n) (hnm : rootRecordName ∉ path)
    {root : Option Uuid} {rv : Option Str} (hroot : path ≠ [] → root ≠ none ∧ rv ≠ none) :
    ∃ o w', rootRecord C auto now t u id v pre path root rv (outside w.repo.log [] w) = (.ok o, w') ∧
      (auto ≠ some false → ∃ m, o = some m) := by
  obtain ⟨v', b, l⟩ := ho.session hr (hL.ready hr).trim (hL.ready hr).trees h
  obtain ⟨b, l⟩ := b.refault l []
  obtain ⟨o, v2, hx, _, _, hsome⟩ := l.rootRecord hr rfl auto now id v hc hp hnm hroot
  obtain ⟨e, _, _⟩ := twin_rootRecord (C := C) b.gt b.gu auto now id v pre path root rv _ _ b.side
  rw [hx] at e
  cases hy : rootRecord C auto now t u id v pre path root rv (outside w.repo.log [] w) with
  | mk res w' =>
    rw [hy] at e
    simp only at e
    subst e
    refine ⟨o, w', rfl, fun ha => ?_⟩
    cases o with
    | some m => exact ⟨m, rfl⟩
    | none => exact absurd rfl (hsome (by simp [noCreate, ha]))

/-- C74: nor can it be stopped from saving, if its UUID set lists a dataset; and what it leaves is a repository in which
every later session succeeds (`C72_opens`, `C72_answered`, `C72_saves`). -/
theorem C74_saves_partial (hr : r ≠ []) (hrem : Ref.isRemote r = false) {L : Log} (hL : Past C r L) {fs : List Fault} {g : ObjId}
    {w0 w : World} (ho : Opens C r ⟨L, fs⟩ g t u w0) (h : Orderly C g t u w0 w)
    (hset : ∃ id, look C w.repo.log w.heap [.uuid id] [] (.mem u) ≠ .absent) :
    ∃ N, ∀ n n' force force', N ≤ n → N ≤ n' →
      CollisionFree C (writeOut C n (some r) force t (outside w.repo.log [] w)).2.eff →
      ∃ ref w1, writeOut C n (some r) force t (outside w.repo.log [] w) = (.ok ref, w1) ∧
        (CollisionFree C (writeOut C n' (some r) force' u w1).2.eff →
          ∃ ref' w2, writeOut C n' (some r) force' u w1 = (.ok ref', w2) ∧ Past C r w2.repo.log) := by
  obtain ⟨v, b, l⟩ := ho.session hr (hL.ready hr).trim (hL.ready hr).trees h
  obtain ⟨b, l⟩ := b.refault l []
  obtain ⟨N, hN⟩ := l.saves hr hrem rfl (hset.imp' Key.uuid fun id hid => by rw [← b.look b.gu]; exact hid)
  refine ⟨N, fun n n' force force' h1 h2 hc => ?_⟩
  have eff : ∀ {A : ObjId → Prop} {a b : World}, Side A a b → b.eff = a.eff := by
    intro A a b hs
    unfold World.eff
    rw [hs.repo, hs.caches]
  obtain ⟨e1, s1, _⟩ := twin_writeOut (C := C) n (dest := some r) (force := force) b.gt _ _ b.side
  obtain ⟨ref, v1, g1, g2⟩ := hN n n' force force' h1 h2 (by rw [eff s1]; exact hc)
  rw [g1] at e1 s1
  have hca : (outside w.repo.log [] w).caches = [] := by rw [← b.side.caches]; exact l.desk.intact.caches
  cases hw1 : writeOut C n (some r) force t (outside w.repo.log [] w) with
  | mk res1 w1 =>
    rw [hw1] at e1 s1
    simp only at e1 s1
    subst e1
    refine ⟨ref, w1, rfl, fun hc' => ?_⟩
    obtain ⟨e2, s2, _⟩ := twin_writeOut (C := C) n' (dest := some r) (force := force') b.gu w1 v1 s1
    obtain ⟨ref', v2, g3, _⟩ := g2 (by rw [eff s2]; exact hc')
    rw [g3] at e2 s2
    have hca1 : w1.caches = [] := caches_writeAs (via := .own) hw1 hca
    cases hw2 : writeOut C n' (some r) force' u w1 with
    | mk res2 w2 =>
      rw [hw2] at e2 s2 hc'
      simp only at e2 s2
      subst e2
      refine ⟨ref', w2, rfl, ?_⟩
      have hca2 : w2.caches = [] := caches_writeAs (via := .own) hw2 hca1
      rw [eff_log hca2] at hc'
      refine .second L w2.repo.log g t u w0 w w1 w2 n n' force force' fs [] w1.repo.faults ref (.ok ref') hL ho h
        hw1 hw2 hc' ?_ List.suffix_rfl
      obtain ⟨ops, ho, _⟩ := (writeOut_any (C := C) hr n' force' u w1).log
      rw [hw2] at ho
      exact ⟨ops, ho.symm⟩

/-! ### What goes wrong -/

/-- A session opens the repository of `wholeSecond` and asks for another version of the dataset; the git command fails
that loads the version list of the dataset. -/
def harmAsked : Except PyErr (Option ObjId) × World :=
  rootRecord sampleCfg none c!"0.2" 0 1 sampleUuid c!"v2" ⟨[], []⟩ [] none none
    (outside wholeSecond.2.repo.log [.fail 0] againOpen.2)

/-- It saves. -/
def harmFirst : Except PyErr Ref × World := writeOut sampleCfg 20 (some sampleRealm) false 0 harmAsked.2

def harmSecond : Except PyErr Ref × World := writeOut sampleCfg 20 (some sampleRealm) false 1 harmFirst.2

/-- The next session opens the repository and asks for yet another version. -/
def harmOpen : Except PyErr (Option (ObjId × ObjId)) × World :=
  topLevel sampleCfg sampleRealm (start ⟨harmSecond.2.repo.log, []⟩)

def harmAgain : Except PyErr (Option ObjId) × World :=
  rootRecord sampleCfg none c!"0.3" 0 1 sampleUuid c!"v3" ⟨[], []⟩ [] none none harmOpen.2

/-- C74 is false without `Mild`: after a request that failed, a session saves both objects with success; the next session
opens the repository and is answered, while git works, but can never save. -/
theorem C74_false :
    topLevel sampleCfg sampleRealm (start ⟨wholeSecond.2.repo.log, []⟩) = (.ok (some (0, 1)), againOpen.2) ∧
    (∃ w, harmAsked = (.error .runtime, w)) ∧ (∃ ref w, harmFirst = (.ok ref, w)) ∧
    (∃ ref w, harmSecond = (.ok ref, w)) ∧ (∃ w, harmOpen = (.ok (some (0, 1)), w)) ∧ (∃ m w, harmAgain = (.ok (some m), w)) ∧
    harmAgain.2.repo.faults = [] ∧
    ∀ n force ref w', writeOut sampleCfg n (some sampleRealm) force 0 harmAgain.2 ≠ (.ok ref, w') := by
  refine ⟨?_, ⟨_, of_errOf (by decide +kernel)⟩, ?_, ?_, ?_, ?_, by decide +kernel, fun n force ref w' => ?_⟩
  · exact of_okVal (by decide +kernel)
  · exact ⟨_, _, of_isOk (by decide +kernel)⟩
  · exact ⟨_, _, of_isOk (by decide +kernel)⟩
  · exact ⟨_, of_okVal (by decide +kernel)⟩
  · exact ⟨9, _, of_okVal (by decide +kernel)⟩
  · exact C52_fails (by decide) (.inl (by decide +kernel)) (by decide +kernel) (by decide +kernel)
      (k := .ver c!"v2" ⟨[], []⟩) (stamp := c!"0.2") (j := 3) (by decide +kernel) (by decide +kernel) (by decide +kernel)

/-! ### C75 -/

/-- C75 is false: whatever a repository holds, a process is told that it has no metadata if the first git command of the
process fails. -/
theorem C75_fails (hr : r ≠ []) (L : Log) (k : Nat) (fs : List Fault) :
    ∃ w, topLevel C r (start ⟨L, .fail k :: fs⟩) = (.ok none, w) := by
  unfold topLevel
  rw [M.bind_of_ok (alloc_run _ _), M.bind_of_ok (alloc_run _ _)]
  have hobj : (create (uuidSetLink.obj r) (create (tvlLink.obj r) (start ⟨L, .fail k :: fs⟩))).heap 0 = tvlLink.obj r := by
    rw [create_ne _ _ (show (0 : ObjId) ≠ 1 by decide)]
    exact create_self _ (start ⟨L, .fail k :: fs⟩)
  have hrep : (create (uuidSetLink.obj r) (create (tvlLink.obj r) (start ⟨L, .fail k :: fs⟩))).repo = ⟨L, .fail k :: fs⟩ := rfl
  change ∃ w, M.catchRuntime (do readIn C 0; readIn C 1; pure (some (0, 1))) _
    (create (uuidSetLink.obj r) (create (tvlLink.obj r) (start ⟨L, .fail k :: fs⟩))) = _
  generalize create (uuidSetLink.obj r) (create (tvlLink.obj r) (start ⟨L, .fail k :: fs⟩)) = w at hobj hrep ⊢
  have hg : ∃ w', liftG (decodeG C r .tvl tvlRefName) w = (.error .runtime, w') := by
    rw [decodeG_ne (by decide)]
    unfold liftG gitCmd
    rw [hrep]
    exact ⟨_, rfl⟩
  obtain ⟨w', hg⟩ := hg
  have hsv : r ∈ (tvlLink.obj r).savedOn := by
    show r ∈ (if tvlLink.ref.isNone || r.isEmpty then [] else [r])
    rw [show tvlLink.ref.isNone = false by decide]
    cases r with
    | nil => exact absurd rfl hr
    | cons a l => simp
  have hread : readIn C 0 w = (.error .runtime, w') := by
    unfold readIn
    rw [M.bind_of_ok (getObj_run 0 w), hobj, if_neg (show ¬ (tvlLink.obj r).mapped = true by simp [Link.obj])]
    show (if tvlLink.ref.isNone then _ else _ : W Unit) w = _
    rw [if_neg (show ¬ tvlLink.ref.isNone = true by decide), if_neg (fun h => h hsv),
      M.bind_of_ok (show (M.assert ((tvlLink.obj r).kind.accepts tvlLink.ref.cls) : W Unit) w = (.ok (), w) by
        rw [kind_linkObj]; rfl)]
    show (liftG (decodeG C r (tvlLink.obj r).kind tvlRefName) >>= _ : W Unit) w = _
    rw [kind_linkObj]
    exact M.bind_of_error hg
  refine ⟨w', ?_⟩
  unfold M.catchRuntime
  rw [M.bind_of_error hread]
  rfl

/-- C75 is false: the request for a root record then tells, without error, that there is none. -/
theorem C75_denied (hr : r ≠ []) (L : Log) (k : Nat) (fs : List Fault) {auto : Option Bool} (ha : auto ≠ some true) (now : Str)
    (id : Uuid) (v : Str) (pre : PPath) (path : List Str) (sub : Option (Uuid × Str)) :
    ∃ w, topRecord C auto now r id v pre path sub (start ⟨L, .fail k :: fs⟩) = (.ok (none, none), w) := by
  obtain ⟨w, hw⟩ := C75_fails (C := C) hr L k fs
  refine ⟨w, ?_⟩
  unfold topRecord
  rw [M.bind_of_ok hw]
  simp only [if_neg ha]
  rfl

/-- C75, what is lost: if such a process saves, every dataset that it did not list is gone from the repository, whatever was
stored there. -/
theorem C75_lost (hr : r ≠ []) {L : Log} {k : Nat} {fs : List Fault} {w0 : World}
    (ho : topLevel C r (start ⟨L, .fail k :: fs⟩) = (.ok none, w0)) {w w' : World}
    (h : Meanwhile C r w0.next w0.next (w0.next + 1)
      (create (Obj.new (Body.empty .uuidset)) (create (Obj.new (Body.empty .tvl)) w0)) w)
    (hsave : SavesBoth C r w0.next (w0.next + 1) w w') {L' : Log} (ha : After C r w'.repo.log L') {id : Uuid}
    (hid : look C w.repo.log w.heap [.uuid id] [] (.mem (w0.next + 1)) = .absent) (x : Heap) :
    look C L' x [.uuid id] [] (.sto r uuidSetLink) = .absent := by
  obtain ⟨v0, b0⟩ := (Opens.made _ w0 (idle_start _) ho).bench hr
  obtain ⟨v, b, _⟩ := b0.meanwhile hr h
  obtain ⟨_, s2⟩ := b.saved hr hsave ha
  rw [b.look b.gu] at hid
  rw [← hid]
  exact (s2.same x _ _).symm

/-- A process opens the repository of `wholeSecond` while git fails, and asks for another version of the dataset. -/
def lostAsked : Except PyErr (Option (ObjId × ObjId) × Option ObjId) × World :=
  topRecord sampleCfg (some true) c!"0.2" sampleRealm sampleUuid c!"v2" ⟨[], []⟩ [] none
    (start ⟨wholeSecond.2.repo.log, [.fail 0]⟩)

/-- It saves. -/
def lostFirst : Except PyErr Ref × World := writeOut sampleCfg 20 (some sampleRealm) false 2 lostAsked.2

def lostSecond : Except PyErr Ref × World := writeOut sampleCfg 20 (some sampleRealm) false 3 lostFirst.2

/-- C75 is false: after one failed git command, which no call reports, the metadata of another version is no longer
found; before, it was. -/
theorem C75_false : okVal lostAsked = some (some (2, 3), some 8) ∧ isOk lostFirst = true ∧ isOk lostSecond = true ∧
    okVal (topRecord sampleCfg (some false) c!"0.3" sampleRealm sampleUuid c!"v1" ⟨[], []⟩ [] none
      (start ⟨wholeSecond.2.repo.log, []⟩)) = some (some (0, 1), some 4) ∧
    okVal (topRecord sampleCfg (some false) c!"0.3" sampleRealm sampleUuid c!"v1" ⟨[], []⟩ [] none
      (start ⟨lostSecond.2.repo.log, []⟩)) = some (some (0, 1), none) := by
  decide +kernel

/-- C75: while git works, after every history of sessions, a process is told that there is no metadata if and only if no UUID
set was ever published. -/
theorem C75_partial (hr : r ≠ []) {L : Log} (hL : Past C r L) :
    (∃ w, topLevel C r (start ⟨L, []⟩) = (.ok none, w)) ↔ refOf L r uuidSetRefName = none := by
  constructor
  · rintro ⟨w, hw⟩
    rcases (hL.ready hr).open_ with ⟨h, _⟩ | hs
    · exact h
    · exfalso
      obtain ⟨w', h, _⟩ := topLevel_total (w := start ⟨L, []⟩) (start_sound _) rfl hr
        (hs _ _ (Or.inl ⟨rfl, rfl⟩) _).1 (hs _ _ (Or.inr ⟨rfl, rfl⟩) _).1
      rw [hw] at h
      cases h
  · intro hn
    rcases (hL.ready hr).open_.answer (s := ⟨L, []⟩) hr rfl (idle_start _) with ⟨_, h⟩ | ⟨_, w, h⟩
    · exact h
    · exact absurd hn (found_named h)

/-! ### A non-trivial case -/

theorem pastWhole : Past sampleCfg sampleRealm wholeSecond.2.repo.log := by
  have h1 : writeOut sampleCfg 20 (some sampleRealm) false 2 wholeFiled = wholeFirst := by unfold wholeFirst; rfl
  have h2 : writeOut sampleCfg 20 (some sampleRealm) false 3 wholeFirst.2 = wholeSecond := by unfold wholeSecond; rfl
  have h3 : wholeFirst = (.ok (okRef wholeFirst), wholeFirst.2) := of_isOk (by decide +kernel)
  have hc : CollisionFree sampleCfg wholeSecond.2.repo.log := collisionFree_of_check (by decide +kernel)
  have ho := wholeOpens
  have hb := wholeOrderly
  generalize wholeSecond = ws at h2 hc ⊢
  generalize hw1 : wholeFirst.2 = w1 at h2 h3
  generalize okRef wholeFirst = ref at h3
  rw [h3] at h1
  generalize wholeFiled = w at h1 hb
  generalize wholeOpen = w0 at ho hb
  have h1' : writeOut sampleCfg 20 (some sampleRealm) false 2 (outside w.repo.log w.repo.faults w) = (.ok ref, w1) := h1
  have h2' : writeOut sampleCfg 20 (some sampleRealm) false 3 (outside w1.repo.log w1.repo.faults w1) = (ws.1, ws.2) := h2
  refine .second [] ws.2.repo.log 2 2 3 w0 w w1 ws.2 20 20 false false [] w.repo.faults w1.repo.faults ref ws.1 .blank ho hb
    h1' h2' hc ?_ List.suffix_rfl
  obtain ⟨ops, ho, _⟩ := (writeOut_any (C := sampleCfg) (r := sampleRealm) (by decide) 20 false 3 w1).log
  rw [h2] at ho
  exact ⟨ops, ho.symm⟩

/-- A session opens what was saved, and asks for a version that is there; the third git command fails, and so does the
request. -/
def roughOpen : Except PyErr (Option (ObjId × ObjId)) × World :=
  topLevel sampleCfg sampleRealm (start ⟨wholeSecond.2.repo.log, [.none, .none, .fail 0]⟩)

def roughAsked : Except PyErr (Option ObjId) × World :=
  rootRecord sampleCfg none c!"0.2" 0 1 sampleUuid c!"v1" ⟨[], []⟩ [] none none roughOpen.2

theorem roughOpens : Opens sampleCfg sampleRealm ⟨wholeSecond.2.repo.log, [.none, .none, .fail 0]⟩ 0 0 1 roughOpen.2 := by
  have h1 : topLevel sampleCfg sampleRealm (start ⟨wholeSecond.2.repo.log, [.none, .none, .fail 0]⟩) =
      (.ok (some (0, 1)), roughOpen.2) := of_okVal (x := roughOpen) (by decide +kernel)
  have hc : CollisionFree sampleCfg wholeSecond.2.repo.log := collisionFree_of_check (by decide +kernel)
  have ho := wholeOpens
  have hb := wholeOrderly
  have hs := wholeSaved
  generalize roughOpen.2 = w at h1 ⊢
  generalize wholeSecond.2 = ws at h1 hc hs ⊢
  generalize wholeFiled = wf at hb hs
  generalize wholeOpen = w0 at ho hb
  exact .found _ 0 1 w (idle_start _) (C64_stocked (by decide) ho hb.busy.meanwhile hs ⟨Grows.refl _, fun _ _ => rfl, hc⟩) h1

theorem roughOrderly : Orderly sampleCfg 0 0 1 roughOpen.2 roughAsked.2 := by
  refine .asked _ none _ _ _ _ [] _ _ .refl ⟨rfl, fun c hc => by cases hc⟩ (fun n hn => by cases hn) (by decide)
    (fun h => absurd rfl h) (.inr (.inr (.inr (.inl (Res.of_notAbsent ?_)))))
  decide +kernel

/-- The request failed; the session is answered when it asks for a new version. -/
example : errOf roughAsked = some .runtime ∧
    ∃ m w', rootRecord sampleCfg none c!"0.2" 0 1 sampleUuid c!"v2" ⟨[], []⟩ [] none none
      (outside roughAsked.2.repo.log [] roughAsked.2) = (.ok (some m), w') := by
  refine ⟨by decide +kernel, ?_⟩
  have hL := pastWhole
  have ho := roughOpens
  have hb := roughOrderly
  generalize roughAsked.2 = w at hb ⊢
  generalize roughOpen.2 = w0 at ho hb
  generalize wholeSecond.2.repo.log = L at hL ho
  obtain ⟨o, w', h1, h2⟩ := C74_answered_partial (by decide) hL ho hb none c!"0.2" sampleUuid c!"v2" (pre := ⟨[], []⟩)
    ⟨rfl, fun c hc => by cases hc⟩ (path := []) (fun n hn => by cases hn) (by decide) (root := none) (rv := none)
    (fun h => absurd rfl h)
  obtain ⟨m, rfl⟩ := h2 (by decide)
  exact ⟨m, w', h1⟩

/-- It is told that there is metadata. -/
example : ¬ ∃ w, topLevel sampleCfg sampleRealm (start ⟨wholeSecond.2.repo.log, []⟩) = (.ok none, w) := fun h =>
  absurd ((C75_partial (by decide) pastWhole).mp h) (by decide +kernel)

/-- `lostAsked` meets the hypotheses of `C75_lost`: another dataset is not listed. -/
example : (look sampleCfg lostAsked.2.repo.log lostAsked.2.heap [.uuid ⟨7, by decide⟩] [] (.mem 3)).isAbsent = true := by
  decide +kernel

end MM
