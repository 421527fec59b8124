/-
Processes that share a repository and hold its lock while they work on it: `lock_backend` and
`unlock_backend` (mapper/gitmapper/utils.py 50-74) around sessions (common.py 42-75, 144-273).
-/
import Verif.Halfway
import Verif.FlushOps
import Verif.Lock
import Verif.Props.Common

namespace MM

variable {C : Cfg} {r : Realm}

/-! ### What the processes do -/

/-- A successful request for a root record (common.py 144-273), with the record that was returned -/
structure Ask where
  ds : Uuid
  dv : Str
  pre : PPath
  path : List Str
  root : Option Uuid
  rv : Option Str
  m : ObjId

/-- Where a process is: it has no session; it works with the tree version list `t` and the UUID set `u`,
in the world `w`; or it has saved the tree version list and not yet the UUID set, and had the world `w0`
when it began to save. -/
inductive Stage
  | out
  | works (g t u : ObjId) (w : World) (asked : List Ask)
  | half (g t u : ObjId) (w0 w : World) (asked : List Ask)

/-- A request of a session that saved both objects, with the world when the session began to save -/
structure Promise where
  ask : Ask
  w : World

/-- All processes, the repository and its lock -/
structure Crew where
  repo : Repo
  locks : Locks
  stage : Pid → Stage
  saved : List Promise

/-- What a process has in memory, with the repository as it is now -/
def Crew.now (s : Crew) (w : World) : World := outside s.repo.log s.repo.faults w

/-- No process has started. -/
def Crew.start (repo : Repo) (dirs : Str → Bool) : Crew := ⟨repo, Locks.start dirs, fun _ => .out, []⟩

/-- Process `p`, which uses the path `P p` for the repository, has locked it and not unlocked it. -/
def Crew.holds (s : Crew) (P : Pid → Str) (p : Pid) : Prop := 0 < s.locks.counter p (lockDir (P p))

/-- One step.  Processes lock and unlock the repository, and end, at any time; one that unlocks has no
session or has locked more than once.  They open the repository only with the lock, and may have worked before (`Idle`).  They save the tree
version list first, then the UUID set; a write may fail at any command, and a process may stop in it after
any of its commands.  (A session is over then, and after saving: the objects it used are not used again.
A process makes new top-level objects only when it was told that there are none and no command failed;
see `C39_fault_false` for the other case.)  Others may store objects and set names at any time, but not
those of the top-level objects. -/
inductive CrewStep (C : Cfg) (r : Realm) (file : Str → Str) (P : Pid → Str) (s : Crew) : Crew → Prop
  | locks (p : Pid) (able : Bool) :
      CrewStep C r file P s { s with locks := (lockBackend file able p (P p) s.locks).2 }
  | unlocks (p : Pid) : s.stage p = .out ∨ 1 < s.locks.counter p (lockDir (P p)) →
      CrewStep C r file P s { s with locks := (unlockBackend file p (P p) s.locks).2 }
  | ends (p : Pid) : CrewStep C r file P s { s with locks := endProcess p s.locks, stage := setAt s.stage p .out }
  | leaves (p : Pid) : CrewStep C r file P s { s with stage := setAt s.stage p .out }
  | finds (p : Pid) (i : World) (t u : ObjId) (w : World) : s.holds P p → s.stage p = .out → Idle s.repo i →
      topLevel C r i = (.ok (some (t, u)), w) →
      CrewStep C r file P s { s with repo := w.repo, stage := setAt s.stage p (.works i.next t u w []) }
  | makes (p : Pid) (i w : World) : s.holds P p → s.stage p = .out → s.repo.faults = [] → Idle s.repo i →
      topLevel C r i = (.ok none, w) →
      CrewStep C r file P s { s with
        repo := w.repo
        stage := setAt s.stage p (.works w.next w.next (w.next + 1)
          (create (Obj.new (Body.empty .uuidset)) (create (Obj.new (Body.empty .tvl)) w)) []) }
  | calls (p : Pid) (g t u : ObjId) (w w' : World) (asked : List Ask) : s.stage p = .works g t u w asked →
      Busy C g t u (s.now w) w' →
      CrewStep C r file P s { s with repo := w'.repo, stage := setAt s.stage p (.works g t u w' asked) }
  | asks (p : Pid) (g t u : ObjId) (w w' : World) (asked : List Ask) (auto : Option Bool) (now : Str) (a : Ask) :
      s.stage p = .works g t u w asked → Canonical a.pre → (∀ n ∈ a.path, CompOk n ∧ NameOk n) →
      rootRecord C auto now t u a.ds a.dv a.pre a.path a.root a.rv (s.now w) = (.ok (some a.m), w') →
      CrewStep C r file P s { s with repo := w'.repo, stage := setAt s.stage p (.works g t u w' (a :: asked)) }
  | saves (p : Pid) (g t u : ObjId) (w w' : World) (asked : List Ask) (n : Nat) (force : Bool) (ref : Ref) :
      s.stage p = .works g t u w asked → writeOut C n (some r) force t (s.now w) = (.ok ref, w') →
      CrewStep C r file P s { s with repo := w'.repo, stage := setAt s.stage p (.half g t u (s.now w) w' asked) }
  | savesBoth (p : Pid) (g t u : ObjId) (w0 w w' : World) (asked : List Ask) (n : Nat) (force : Bool) (ref : Ref) :
      s.stage p = .half g t u w0 w asked → writeOut C n (some r) force u (s.now w) = (.ok ref, w') →
      CrewStep C r file P s { s with
        repo := w'.repo
        stage := setAt s.stage p .out
        saved := asked.map (fun a => ⟨a, w0⟩) ++ s.saved }
  | stopsFirst (p : Pid) (g t u : ObjId) (w w' : World) (asked : List Ask) (n : Nat) (force : Bool)
      (x : Except PyErr Ref) (L : Log) (fs : List Fault) : s.stage p = .works g t u w asked →
      writeOut C n (some r) force t (s.now w) = (x, w') → CollisionFree C w'.repo.log →
      s.repo.log <:+ L → L <:+ w'.repo.log →
      CrewStep C r file P s { s with repo := ⟨L, fs⟩, stage := setAt s.stage p .out }
  | stopsSecond (p : Pid) (g t u : ObjId) (w0 w w' : World) (asked : List Ask) (n : Nat) (force : Bool)
      (x : Except PyErr Ref) (L : Log) (fs : List Fault) : s.stage p = .half g t u w0 w asked →
      writeOut C n (some r) force u (s.now w) = (x, w') → CollisionFree C w'.repo.log →
      s.repo.log <:+ L → L <:+ w'.repo.log →
      CrewStep C r file P s { s with repo := ⟨L, fs⟩, stage := setAt s.stage p .out }
  | others (L : Log) (fs : List Fault) : Grows s.repo.log L → TopKept r s.repo.log L →
      CrewStep C r file P s { s with repo := ⟨L, fs⟩ }

/-- Any number of steps of any processes -/
inductive CrewRun (C : Cfg) (r : Realm) (file : Str → Str) (P : Pid → Str) (s : Crew) : Crew → Prop
  | refl : CrewRun C r file P s s
  | step (s1 s2 : Crew) : CrewRun C r file P s s1 → CrewStep C r file P s1 s2 → CollisionFree C s2.repo.log →
      CrewRun C r file P s s2

/-- A call of `flush_object_references` by any process, with any outcome, is such a change by others. -/
theorem flush_topKept {x y : RefState} {o : Except PyErr Unit} (h : flush C r x = (o, y)) :
    Grows x.repo.log y.repo.log ∧ TopKept r x.repo.log y.repo.log := by
  have hf := flush_ops (C := C) (r := r) x
  rw [h] at hf
  refine ⟨hf.grows, fun nm hnm => hf.refs r nm fun _ => ?_⟩
  rcases hnm with rfl | rfl
  · exact ⟨by decide, by decide, by decide⟩
  · exact ⟨by decide, by decide, by decide⟩

/-! ### The log -/

theorem logKept_getVersioned (i : ObjId) (v : Str) (p : PPath) : M.Keeps (getVersioned C i v p) LogKept := by
  unfold getVersioned
  refine logKept_bind (logKept_ensure i) fun _ => logKept_bind (logKept_get i) fun o => ?_
  split
  · exact logKept_raise _
  · exact logKept_bind (logKept_readIn _) fun _ => logKept_pure _

theorem logKept_getVersionList (i : ObjId) (u : Uuid) : M.Keeps (getVersionList C i u) LogKept := by
  unfold getVersionList
  refine logKept_bind (logKept_ensure i) fun _ => logKept_bind (logKept_get i) fun o => ?_
  split
  · exact logKept_raise _
  · exact logKept_bind (logKept_readIn _) fun _ => logKept_pure _

theorem logKept_addExtractorRun (i : ObjId) (ext : Str) (run : Instance) :
    M.Keeps (addExtractorRun C i ext run) LogKept := by
  unfold addExtractorRun
  refine logKept_bind (logKept_ensure i) fun _ => logKept_bind (logKept_get i) fun o => ?_
  split
  · exact logKept_change _ _
  · exact logKept_raise _

theorem logKept_topLevel : M.Keeps (topLevel C r) LogKept := by
  unfold topLevel
  refine logKept_bind (logKept_alloc _) fun t => logKept_bind (logKept_alloc _) fun u => ?_
  have h : M.Keeps (do readIn C t; readIn C u; pure (some (t, u)) : W (Option (ObjId × ObjId))) LogKept :=
    logKept_bind (logKept_readIn t) fun _ => logKept_bind (logKept_readIn u) fun _ => logKept_pure _
  intro w
  have := h w
  unfold M.catchRuntime
  split
  · rename_i s' he; rw [he] at this; exact this
  · exact this

theorem Busy.log {g t u : ObjId} {w w' : World} (h : Busy C g t u w w') : w'.repo.log = w.repo.log := by
  induction h with
  | refl => rfl
  | loaded w' i _ _ _ ih => exact (logKept_ensure (C := C) i w').trans ih
  | read w' i _ _ _ ih => exact (logKept_readIn (C := C) i w').trans ih
  | looked w' i p _ _ _ ih => exact (logKept_getObjectAt (C := C) p i w').trans ih
  | listed w' i id _ _ _ ih => exact (logKept_getVersionList (C := C) i id w').trans ih
  | element w' i v p _ _ _ ih => exact (logKept_getVersioned (C := C) i v p w').trans ih
  | asked w' auto now id v pre path root rv _ _ _ ih =>
    exact (logKept_rootRecord (C := C) auto now t u id v pre path root rv w').trans ih
  | new w' b _ _ _ ih => exact ih
  | ran w' i ext run _ _ _ _ ih => exact (logKept_addExtractorRun (C := C) i ext run w').trans ih
  | filed w' leaf i x p _ _ _ _ _ _ _ _ _ ih => exact (logKept_addChildAt (C := C) x p i w').trans ih
  | part w' k i x _ _ _ _ h1 _ _ _ h2 _ ih =>
    rw [setPart_run (h2.imp And.left And.left) h1]
    exact ih

/-- While git works, a process finds what is stored. -/
theorem Idle.finds (hr : r ≠ []) {s : Repo} {i : World} (hi : Idle s i) (hf : s.faults = []) (hs : Stocked C r s.log) :
    ∃ w, topLevel C r i = (.ok (some (i.next, i.next + 1)), w) := by
  have hrep : i.cleared.repo = s := hi.repo
  obtain ⟨v, hv, _⟩ := topLevel_total (C := C) (w := i.cleared) (hi.vacant.intact (r := r)).2.2 (by rw [hrep]; exact hf) hr
    (by rw [hrep]; exact (hs tvlLink tvlRefName (Or.inl ⟨rfl, rfl⟩) _).1)
    (by rw [hrep]; exact (hs uuidSetLink uuidSetRefName (Or.inr ⟨rfl, rfl⟩) _).1)
  obtain ⟨e, _⟩ := twin_topLevel (C := C) (r := r) (fun j => i.next ≤ j) i i.cleared hi.side
  rw [hv] at e
  cases hw : topLevel C r i with
  | mk res w =>
    rw [hw] at e
    simp only at e
    subst e
    exact ⟨w, rfl⟩

/-- A process that finds the top-level objects has read the UUID set under its name. -/
theorem found_named {i : World} {t u : ObjId} {w : World} (h : topLevel C r i = (.ok (some (t, u)), w)) :
    refOf i.repo.log r uuidSetRefName ≠ none := by
  intro hn
  obtain ⟨w1, h1, h2, _, _⟩ := topLevel_found h
  have hlog : w1.repo.log = i.repo.log := by
    have := logKept_readIn (C := C) i.next (create (uuidSetLink.obj r) (create (tvlLink.obj r) i))
    rw [h1] at this
    exact this
  have hobj : w1.heap (i.next + 1) = uuidSetLink.obj r := by
    have e : (create (uuidSetLink.obj r) (create (tvlLink.obj r) i)).heap (i.next + 1) = uuidSetLink.obj r :=
      create_self _ (create (tvlLink.obj r) i)
    have hm : ((create (uuidSetLink.obj r) (create (tvlLink.obj r) i)).heap i.next).mapped = false := by
      rw [create_ne _ _ (show i.next ≠ i.next + 1 by oomega), show (create (tvlLink.obj r) i).heap i.next = tvlLink.obj r from
        create_self _ i]
      rfl
    have hnx : i.next + 1 < (create (uuidSetLink.obj r) (create (tvlLink.obj r) i)).next := by
      show i.next + 1 < i.next + 1 + 1
      exact Nat.lt_succ_self _
    generalize create (uuidSetLink.obj r) (create (tvlLink.obj r) i) = w0 at h1 e hm hnx
    have key : ∀ res w2, ensureMapped C i.next w0 = (res, w2) → w2.heap (i.next + 1) = w0.heap (i.next + 1) := by
      intro res w2 h3
      have hc := ensureMapped_cases C i.next w0 hm
      rw [h3] at hc
      cases hc with
      | failed e h1 => rw [h1]
      | none r ref _ _ _ _ _ _ _ h6 => rw [h6, Heap.set_ne (show i.next + 1 ≠ i.next by oomega)]
      | read r ref loc b is so _ _ _ _ _ _ _ _ _ _ h6 => exact h6 (i.next + 1) (by oomega) hnx
    rcases readIn_cases (C := C) i.next w0 with ⟨e', w2, h3, h4⟩ | ⟨b, w2, h3, h4⟩ | ⟨b, w2, _, _, _, h3⟩
    · rw [h1] at h3; cases h3
    · rw [h1] at h3; cases h3; exact (key _ _ h4).trans e
    · rw [h1] at h3; cases h3
      refine Eq.trans ?_ e
      show w0.heap.set i.next { w0.heap i.next with body := (w0.heap i.next).body.purged } (i.next + 1) = w0.heap (i.next + 1)
      exact Heap.set_ne (show i.next + 1 ≠ i.next by oomega)
  have hm : (w1.heap (i.next + 1)).mapped = false := by rw [hobj]; rfl
  have hc := ensureMapped_cases C (i.next + 1) w1 hm
  have bad : ∀ b w2, ensureMapped C (i.next + 1) w1 ≠ (.ok b, w2) := by
    intro b w2 h3
    rw [h3] at hc
    cases hc with
    | none r' ref _ h4 h5 =>
      rw [hobj] at h4
      cases h4
      exact absurd h5 (by decide)
    | read r' ref loc b' is so h4 h5 h6 h7 h8 h9 h10 =>
      rw [hobj] at h4 h5 h10
      cases h4; cases h5; cases h7
      rw [hlog] at h10
      have hnh : isHash uuidSetRefName = false := by decide
      have : treeAt C i.repo.log r uuidSetRefName = .error .runtime := by unfold treeAt resolve; rw [hnh, hn]; rfl
      have hd : decode C i.repo.log r .uuidset uuidSetRefName = .error .runtime := by unfold decode; rw [this]; rfl
      rw [show ((uuidSetLink.obj r).kind) = Kind.uuidset from rfl] at h10
      exact absurd (h10.symm.trans hd) (by intro e; cases e)
  rcases readIn_cases (C := C) (i.next + 1) w1 with ⟨e', w2, h3, h4⟩ | ⟨b, w2, h3, h4⟩ | ⟨b, w2, _, h4, _, h3⟩
  · rw [h2] at h3; cases h3
  · exact bad _ _ h4
  · exact bad _ _ h4

end MM
