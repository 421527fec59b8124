/-
C44: several processes flush object references to one repository at the same time.
-/
import Verif.System
import Verif.Props.References

namespace MM

/-- The call of `flush_object_references` of process `p` has come to its end with outcome
`o`; the pending object references were `before` when it was called, and are `after` now. -/
def FlushEnds (s : Sys) (p : Pid) (o : Except PyErr Unit) (before after : List (Bool × Str)) : Prop :=
  ∃ k k', s.procs p = .busy (before, k) (.done (o, (after, k')))

section
variable {C : Cfg} {r : Realm} {file : Str → Str} {path : Pid → Str} {log : Log} {dirs : Str → Bool}
  {es es' : List SysEvent} {a b : Sys}

/-- Any number of processes record and flush object references, in every order of their git
commands and lock calls, with failing commands, processes that end at any point, and other
changes of the repository: an object reference that is in the tree stays there.

Partial: the command that reads the tree must not fail by itself, see `C41_false`. -/
theorem C44_nothing_lost_partial (hf : OnePlace file path) (hw : WellTrees log r) (hr : RefStored C log r)
    (he : ∀ e ∈ es, e.Fine r) (he' : ∀ e ∈ es', e.Fine r)
    (ha : sysRun C r file path es (Sys.start log dirs) = some a) (hb : sysRun C r file path es' a = some b)
    (hc : CollisionFree C b.log) : ∀ x, Recorded C a.log r x → Recorded C b.log r x := by
  have h1 := (SysInv.run hf (SysInv.start dirs hw hr) he ha (hc.mono (grows_of_suffix (sysRun_suffix hb)))).1
  exact (SysInv.run hf h1 he' hb hc).2

/-- All object references of every process whose flush has succeeded are in the tree, at
the end of the flush and at every later time.

Partial: the command that reads the tree must not fail by itself, see `C41_false`. -/
theorem C44_flushed_partial (hf : OnePlace file path) (hw : WellTrees log r) (hr : RefStored C log r)
    (he : ∀ e ∈ es, e.Fine r) (he' : ∀ e ∈ es', e.Fine r)
    (ha : sysRun C r file path es (Sys.start log dirs) = some a) (hb : sysRun C r file path es' a = some b)
    (hc : CollisionFree C b.log) {p : Pid} {before after : List (Bool × Str)}
    (hp : FlushEnds a p (.ok ()) before after) : ∀ x ∈ before, Recorded C b.log r x := by
  obtain ⟨k, k', hp⟩ := hp
  have h1 := (SysInv.run hf (SysInv.start dirs hw hr) he ha (hc.mono (grows_of_suffix (sysRun_suffix hb)))).1
  have h2 := h1.procs p
  rw [hp] at h2
  intro x hx
  apply (SysInv.run hf h1 he' hb hc).2
  rcases h2 with ⟨_, _, _, h2⟩ | ⟨_, h2, _⟩ | ⟨_, zs, st', K, _, h2⟩ | ⟨_, zs, st', K, L0, old, cur, _, _, _, _, _, h2⟩
  · simp only at h2
    rw [h2 trivial] at hx
    cases hx
  · exact h2 x hx
  · obtain ⟨_, _, _, e1, _⟩ := storeRefs_reads C r (refInfos zs) st'
    rw [e1] at h2
    cases h2
  · cases cur <;> cases h2

/-- Whatever a flush ends with, its object references are still pending, or they are in the
tree and stay there.

Partial: the command that reads the tree must not fail by itself, see `C41_false`. -/
theorem C44_kept_partial (hf : OnePlace file path) (hw : WellTrees log r) (hr : RefStored C log r)
    (he : ∀ e ∈ es, e.Fine r) (he' : ∀ e ∈ es', e.Fine r)
    (ha : sysRun C r file path es (Sys.start log dirs) = some a) (hb : sysRun C r file path es' a = some b)
    (hc : CollisionFree C b.log) {p : Pid} {o : Except PyErr Unit} {before after : List (Bool × Str)}
    (hp : FlushEnds a p o before after) : ∀ x ∈ before, x ∈ after ∨ Recorded C b.log r x := by
  obtain ⟨k, k', hp⟩ := hp
  have h1 := (SysInv.run hf (SysInv.start dirs hw hr) he ha (hc.mono (grows_of_suffix (sysRun_suffix hb)))).1
  have h2 := h1.procs p
  rw [hp] at h2
  intro x hx
  rcases h2 with ⟨_, _, h2, _⟩ | ⟨_, h2, _⟩ | ⟨_, zs, st', K, _, h2⟩ | ⟨_, zs, st', K, L0, old, cur, _, _, _, _, _, h2⟩
  · exact Or.inl (h2 x hx)
  · exact Or.inr ((SysInv.run hf h1 he' hb hc).2 x (h2 x hx))
  · obtain ⟨_, _, _, e1, _⟩ := storeRefs_reads C r (refInfos zs) st'
    rw [e1] at h2
    cases h2
  · cases cur <;> cases h2

end

/-! ### A concrete case -/

/-- Process 2 uses a symbolic link to the repository. -/
def twoPaths (p : Pid) : Str := if p = 1 then c!"/r" else c!"/link"
def linkFile (s : Str) : Str := if s = c!"/link/.git" then c!"/r/.git" else s

/-- Two processes call flush at the same time; the second one waits for the lock. -/
def twoFlushes : List SysEvent :=
  [.record 1 (true, hashA), .record 2 (false, hashB), .flush 1, .flush 2, .works 1, .works 2, .works 1, .works 2,
    .lock 1 true, .lock 2 true, .works 1, .works 1, .works 1, .other [.save c!"r" (.blob c!"x")], .works 1, .works 1,
    .works 1, .unlock 1]

/-- Then the second one gets the lock, one of its commands fails, it calls again, and the
first process ends. -/
def secondFlush : List SysEvent :=
  [.lock 2 true, .works 2, .fails 2 0, .unlock 2, .returns 2, .ends 1, .flush 2, .lock 2 true, .works 2, .works 2, .works 2,
    .works 2, .works 2, .works 2, .unlock 2]

def runSample (es : List SysEvent) (s : Option Sys) : Option Sys :=
  s.bind (sysRun sampleCfg c!"r" linkFile twoPaths es)

def sampleA : Option Sys := runSample twoFlushes (some (Sys.start [] fun _ => true))
def sampleB : Option Sys := runSample secondFlush sampleA

/-- What can be seen of a process -/
def endOf (s : Option Sys) (p : Pid) : Option (Bool × List (Bool × Str) × List (Bool × Str)) :=
  match s.map (Sys.procs · p) with
  | some (.busy c (.done (.ok _, c'))) => some (true, c.1, c'.1)
  | some (.busy c (.done (.error _, c'))) => some (false, c.1, c'.1)
  | _ => none

theorem flushEnds_of {s : Sys} {p : Pid} {x y : List (Bool × Str)} (h : endOf (some s) p = some (true, x, y)) :
    FlushEnds s p (.ok ()) x y := by
  unfold endOf at h
  simp only [Option.map_some] at h
  split at h
  · rename_i c u c' hp
    simp only [Option.some.injEq, Prod.mk.injEq, true_and] at h
    obtain ⟨rfl, rfl⟩ := h
    obtain ⟨c1, c2⟩ := c
    obtain ⟨c1', c2'⟩ := c'
    exact ⟨c2, c2', Option.some.inj hp⟩
  · simp at h
  · cases h

theorem sampleA_ends : endOf sampleA 1 = some (true, [(true, hashA)], []) := by decide +kernel
theorem sampleB_ends : endOf sampleB 2 = some (true, [(false, hashB)], []) := by decide +kernel

theorem twoFlushes_fine : ∀ e ∈ twoFlushes ++ secondFlush, e.Fine c!"r" := by
  intro e he
  simp only [twoFlushes, secondFlush, List.cons_append, List.nil_append, List.mem_cons, List.not_mem_nil, or_false] at he
  rcases he with h | h | h | h | h | h | h | h | h | h | h | h | h | h | h | h | h | h | h | h | h | h | h | h | h |
    h | h | h | h | h | h | h | h <;> subst h
  case inr.inr.inr.inr.inr.inr.inr.inr.inr.inr.inr.inr.inr.inl =>
    intro op hop
    cases List.mem_singleton.mp hop
    trivial
  all_goals first | trivial | (show isHash _ = true; decide)

/-- The hypotheses of the theorems are met: the first process has ended its flush, and
later the second one. -/
example : ∃ a b, sysRun sampleCfg c!"r" linkFile twoPaths twoFlushes (Sys.start [] fun _ => true) = some a ∧
    sysRun sampleCfg c!"r" linkFile twoPaths secondFlush a = some b ∧ OnePlace linkFile twoPaths ∧
    WellTrees [] c!"r" ∧ RefStored sampleCfg [] c!"r" ∧ CollisionFree sampleCfg b.log ∧
    FlushEnds a 1 (.ok ()) [(true, hashA)] [] ∧ FlushEnds b 2 (.ok ()) [(false, hashB)] [] := by
  cases ha : sampleA with
  | none => have := sampleA_ends; rw [ha] at this; cases this
  | some a =>
    cases hb : sampleB with
    | none => have := sampleB_ends; rw [hb] at this; cases this
    | some b =>
      have h0 : sysRun sampleCfg c!"r" linkFile twoPaths twoFlushes (Sys.start [] fun _ => true) = some a := by
        unfold sampleA runSample at ha
        rw [Option.bind_some] at ha
        exact ha
      have h1 : sysRun sampleCfg c!"r" linkFile twoPaths secondFlush a = some b := by
        have : sampleB = sysRun sampleCfg c!"r" linkFile twoPaths secondFlush a := by
          unfold sampleB runSample; rw [ha, Option.bind_some]
        rw [← this, hb]
      have hcf : CollisionFree sampleCfg ((sampleB.map Sys.log).getD []) := collisionFree_of_check (by decide +kernel)
      rw [hb] at hcf
      refine ⟨a, b, h0, h1, ?_, (fun es h => by cases h), (fun h h' => by cases h'), hcf,
        flushEnds_of (ha ▸ sampleA_ends), flushEnds_of (hb ▸ sampleB_ends)⟩
      intro p q
      have : ∀ p, linkFile (lockDir (twoPaths p)) = c!"/r/.git" := by
        intro p
        unfold twoPaths
        split <;> decide
      rw [this, this]

end MM
