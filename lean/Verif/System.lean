/-
Several processes that flush object references to one repository, and the lock of the
repository.
-/
import Verif.Interleave

namespace MM

/-- A process: it runs other code, with the two sets of objectreference.py, or it runs
`flush_object_references`, which it has called with the sets `start`. -/
inductive Proc
  | idle (sets : RefSets)
  | busy (start : RefSets) (prog : Prog (Except PyErr Unit × RefSets))

/-- All processes, the repositories, and the locks. -/
structure Sys where
  log : Log
  locks : Locks
  procs : Pid → Proc

/-- No process has recorded anything. -/
def Sys.start (log : Log) (dirs : Str → Bool) : Sys := ⟨log, Locks.start dirs, fun _ => .idle ([], [])⟩

/-- What happens next.  `other`: other changes of repositories.  `record`: a process calls
`add_object_reference` (objectreference.py 30-37).  `flush`: a process calls
`flush_object_references`.  `works`, `fails`: its next git command is executed, or fails
after some changes.  `lock`, `unlock`: its next call of `lock_backend` or `unlock_backend`.
`returns`: the call of `flush_object_references` ends.  `ends`: the process ends, at any
point. -/
inductive SysEvent
  | other (ops : Log)
  | record (p : Pid) (x : Bool × Str)
  | flush (p : Pid)
  | works (p : Pid)
  | fails (p : Pid) (k : Nat)
  | lock (p : Pid) (able : Bool)
  | unlock (p : Pid)
  | returns (p : Pid)
  | ends (p : Pid)

/-- The process goes on. -/
def Sys.goes (s : Sys) (p : Pid) (x : Proc) : Sys := { s with procs := setAt s.procs p x }

/-- One event; `none` if it is not possible now.  `path p` is the path that process `p` uses
for the repository `r`.  The command that reads the tree of object references does not fail
by itself. -/
def sysStep (C : Cfg) (r : Realm) (file : Str → Str) (path : Pid → Str) (s : Sys) : SysEvent → Option Sys
  | .other ops => some { s with log := ops ++ s.log }
  | .record p x => match s.procs p with
    | .idle c => some (s.goes p (.idle (insertNew c.1 x, c.2)))
    | _ => none
  | .flush p => match s.procs p with
    | .idle c => some (s.goes p (.busy c (flushP C r c)))
    | _ => none
  | .works p => match s.procs p with
    | .busy c (.git _ ops next _) => some ({ s with log := (ops s.log).reverse ++ s.log }.goes p (.busy c (next s.log)))
    | _ => none
  | .fails p k => match s.procs p with
    | .busy c (.git false ops _ failed) =>
      some ({ s with log := ((ops s.log).take k).reverse ++ s.log }.goes p (.busy c failed))
    | _ => none
  | .lock p able => match s.procs p with
    | .busy c (.lock got failed) => match lockBackend file able p (path p) s.locks with
      | (.done, l) => some ({ s with locks := l }.goes p (.busy c got))
      | (.waits, l) => some { s with locks := l }
      | (.raised _, l) => some ({ s with locks := l }.goes p (.busy c failed))
    | _ => none
  | .unlock p => match s.procs p with
    | .busy c (.unlock next failed) => match unlockBackend file p (path p) s.locks with
      | (.done, l) => some ({ s with locks := l }.goes p (.busy c next))
      | (.waits, _) => none
      | (.raised _, l) => some ({ s with locks := l }.goes p (.busy c failed))
    | _ => none
  | .returns p => match s.procs p with
    | .busy _ (.done a) => some (s.goes p (.idle a.2))
    | _ => none
  | .ends p => some ({ s with locks := endProcess p s.locks }.goes p (.idle ([], [])))

/-- A sequence of events -/
def sysRun (C : Cfg) (r : Realm) (file : Str → Str) (path : Pid → Str) : List SysEvent → Sys → Option Sys
  | [], s => some s
  | e :: es, s => (sysStep C r file path s e).bind (sysRun C r file path es)

/-- Other changes of repositories leave the reference to the tree of object references alone
and store trees as git keeps them; recorded hashes are valid. -/
def SysEvent.Fine (r : Realm) : SysEvent → Prop
  | .other ops => ∀ op ∈ ops, Harmless r op
  | .record _ x => isHash x.2 = true
  | _ => True

/-! ### Outside of the lock -/

/-- The hashes of the recorded object references are valid. -/
def HashesOk (st : RefSets) : Prop := ∀ x ∈ st.1, isHash x.2 = true

/-- The program does not change the reference and uses no lock; results satisfy `Q`. -/
def Calm {α : Type} (r : Realm) (Q : α → Prop) : Prog α → Prop
  | .done a => Q a
  | .git _ ops next failed => (∀ L, ∀ op ∈ ops L, Harmless r op) ∧ (∀ L, WellTrees L r → Calm r Q (next L)) ∧
      Calm r Q failed
  | .lock _ _ => False
  | .unlock _ _ => False

theorem Calm.bind {α β : Type} {r : Realm} {Q : α → Prop} {Q' : β → Prop} {f : α → Prog β}
    (hf : ∀ a, Q a → Calm r Q' (f a)) : ∀ {p : Prog α}, Calm r Q p → Calm r Q' (p.bind f) := by
  intro p
  induction p with
  | done a => intro h; exact hf a h
  | git t ops next failed ih1 ih2 => rintro ⟨h1, h2, h3⟩; exact ⟨h1, fun L hL => ih1 L (h2 L hL), ih2 h3⟩
  | lock => intro h; exact h.elim
  | unlock => intro h; exact h.elim

theorem Calm.weaken {α : Type} {r : Realm} {Q Q' : α → Prop} (hq : ∀ a, Q a → Q' a) :
    ∀ {p : Prog α}, Calm r Q p → Calm r Q' p := by
  intro p
  induction p with
  | done a => intro h; exact hq a h
  | git t ops next failed ih1 ih2 => rintro ⟨h1, h2, h3⟩; exact ⟨h1, fun L hL => ih1 L (h2 L hL), ih2 h3⟩
  | lock => intro h; exact h.elim
  | unlock => intro h; exact h.elim

/-- The outcome of a flush -/
abbrev FlushOut := Except PyErr Unit × RefSets

/-- What comes after the locked part: `K` for each outcome.  `xs` are the object references
with which the flush was called, `zs` the ones that are stored. -/
structure Section (r : Realm) (xs zs : List (Bool × Str)) (st : RefSets) (K : FlushOut → Prog FlushOut)
    (Before : Prog FlushOut → Prop) : Prop where
  hashes : ∀ x ∈ zs, isHash x.2 = true
  sub : ∀ x ∈ xs, x ∈ zs
  ok : Calm r (fun a => HashesOk a.2) (K (.ok (), st))
  error : ∀ e, Before (K (.error e, st))

/-- The program of a flush before it has the lock, or after a failure. -/
def Before (C : Cfg) (r : Realm) (xs : List (Bool × Str)) : Prog FlushOut → Prop
  | .done a => HashesOk a.2 ∧ (∀ x ∈ xs, x ∈ a.2.1) ∧ (a.1 = .ok () → xs = [])
  | .git _ ops next failed => (∀ L, ∀ op ∈ ops L, Harmless r op) ∧
      (∀ L, WellTrees L r → Before C r xs (next L)) ∧ Before C r xs failed
  | .lock got failed => (∃ zs st K, got = (storeRefsP C r (refInfos zs) st).bind
        (fun a => .unlock (K a) (K (.error .assertion, a.2))) ∧
        Section r xs zs st K fun q => ∃ a, q = .done a ∧ HashesOk a.2 ∧ (∀ x ∈ xs, x ∈ a.2.1) ∧ a.1 ≠ .ok ()) ∧
      Before C r xs failed
  | .unlock _ _ => False

theorem Before.bind {α : Type} {C : Cfg} {r : Realm} {xs : List (Bool × Str)} {Q : α → Prop} {f : α → Prog FlushOut}
    (hf : ∀ a, Q a → Before C r xs (f a)) : ∀ {p : Prog α}, Calm r Q p → Before C r xs (p.bind f) := by
  intro p
  induction p with
  | done a => intro h; exact hf a h
  | git t ops next failed ih1 ih2 => rintro ⟨h1, h2, h3⟩; exact ⟨h1, fun L hL => ih1 L (h2 L hL), ih2 h3⟩
  | lock => intro h; exact h.elim
  | unlock => intro h; exact h.elim

/-! ### The program of a flush -/

theorem P.bind_run {α β : Type} (x : P α) (f : α → P β) (s : RefSets) : (x >>= f) s = (x s).bind fun a => match a with
    | (.ok a, s') => f a s'
    | (.error e, s') => .done (.error e, s') := rfl

/-- The sets only get larger, with valid hashes. -/
def Larger (st st' : RefSets) : Prop := HashesOk st' ∧ ∀ x ∈ st.1, x ∈ st'.1

theorem Larger.trans {a b c : RefSets} (h : Larger a b) (h' : Larger b c) : Larger a c :=
  ⟨h'.1, fun x hx => h'.2 x (h.2 x hx)⟩

theorem calm_lines {t : Bool} : ∀ (es : List TreeEntry) (st : RefSets), (∀ e ∈ es, isHash e.hash = true) →
    HashesOk st → ∃ us st', M.forEach (cacheLegacyLineS t) (es.map fun e => specLine e (gitQuote e.name)) st =
      (.ok us, st') ∧ Larger st st' := by
  intro es st hes hst
  obtain ⟨us, s', h1, _, _, h4, _⟩ := cacheLines_ok t es ⟨⟨[], []⟩, st.1, st.2⟩ hes
  rw [mirrors_lines] at h1
  cases hx : M.forEach (cacheLegacyLineS t) (es.map fun e => specLine e (gitQuote e.name)) st with
  | mk o st' =>
    have hx' : M.forEach (cacheLegacyLineS t) (es.map fun e => specLine e (gitQuote e.name)) (st.1, st.2) = (o, st') := hx
    rw [hx'] at h1
    simp only [Prod.mk.injEq] at h1
    obtain ⟨rfl, rfl⟩ := h1
    refine ⟨us, st', rfl, ?_, fun x hx => (h4 x).mpr (Or.inl hx)⟩
    intro x hx
    rcases (h4 x).mp hx with h | ⟨e, he, rfl⟩
    · exact hst x h
    · exact hes e he

theorem calm_addLegacyFrom {C : Cfg} {r : Realm} {name : Str} {t : Bool} {st : RefSets} (hst : HashesOk st) :
    Calm r (fun a : Except PyErr Bool × RefSets => Larger st a.2) (addLegacyFromP C r name t st) := by
  have hself : Larger st st := ⟨hst, fun x hx => hx⟩
  refine ⟨(fun L op hop => by cases hop), ?_, hself⟩
  intro L hL
  rcases treeAt_cases C L r name with ⟨es, h1, h2⟩ | ⟨h1, _⟩
  · have hwt := hL es (resolve_is_stored h2)
    obtain ⟨us, st', h3, h4⟩ := calm_lines (t := t) es st hwt.hashes hst
    simp only [h1]
    show Calm r _ (Prog.bind (Prog.bind (Prog.done (Except.ok (splitlines (catTree es)), st)) _) _)
    rw [splitlines_catTree hwt.hashes]
    have h5 : (P.only (M.forEach (cacheLegacyLineS t) (es.map fun e => specLine e (gitQuote e.name))) >>=
        fun _ => P.pure true) st = .done (.ok true, st') := by
      rw [P.bind_run]
      unfold P.only
      rw [h3]
      rfl
    show Calm r _ (Prog.bind ((P.only (M.forEach (cacheLegacyLineS t) (es.map fun e => specLine e (gitQuote e.name))) >>=
        fun _ => P.pure true) st) _)
    rw [h5]
    exact h4
  · simp only [h1]
    exact hself

theorem calm_addLegacy {C : Cfg} {r : Realm} {st : RefSets} (hst : HashesOk st) :
    Calm r (fun a : Except PyErr (Bool × Bool) × RefSets => Larger st a.2) (addLegacyP C r st) := by
  have h1 : addLegacyP C r st = (if r ∈ st.2 then P.pure (false, false)
      else do
        P.only (M.modify fun s => (s.1, insertNew s.2 r))
        let t ← addLegacyFromP C r legacyTreesName true
        let b ← addLegacyFromP C r legacyBlobsName false
        P.pure (t, b)) st := rfl
  rw [h1]
  by_cases hr : r ∈ st.2
  · rw [if_pos hr]; exact ⟨hst, fun x hx => hx⟩
  · rw [if_neg hr]
    show Calm r _ ((addLegacyFromP C r legacyTreesName true (st.1, insertNew st.2 r)).bind _)
    refine Calm.bind ?_ (calm_addLegacyFrom (show HashesOk (st.1, insertNew st.2 r) from hst))
    rintro ⟨o, st1⟩ h2
    cases o with
    | error e => exact h2
    | ok t =>
      show Calm r _ ((addLegacyFromP C r legacyBlobsName false st1).bind _)
      refine Calm.bind ?_ (calm_addLegacyFrom h2.1)
      rintro ⟨o, st2⟩ h3
      cases o with
      | error e => exact Larger.trans h2 h3
      | ok b => exact Larger.trans h2 h3

theorem calm_dropLegacy {r : Realm} {name : Str} (hn : name ≠ objectRefName) {added : Bool} {st : RefSets} :
    Calm r (fun a : FlushOut => a.2 = st) (dropLegacyP r name added st) := by
  cases added
  · exact rfl
  · refine ⟨fun L op hop => ?_, fun L _ => rfl, rfl⟩
    simp only [List.mem_singleton] at hop
    subst hop
    exact fun h => hn h.2

/-- The end of a flush -/
def dropsP (r : Realm) (t b : Bool) : P Unit := do
  dropLegacyP r legacyTreesName t
  dropLegacyP r legacyBlobsName b

theorem calm_drops {r : Realm} {t b : Bool} {st : RefSets} :
    Calm r (fun a : FlushOut => a.2 = st) (dropsP r t b st) := by
  refine Calm.bind ?_ (calm_dropLegacy (by decide))
  rintro ⟨o, st'⟩ h
  simp only at h
  subst h
  cases o with
  | error e => exact rfl
  | ok u => exact calm_dropLegacy (by decide)

/-- What follows the locked part -/
def afterP (r : Realm) (t b : Bool) (a : FlushOut) : Prog FlushOut :=
  match a with
  | (.ok _, st) => dropsP r t b ([], st.2)
  | (.error e, st) => .done (.error e, st)

theorem flushCached_empty {C : Cfg} {r : Realm} {st : RefSets} (h : st.1.isEmpty = true) :
    flushCachedP C r st = .done (.ok (), st) := by
  have h1 : flushCachedP C r st = (if st.1.isEmpty then P.pure ()
      else do
        let infos ← P.only (M.ofExcept (eachOk refInfo st.1))
        P.locked (storeRefsP C r infos)
        P.only (M.modify fun s => ([], s.2))) st := rfl
  rw [h1, if_pos h]
  rfl

theorem flushCached_locks {C : Cfg} {r : Realm} {st : RefSets} (h : ¬ st.1.isEmpty = true) (hst : HashesOk st)
    (t b : Bool) : (flushCachedP C r >>= fun _ => dropsP r t b) st =
      .lock ((storeRefsP C r (refInfos st.1) st).bind
        (fun a => .unlock (afterP r t b a) (afterP r t b (.error .assertion, a.2)))) (.done (.error .os, st)) := by
  have h1 : flushCachedP C r st = (if st.1.isEmpty then P.pure ()
      else do
        let infos ← P.only (M.ofExcept (eachOk refInfo st.1))
        P.locked (storeRefsP C r infos)
        P.only (M.modify fun s => ([], s.2))) st := rfl
  rw [P.bind_run, h1, if_neg h, eachOk_refInfo hst]
  show Prog.lock (Prog.bind (Prog.bind (Prog.bind (storeRefsP C r (refInfos st.1) st) _) _) _) _ = _
  rw [Prog.bind_assoc, Prog.bind_assoc]
  congr 2
  funext a
  obtain ⟨o, s'⟩ := a
  cases o <;> rfl

theorem flush_before {C : Cfg} {r : Realm} {st : RefSets} (hst : HashesOk st) :
    Before C r st.1 (flushP C r st) := by
  have h1 : flushP C r st = (addLegacyP C r st).bind fun a => match a with
      | (.ok (t, b), s') => (flushCachedP C r >>= fun _ => dropsP r t b) s'
      | (.error e, s') => .done (.error e, s') := by
    show (addLegacyP C r st).bind _ = _
    congr 1
    funext a
    obtain ⟨o, s'⟩ := a
    cases o <;> rfl
  rw [h1]
  refine Before.bind ?_ (calm_addLegacy hst)
  rintro ⟨o, st1⟩ ⟨h2, h3⟩
  cases o with
  | error e => exact ⟨h2, h3, (fun h => by cases h)⟩
  | ok tb =>
    obtain ⟨t, b⟩ := tb
    by_cases he : st1.1.isEmpty = true
    · have hnil : st1.1 = [] := List.isEmpty_iff.mp he
      have h4 : (flushCachedP C r >>= fun _ => dropsP r t b) st1 = dropsP r t b st1 := by
        rw [P.bind_run, flushCached_empty he]
        rfl
      show Before C r st.1 ((flushCachedP C r >>= fun _ => dropsP r t b) st1)
      rw [h4]
      have h5 : (dropsP r t b st1) = (dropsP r t b st1).bind Prog.done := by
        generalize dropsP r t b st1 = p
        induction p with
        | done a => rfl
        | git t ops next failed ih1 ih2 => simp only [Prog.bind, ← ih1, ← ih2]
        | lock a b ih1 ih2 => simp only [Prog.bind, ← ih1, ← ih2]
        | unlock a b ih1 ih2 => simp only [Prog.bind, ← ih1, ← ih2]
      rw [h5]
      refine Before.bind ?_ calm_drops
      rintro ⟨o, st2⟩ h6
      simp only at h6
      subst h6
      refine ⟨h2, h3, fun _ => ?_⟩
      exact List.eq_nil_iff_forall_not_mem.mpr fun x hx => by
        have := h3 x hx
        simp only [hnil] at this
        cases this
    · show Before C r st.1 ((flushCachedP C r >>= fun _ => dropsP r t b) st1)
      rw [flushCached_locks he h2 t b]
      refine ⟨⟨st1.1, st1, afterP r t b, rfl, h2, h3, ?_, ?_⟩, h2, h3, (fun h => by cases h)⟩
      · refine Calm.weaken ?_ (calm_drops (st := ([], st1.2)))
        intro a ha
        rw [ha]
        exact fun x hx => by cases hx
      · intro e
        exact ⟨_, rfl, h2, h3, by intro h; cases h⟩

/-- Reading the tree of object references -/
theorem storeRefs_reads (C : Cfg) (r : Realm) (infos : List PathInfo) (st : RefSets) :
    ∃ ops next failed, storeRefsP C r infos st = .git true ops next failed ∧ (∀ L, ops L = []) ∧
      ∀ L, WellTrees L r → ∃ old, WellTree old ∧ OldTree C L r old ∧
        next L = restP C r infos (old.map TreeEntry.raw) st := by
  refine ⟨_, _, _, rfl, fun L => rfl, ?_⟩
  intro L hL
  rcases treeAt_cases C L r objectRefName with ⟨es, h1, h2⟩ | ⟨h1, h2⟩
  · have hwt := hL es (resolve_is_stored h2)
    refine ⟨es, hwt, Or.inl h2, ?_⟩
    simp only [h1]
    show Prog.bind (Prog.bind (Prog.done (eachOk dirLine (splitlines (catTree es)), st)) _) _ = _
    rw [dirLines_ok hwt.hashes]
    rfl
  · refine ⟨[], WellTree.nil, Or.inr ⟨rfl, h2⟩, ?_⟩
    simp only [h1]
    rfl

/-! ### Counters -/

theorem lock_counts {file : Str → Str} {able : Bool} {p : Pid} {a : Str} {s l : Locks} {out : LockOut}
    (h : lockBackend file able p a s = (out, l)) (h0 : s.counter p (lockDir a) = 0) :
    l.counter p (lockDir a) = (if out = .done then 1 else 0) ∧ ∀ q d, q ≠ p → l.counter q d = s.counter q d := by
  unfold lockBackend at h
  simp only [h0, if_true] at h
  by_cases h1 : s.dirs (file (lockDir a)) = false ∧ able = false
  · rw [if_pos h1] at h
    cases h
    exact ⟨h0, fun q d _ => rfl⟩
  · rw [if_neg h1] at h
    by_cases h2 : able = false
    · rw [if_pos h2] at h
      cases h
      exact ⟨h0, fun q d _ => rfl⟩
    · rw [if_neg h2] at h
      by_cases h3 : s.holder (file (lockDir a)) = none ∨ s.holder (file (lockDir a)) = some p
      · rw [if_pos h3] at h
        cases h
        refine ⟨?_, ?_⟩
        · rw [count_counter, if_pos ⟨rfl, rfl⟩, if_pos rfl]
        · intro q d hq
          rw [count_counter, if_neg fun h => hq h.1]
      · rw [if_neg h3] at h
        cases h
        exact ⟨h0, fun q d _ => rfl⟩

theorem unlock_counts {file : Str → Str} {p : Pid} {a : Str} {s : Locks} (h1 : s.counter p (lockDir a) = 1)
    (hd : s.dirs (file (lockDir a)) = true) : ∃ l, unlockBackend file p a s = (.done, l) ∧
      l.counter p (lockDir a) = 0 ∧ ∀ q d, q ≠ p → l.counter q d = s.counter q d := by
  refine ⟨(unlockBackend file p a s).2, ?_, ?_, ?_⟩
  all_goals
    unfold unlockBackend
    simp only [h1, hd, Bool.true_eq_false, if_false, Nat.one_ne_zero, Nat.sub_self, if_true]
  · show (s.count p (lockDir a) 0).counter p (lockDir a) = 0
    rw [count_counter, if_pos ⟨rfl, rfl⟩]
  · intro q d hq
    show (s.count p (lockDir a) 0).counter q d = _
    rw [count_counter, if_neg fun h => hq h.1]

/-! ### Invariant -/

/-- The locked part, after the tree is read or not, ends with this. -/
def leaves (K : FlushOut → Prog FlushOut) (a : FlushOut) : Prog FlushOut := .unlock (K a) (K (.error .assertion, a.2))

/-- The failed end of a flush -/
def Failed (xs : List (Bool × Str)) (q : Prog FlushOut) : Prop :=
  ∃ a, q = .done a ∧ HashesOk a.2 ∧ (∀ x ∈ xs, x ∈ a.2.1) ∧ a.1 ≠ .ok ()

theorem Failed.before {C : Cfg} {r : Realm} {xs : List (Bool × Str)} {q : Prog FlushOut} (h : Failed xs q) :
    Before C r xs q := by
  obtain ⟨a, rfl, h1, h2, h3⟩ := h
  exact ⟨h1, h2, fun h => absurd h h3⟩

/-- Where a process is.  `held` says how often it has locked the repository. -/
def ProcInv (C : Cfg) (r : Realm) (L : Log) (held : Nat) : Proc → Prop
  | .idle st => held = 0 ∧ HashesOk st
  | .busy st prog =>
    (held = 0 ∧ Before C r st.1 prog) ∨
    (held = 0 ∧ (∀ x ∈ st.1, Recorded C L r x) ∧ Calm r (fun a => HashesOk a.2) prog) ∨
    (held = 1 ∧ ∃ zs st' K, Section r st.1 zs st' K (Failed st.1) ∧
      prog = (storeRefsP C r (refInfos zs) st').bind (leaves K)) ∨
    (held = 1 ∧ ∃ zs st' K L0 old cur, Section r st.1 zs st' K (Failed st.1) ∧ WellTree old ∧ OldTree C L0 r old ∧
      RefStored C L0 r ∧ PRun r (restP C r (refInfos zs) (old.map TreeEntry.raw) st') L0 cur L ∧
      prog = cur.bind (leaves K))

/-- Changes that leave the reference alone -/
theorem ProcInv.env {C : Cfg} {r : Realm} {L E : Log} {held : Nat} {x : Proc} (h : ProcInv C r L held x)
    (hE : ∀ op ∈ E, Harmless r op) (hc : CollisionFree C (E ++ L)) : ProcInv C r (E ++ L) held x := by
  cases x with
  | idle st => exact h
  | busy st prog =>
    rcases h with h | ⟨h1, h2, h3⟩ | h | ⟨h1, zs, st', K, L0, old, cur, h2, h3, h4, h5, h6, h7⟩
    · exact Or.inl h
    · exact Or.inr (Or.inl ⟨h1, fun x hx => (h2 x hx).later (grows_append _ _) (refOf_harmless hE L) hc, h3⟩)
    · exact Or.inr (Or.inr (Or.inl h))
    · exact Or.inr (Or.inr (Or.inr ⟨h1, zs, st', K, L0, old, cur, h2, h3, h4, h5,
        h6.trans (.env E hE (.refl _ _)), h7⟩))

/-- Changes by another process that has the lock -/
theorem ProcInv.keep {C : Cfg} {r : Realm} {L L' : Log} {x : Proc} (h : ProcInv C r L 0 x)
    (hk : ∀ x, Recorded C L r x → Recorded C L' r x) : ProcInv C r L' 0 x := by
  cases x with
  | idle st => exact h
  | busy st prog =>
    rcases h with h | ⟨h1, h2, h3⟩ | ⟨h, _⟩ | ⟨h, _⟩
    · exact Or.inl h
    · exact Or.inr (Or.inl ⟨h1, fun x hx => hk x (h2 x hx), h3⟩)
    · cases h
    · cases h

/-- All paths name the lock directory of the repository. -/
def OnePlace (file : Str → Str) (path : Pid → Str) : Prop := ∀ p q, file (lockDir (path p)) = file (lockDir (path q))

structure SysInv (C : Cfg) (r : Realm) (file : Str → Str) (path : Pid → Str) (s : Sys) : Prop where
  locks : LockInv file (fun p a => a = path p) s.locks
  well : WellTrees s.log r
  ref : RefStored C s.log r
  procs : ∀ p, ProcInv C r s.log (s.locks.counter p (lockDir (path p))) (s.procs p)

theorem SysInv.start {C : Cfg} {r : Realm} {file : Str → Str} {path : Pid → Str} {log : Log} (dirs : Str → Bool)
    (hw : WellTrees log r) (hr : RefStored C log r) : SysInv C r file path (Sys.start log dirs) where
  locks := LockInv.start _ _ _
  well := hw
  ref := hr
  procs := fun _ => ⟨rfl, fun x hx => by cases hx⟩

/-- Only one process has locked the repository. -/
theorem SysInv.alone {C : Cfg} {r : Realm} {file : Str → Str} {path : Pid → Str} {s : Sys}
    (h : SysInv C r file path s) (hf : OnePlace file path) {p q : Pid} (hpq : q ≠ p)
    (hp : 0 < s.locks.counter p (lockDir (path p))) : s.locks.counter q (lockDir (path q)) = 0 := by
  cases hz : s.locks.counter q (lockDir (path q)) with
  | zero => rfl
  | succ n =>
    exfalso
    have h1 := (h.locks.holds (file (lockDir (path p))) p).mpr ⟨_, rfl, rfl, hp⟩
    have h2 := (h.locks.holds (file (lockDir (path p))) q).mpr ⟨_, rfl, hf q p, by rw [hz]; exact Nat.succ_pos n⟩
    rw [h1] at h2
    cases h2
    exact hpq rfl

/-- A change of one process, and of the repositories -/
theorem SysInv.change {C : Cfg} {r : Realm} {file : Str → Str} {path : Pid → Str} {s : Sys}
    (h : SysInv C r file path s) {p : Pid} {x : Proc} {L : Log} (hw : WellTrees L r) (hr : RefStored C L r)
    (hp : ProcInv C r L (s.locks.counter p (lockDir (path p))) x)
    (ho : ∀ q, q ≠ p → ProcInv C r L (s.locks.counter q (lockDir (path q))) (s.procs q)) :
    SysInv C r file path ({ s with log := L }.goes p x) where
  locks := h.locks
  well := hw
  ref := hr
  procs := by
    intro q
    show ProcInv C r L (s.locks.counter q (lockDir (path q))) (setAt s.procs p x q)
    by_cases hq : q = p
    · subst hq; rw [setAt_self]; exact hp
    · rw [setAt_ne _ _ hq]; exact ho q hq

/-- A harmless change by a process -/
theorem SysInv.harmless {C : Cfg} {r : Realm} {file : Str → Str} {path : Pid → Str} {s : Sys}
    (h : SysInv C r file path s) {p : Pid} {x : Proc} {E : Log} (hE : ∀ op ∈ E, Harmless r op)
    (hc : CollisionFree C (E ++ s.log))
    (hp : ProcInv C r (E ++ s.log) (s.locks.counter p (lockDir (path p))) x) :
    SysInv C r file path ({ s with log := E ++ s.log }.goes p x) ∧
      ∀ x, Recorded C s.log r x → Recorded C (E ++ s.log) r x :=
  ⟨h.change (wellTrees_harmless hE h.well) (h.ref.later (grows_append _ _) (refOf_harmless hE _)) hp
      (fun q _ => (h.procs q).env hE hc),
    fun x hx => hx.later (grows_append _ _) (refOf_harmless hE _) hc⟩

theorem mem_take_reverse {E : List GitOp} {k : Nat} {op : GitOp} (h : op ∈ (E.take k).reverse) : op ∈ E :=
  List.mem_of_mem_take (List.mem_reverse.mp h)

/-- A git command of a process: complete (`k` is large) or cut off. -/
theorem SysInv.git {C : Cfg} {r : Realm} {file : Str → Str} {path : Pid → Str} {s : Sys}
    (h : SysInv C r file path s) (hf : OnePlace file path) {p : Pid} {c : RefSets} {t : Bool}
    {ops : Log → List GitOp} {next : Log → Prog FlushOut} {failed q : Prog FlushOut}
    (hp : s.procs p = .busy c (.git t ops next failed)) (k : Nat)
    (hq : (q = next s.log ∧ (ops s.log).length ≤ k) ∨ (q = failed ∧ t = false))
    (hc : CollisionFree C (((ops s.log).take k).reverse ++ s.log)) :
    SysInv C r file path ({ s with log := ((ops s.log).take k).reverse ++ s.log }.goes p (.busy c q)) ∧
      ∀ x, Recorded C s.log r x → Recorded C (((ops s.log).take k).reverse ++ s.log) r x := by
  have hinv := h.procs p
  rw [hp] at hinv
  rcases hinv with ⟨h1, h2, h3, h4⟩ | ⟨h1, h2, h3, h4, h5⟩ | ⟨h1, zs, st', K, h2, h3⟩ |
    ⟨h1, zs, st', K, L0, old, cur, h2, h3, h4, h5, h6, h7⟩
  · have hE : ∀ op ∈ ((ops s.log).take k).reverse, Harmless r op := fun op hop => h2 _ _ (mem_take_reverse hop)
    refine h.harmless hE hc (Or.inl ⟨h1, ?_⟩)
    rcases hq with ⟨rfl, _⟩ | ⟨rfl, _⟩
    · exact h3 _ h.well
    · exact h4
  · have hE : ∀ op ∈ ((ops s.log).take k).reverse, Harmless r op := fun op hop => h3 _ _ (mem_take_reverse hop)
    refine h.harmless hE hc (Or.inr (Or.inl ⟨h1,
      fun x hx => (h2 x hx).later (grows_append _ _) (refOf_harmless hE _) hc, ?_⟩))
    rcases hq with ⟨rfl, _⟩ | ⟨rfl, _⟩
    · exact h4 _ h.well
    · exact h5
  · obtain ⟨ops', next', failed', e1, e2, e3⟩ := storeRefs_reads C r (refInfos zs) st'
    rw [e1] at h3
    simp only [Prog.bind, Prog.git.injEq] at h3
    obtain ⟨rfl, rfl, rfl, rfl⟩ := h3
    obtain ⟨old, o1, o2, o3⟩ := e3 _ h.well
    rcases hq with ⟨rfl, _⟩ | ⟨_, hq⟩
    · have hnil : ((ops s.log).take k).reverse = [] := by rw [e2]; simp
      refine h.harmless (E := ((ops s.log).take k).reverse) (by rw [hnil]; intro op hop; cases hop) hc ?_
      refine Or.inr (Or.inr (Or.inr ⟨h1, zs, st', K, s.log, old, _, h2, o1, o2, h.ref, ?_,
        congrArg (Prog.bind · (leaves K)) o3⟩))
      rw [hnil]
      exact .refl _ _
    · cases hq
  · cases cur with
    | done a => cases h7
    | lock a b => cases h7
    | unlock a b => cases h7
    | git t' ops' next' failed' =>
      simp only [Prog.bind, Prog.git.injEq] at h7
      obtain ⟨rfl, rfl, rfl, rfl⟩ := h7
      obtain ⟨k1, k2, k3⟩ := h6.keeps h2.hashes h3 h4 h5 k hc h.well h.ref
      refine ⟨h.change k1 k2 ?_ ?_, k3⟩
      · rcases hq with ⟨rfl, hk⟩ | ⟨rfl, _⟩
        · refine Or.inr (Or.inr (Or.inr ⟨h1, zs, st', K, L0, old, _, h2, h3, h4, h5, ?_, rfl⟩))
          rw [List.take_of_length_le hk]
          exact h6.trans (.works (.refl _ _))
        · exact Or.inr (Or.inr (Or.inr ⟨h1, zs, st', K, L0, old, _, h2, h3, h4, h5,
            h6.trans (.fails k (.refl _ _)), rfl⟩))
      · intro q hq
        have hz := h.alone hf hq (by rw [h1]; exact Nat.one_pos)
        have := h.procs q
        rw [hz] at this ⊢
        exact this.keep k3

/-- A change of the locks by one process -/
theorem SysInv.locked {C : Cfg} {r : Realm} {file : Str → Str} {path : Pid → Str} {s : Sys}
    (h : SysInv C r file path s) {p : Pid} {x : Proc} {l : Locks} (hl : LockInv file (fun p a => a = path p) l)
    (hp : ProcInv C r s.log (l.counter p (lockDir (path p))) x)
    (ho : ∀ q d, q ≠ p → l.counter q d = s.locks.counter q d) :
    SysInv C r file path ({ s with locks := l }.goes p x) where
  locks := hl
  well := h.well
  ref := h.ref
  procs := by
    intro q
    show ProcInv C r s.log (l.counter q (lockDir (path q))) (setAt s.procs p x q)
    by_cases hq : q = p
    · subst hq; rw [setAt_self]; exact hp
    · rw [setAt_ne _ _ hq, ho q _ hq]; exact h.procs q

theorem goes_self (s : Sys) (p : Pid) : s.goes p (s.procs p) = s := by
  unfold Sys.goes
  have : setAt s.procs p (s.procs p) = s.procs := by
    funext q
    by_cases hq : q = p
    · subst hq; rw [setAt_self]
    · rw [setAt_ne _ _ hq]
  rw [this]

theorem SysInv.step {C : Cfg} {r : Realm} {file : Str → Str} {path : Pid → Str} {s s' : Sys} {e : SysEvent}
    (h : SysInv C r file path s) (hf : OnePlace file path) (he : e.Fine r)
    (hs : sysStep C r file path s e = some s') (hc : CollisionFree C s'.log) :
    SysInv C r file path s' ∧ ∀ x, Recorded C s.log r x → Recorded C s'.log r x := by
  have same : ∀ {p x}, ProcInv C r s.log (s.locks.counter p (lockDir (path p))) x →
      SysInv C r file path (s.goes p x) := fun hp => h.change h.well h.ref hp fun q _ => h.procs q
  cases e with
  | other E =>
    cases hs
    refine ⟨⟨h.locks, wellTrees_harmless he h.well, h.ref.later (grows_append _ _) (refOf_harmless he _),
      fun p => (h.procs p).env he hc⟩, fun x hx => hx.later (grows_append _ _) (refOf_harmless he _) hc⟩
  | record p x =>
    cases hp : s.procs p with
    | busy c q => simp only [sysStep, hp] at hs; cases hs
    | idle c =>
      simp only [sysStep, hp] at hs
      cases hs
      have hi := h.procs p
      rw [hp] at hi
      refine ⟨same ⟨hi.1, ?_⟩, fun x hx => hx⟩
      intro y hy
      rcases mem_insertNew.mp hy with hy | rfl
      · exact hi.2 y hy
      · exact he
  | flush p =>
    cases hp : s.procs p with
    | busy c q => simp only [sysStep, hp] at hs; cases hs
    | idle c =>
      simp only [sysStep, hp] at hs
      cases hs
      have hi := h.procs p
      rw [hp] at hi
      exact ⟨same (Or.inl ⟨hi.1, flush_before hi.2⟩), fun x hx => hx⟩
  | works p =>
    cases hp : s.procs p with
    | idle c => simp only [sysStep, hp] at hs; cases hs
    | busy c q =>
      cases q with
      | git t ops next failed =>
        simp only [sysStep, hp] at hs
        cases hs
        have hk : (ops s.log).take (ops s.log).length = ops s.log := List.take_of_length_le (Nat.le_refl _)
        have := h.git hf hp (ops s.log).length (Or.inl ⟨rfl, Nat.le_refl _⟩) (by rw [hk]; exact hc)
        rw [hk] at this
        exact this
      | done a => simp only [sysStep, hp] at hs; cases hs
      | lock a b => simp only [sysStep, hp] at hs; cases hs
      | unlock a b => simp only [sysStep, hp] at hs; cases hs
  | fails p k =>
    cases hp : s.procs p with
    | idle c => simp only [sysStep, hp] at hs; cases hs
    | busy c q =>
      cases q with
      | git t ops next failed =>
        cases t with
        | true => simp only [sysStep, hp] at hs; cases hs
        | false =>
          simp only [sysStep, hp] at hs
          cases hs
          exact h.git hf hp k (Or.inr ⟨rfl, rfl⟩) hc
      | done a => simp only [sysStep, hp] at hs; cases hs
      | lock a b => simp only [sysStep, hp] at hs; cases hs
      | unlock a b => simp only [sysStep, hp] at hs; cases hs
  | lock p able =>
    cases hp : s.procs p with
    | idle c => simp only [sysStep, hp] at hs; cases hs
    | busy c q =>
      cases q with
      | lock got failed =>
        have hi := h.procs p
        rw [hp] at hi
        have hi' : s.locks.counter p (lockDir (path p)) = 0 ∧ Before C r c.1 (.lock got failed) := by
          rcases hi with hi | ⟨_, _, hi⟩ | ⟨_, zs, st', K, _, hi⟩ | ⟨h1, zs, st', K, L0, old, cur, h2, h3, h4, h5, h6, h7⟩
          · exact hi
          · exact hi.elim
          · obtain ⟨_, _, _, e1, _⟩ := storeRefs_reads C r (refInfos zs) st'
            rw [e1] at hi
            cases hi
          · have hst := h6.steady (steady_rest (refInfos_well h2.hashes) h3 st') h.well
            cases cur with
            | lock a b => exact hst.elim
            | unlock a b => exact hst.elim
            | done a => cases h7
            | git t ops next failed => cases h7
        obtain ⟨h0, ⟨zs, st', K, h2, h3⟩, h4⟩ := hi'
        simp only [sysStep, hp] at hs
        have hl := h.locks.lock (p := p) (a := path p) rfl able
        cases hlk : lockBackend file able p (path p) s.locks with
        | mk out l =>
          rw [hlk] at hs hl
          obtain ⟨c1, c2⟩ := lock_counts hlk h0
          cases out with
          | done =>
            cases hs
            refine ⟨h.locked hl ?_ c2, fun x hx => hx⟩
            rw [c1, if_pos rfl]
            exact Or.inr (Or.inr (Or.inl ⟨rfl, zs, st', K, h3, h2⟩))
          | waits =>
            cases hs
            refine ⟨?_, fun x hx => hx⟩
            have := h.locked (p := p) (x := s.procs p) hl (by
              rw [c1, if_neg (by intro h; cases h), hp]
              exact Or.inl ⟨rfl, ⟨zs, st', K, h2, h3⟩, h4⟩) c2
            exact (goes_self { s with locks := l } p) ▸ this
          | raised x =>
            cases hs
            refine ⟨h.locked hl ?_ c2, fun x hx => hx⟩
            rw [c1, if_neg (by intro h; cases h)]
            exact Or.inl ⟨rfl, h4⟩
      | done a => simp only [sysStep, hp] at hs; cases hs
      | git t ops next failed => simp only [sysStep, hp] at hs; cases hs
      | unlock a b => simp only [sysStep, hp] at hs; cases hs
  | unlock p =>
    cases hp : s.procs p with
    | idle c => simp only [sysStep, hp] at hs; cases hs
    | busy c q =>
      cases q with
      | unlock next failed =>
        have hi := h.procs p
        rw [hp] at hi
        rcases hi with ⟨_, hi⟩ | ⟨_, _, hi⟩ | ⟨_, zs, st', K, _, hi⟩ | ⟨h1, zs, st', K, L0, old, cur, h2, h3, h4, h5, h6, h7⟩
        · exact hi.elim
        · exact hi.elim
        · obtain ⟨_, _, _, e1, _⟩ := storeRefs_reads C r (refInfos zs) st'
          rw [e1] at hi
          cases hi
        · have hst := h6.steady (steady_rest (refInfos_well h2.hashes) h3 st') h.well
          cases cur with
          | lock a b => exact hst.elim
          | unlock a b => exact hst.elim
          | git t ops next failed => cases h7
          | done a =>
            obtain ⟨o, st2⟩ := a
            obtain ⟨h8, _⟩ := hst
            simp only at h8
            subst h8
            simp only [Prog.bind, leaves, Prog.unlock.injEq] at h7
            obtain ⟨rfl, rfl⟩ := h7
            have hd := h.locks.exist p (path p) (by rw [h1]; exact Nat.one_pos)
            obtain ⟨l, u1, u2, u3⟩ := unlock_counts h1 hd
            have hl := LockInv.unlock (file := file) (U := fun p a => a = path p)
              (by intro p a b ha hb _; rw [ha, hb]) h.locks (p := p) (a := path p) rfl
            rw [u1] at hl
            simp only [sysStep, hp, u1] at hs
            cases hs
            refine ⟨h.locked hl ?_ u3, fun x hx => hx⟩
            rw [u2]
            cases o with
            | ok u =>
              exact Or.inr (Or.inl ⟨rfl, fun x hx => h6.recorded h2.hashes h3 hc h.well x (h2.sub x hx), h2.ok⟩)
            | error e => exact Or.inl ⟨rfl, (h2.error e).before⟩
      | done a => simp only [sysStep, hp] at hs; cases hs
      | git t ops next failed => simp only [sysStep, hp] at hs; cases hs
      | lock a b => simp only [sysStep, hp] at hs; cases hs
  | returns p =>
    cases hp : s.procs p with
    | idle c => simp only [sysStep, hp] at hs; cases hs
    | busy c q =>
      cases q with
      | done a =>
        simp only [sysStep, hp] at hs
        cases hs
        refine ⟨same ?_, fun x hx => hx⟩
        have hi := h.procs p
        rw [hp] at hi
        rcases hi with ⟨h1, h2⟩ | ⟨h1, _, h2⟩ | ⟨_, zs, st', K, _, hi⟩ | ⟨h1, zs, st', K, L0, old, cur, h2, h3, h4, h5, h6, h7⟩
        · exact ⟨h1, h2.1⟩
        · exact ⟨h1, h2⟩
        · obtain ⟨_, _, _, e1, _⟩ := storeRefs_reads C r (refInfos zs) st'
          rw [e1] at hi
          cases hi
        · cases cur <;> cases h7
      | git t ops next failed => simp only [sysStep, hp] at hs; cases hs
      | lock a b => simp only [sysStep, hp] at hs; cases hs
      | unlock a b => simp only [sysStep, hp] at hs; cases hs
  | ends p =>
    cases hs
    refine ⟨h.locked (h.locks.ends p) ⟨?_, (fun x hx => by cases hx)⟩ ?_, fun x hx => hx⟩
    · show setAt s.locks.counter p (fun _ => 0) p _ = 0
      rw [setAt_self]
    · intro q d hq
      show setAt s.locks.counter p (fun _ => 0) q d = _
      rw [setAt_ne _ _ hq]

theorem sysStep_suffix {C : Cfg} {r : Realm} {file : Str → Str} {path : Pid → Str} {s s' : Sys} {e : SysEvent}
    (hs : sysStep C r file path s e = some s') : s.log <:+ s'.log := by
  cases e with
  | other E => cases hs; exact List.suffix_append _ _
  | ends p => cases hs; exact List.suffix_refl _
  | record p x =>
    simp only [sysStep] at hs
    split at hs
    · cases hs; exact List.suffix_refl _
    · cases hs
  | flush p =>
    simp only [sysStep] at hs
    split at hs
    · cases hs; exact List.suffix_refl _
    · cases hs
  | works p =>
    simp only [sysStep] at hs
    split at hs
    · cases hs; exact List.suffix_append _ _
    · cases hs
  | fails p k =>
    simp only [sysStep] at hs
    split at hs
    · cases hs; exact List.suffix_append _ _
    · cases hs
  | lock p able =>
    simp only [sysStep] at hs
    split at hs
    · split at hs <;> (cases hs; exact List.suffix_refl _)
    · cases hs
  | unlock p =>
    simp only [sysStep] at hs
    split at hs
    · split at hs <;> (cases hs) <;> exact List.suffix_refl _
    · cases hs
  | returns p =>
    simp only [sysStep] at hs
    split at hs
    · cases hs; exact List.suffix_refl _
    · cases hs

theorem sysRun_suffix {C : Cfg} {r : Realm} {file : Str → Str} {path : Pid → Str} : ∀ {es : List SysEvent} {s s' : Sys},
    sysRun C r file path es s = some s' → s.log <:+ s'.log := by
  intro es
  induction es with
  | nil => intro s s' h; cases h; exact List.suffix_refl _
  | cons e es ih =>
    intro s s' h
    cases h1 : sysStep C r file path s e with
    | none => simp only [sysRun, h1, Option.bind_none] at h; cases h
    | some s1 =>
      simp only [sysRun, h1, Option.bind_some] at h
      exact (sysStep_suffix h1).trans (ih h)

theorem SysInv.run {C : Cfg} {r : Realm} {file : Str → Str} {path : Pid → Str} (hf : OnePlace file path) :
    ∀ {es : List SysEvent} {s s' : Sys}, SysInv C r file path s → (∀ e ∈ es, e.Fine r) →
    sysRun C r file path es s = some s' → CollisionFree C s'.log →
    SysInv C r file path s' ∧ ∀ x, Recorded C s.log r x → Recorded C s'.log r x := by
  intro es
  induction es with
  | nil => intro s s' h _ hs _; cases hs; exact ⟨h, fun x hx => hx⟩
  | cons e es ih =>
    intro s s' h he hs hc
    cases h1 : sysStep C r file path s e with
    | none => simp only [sysRun, h1, Option.bind_none] at hs; cases hs
    | some s1 =>
      simp only [sysRun, h1, Option.bind_some] at hs
      obtain ⟨a1, a2⟩ := h.step hf (he e (List.mem_cons_self ..)) h1
        (hc.mono (grows_of_suffix (sysRun_suffix hs)))
      obtain ⟨b1, b2⟩ := ih a1 (fun x hx => he x (List.mem_cons_of_mem _ hx)) hs hc
      exact ⟨b1, fun x hx => b2 x (a2 x hx)⟩

end MM
