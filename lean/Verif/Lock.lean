/-
The lock of a repository: `mapper/gitmapper/utils.py` 20-84.
-/
import Verif.Basic

namespace MM

/-- A process -/
abbrev Pid := Nat

/-- The locks of all processes.  `holder` is kept by the operating system for each lock
file: `fcntl.lockf`, which `fasteners.InterProcessLock` uses, gives a file to one process
at a time; a process that already has it gets it again, and the first `LOCK_UN` of that
process gives it up.  `counter` are the counters in `read_write_locked` (utils.py 23, 26-37)
of each process, zero for a directory that is not in the dictionary.  `dirs` are the
directories that exist.  Directories are not removed. -/
structure Locks where
  holder : Str → Option Pid
  counter : Pid → Str → Nat
  dirs : Str → Bool

/-- No process has started. -/
def Locks.start (dirs : Str → Bool) : Locks := ⟨fun _ => none, fun _ _ => 0, dirs⟩

/-- `get_lock_dir` (utils.py 77-84), the path; `realm` is the text of a `Path` that is not
`.` or `/`. -/
def lockDir (realm : Str) : Str := realm ++ c!"/.git"

/-- How a call ends.  `waits` is a call that has not returned. -/
inductive LockOut
  | done
  | waits
  | raised (e : PyErr)
  deriving DecidableEq, Repr

/-- Change a function at one place. -/
def setAt {α β : Type} [DecidableEq α] (f : α → β) (a : α) (b : β) : α → β := fun x => if x = a then b else f x

/-- Count up or down -/
def Locks.count (s : Locks) (p : Pid) (d : Str) (n : Nat) : Locks :=
  { s with counter := setAt s.counter p (setAt (s.counter p) d n) }

/-- `lock_backend` (utils.py 50-62) called by process `p`.  `file` says which directory a
path names.  `able` is false if the directory or the lock file cannot be created or
opened. -/
def lockBackend (file : Str → Str) (able : Bool) (p : Pid) (realm : Str) (s : Locks) : LockOut × Locks :=
  let d := lockDir realm
  let f := file d
  if s.dirs f = false ∧ able = false then (.raised .os, s)
  else
    let s := { s with dirs := setAt s.dirs f true }
    if s.counter p d = 0 then
      if able = false then (.raised .os, s)
      else if s.holder f = none ∨ s.holder f = some p then
        (.done, { s with holder := setAt s.holder f (some p) }.count p d (s.counter p d + 1))
      else (.waits, s)
    else (.done, s.count p d (s.counter p d + 1))

/-- `unlock_backend` (utils.py 65-74) called by process `p` -/
def unlockBackend (file : Str → Str) (p : Pid) (realm : Str) (s : Locks) : LockOut × Locks :=
  let d := lockDir realm
  let f := file d
  if s.dirs f = false then (.raised .assertion, s)
  else if s.counter p d = 0 then (.raised .assertion, s)
  else
    let s' := s.count p d (s.counter p d - 1)
    if s.counter p d - 1 = 0 then (.done, { s' with holder := setAt s'.holder f none })
    else (.done, s')

/-- The end of process `p`: the operating system gives its locks up. -/
def endProcess (p : Pid) (s : Locks) : Locks where
  holder := fun f => if s.holder f = some p then none else s.holder f
  counter := setAt s.counter p fun _ => 0
  dirs := s.dirs

/-- What processes do, and what they see. -/
inductive LockEvent
  | lock (p : Pid) (realm : Str) (able : Bool)
  | unlock (p : Pid) (realm : Str)
  | ends (p : Pid)
  deriving DecidableEq, Repr

/-- One event -/
def lockStep (file : Str → Str) (e : LockEvent) (s : Locks) : LockOut × Locks :=
  match e with
  | .lock p realm able => lockBackend file able p realm s
  | .unlock p realm => unlockBackend file p realm s
  | .ends p => (.done, endProcess p s)

/-- A sequence of events, with the outcomes of the calls. -/
def lockRun (file : Str → Str) : List LockEvent → Locks → List (LockEvent × LockOut) × Locks
  | [], s => ([], s)
  | e :: es, s => ((e, (lockStep file e s).1) :: (lockRun file es (lockStep file e s).2).1,
      (lockRun file es (lockStep file e s).2).2)

/-! ### What the callers see -/

/-- How often a process has locked a repository and not unlocked it, after calls with the
given outcomes. -/
def heldAfter (p : Pid) (realm : Str) : List (LockEvent × LockOut) → Nat → Nat
  | [], n => n
  | (.lock q r _, .done) :: h, n => heldAfter p realm h (if q = p ∧ r = realm then n + 1 else n)
  | (.unlock q r, .done) :: h, n => heldAfter p realm h (if q = p ∧ r = realm then n - 1 else n)
  | (.ends q, _) :: h, n => heldAfter p realm h (if q = p then 0 else n)
  | _ :: h, n => heldAfter p realm h n

/-- The process and the repository of an event -/
def LockEvent.uses : LockEvent → Pid → Str → Prop
  | .lock q r _, p, realm => q = p ∧ r = realm
  | .unlock q r, p, realm => q = p ∧ r = realm
  | .ends _, _, _ => False

/-- Each process uses one path for a repository. -/
def OneSpelling (file : Str → Str) (es : List LockEvent) : Prop :=
  ∀ p a b e e', e ∈ es → e' ∈ es → e.uses p a → e'.uses p b →
    file (lockDir a) = file (lockDir b) → a = b

/-! ### Invariant -/

theorem lockDir_inj {a b : Str} (h : lockDir a = lockDir b) : a = b := List.append_cancel_right h

theorem setAt_self {α β : Type} [DecidableEq α] (f : α → β) (a : α) (b : β) : setAt f a b a = b := by
  simp [setAt]

theorem setAt_ne {α β : Type} [DecidableEq α] (f : α → β) {a x : α} (b : β) (h : x ≠ a) : setAt f a b x = f x := by
  simp [setAt, h]

theorem count_counter (s : Locks) (p q : Pid) (d d' : Str) (n : Nat) :
    (s.count p d n).counter q d' = if q = p ∧ d' = d then n else s.counter q d' := by
  unfold Locks.count
  by_cases h : q = p
  · subst h
    by_cases h' : d' = d
    · subst h'; simp [setAt]
    · simp [setAt, h']
  · simp [setAt, h]

/-- The paths that a process uses for lock directories -/
def Spelled (file : Str → Str) (U : Pid → Str → Prop) : Prop :=
  ∀ p a b, U p a → U p b → file (lockDir a) = file (lockDir b) → a = b

/-- A process holds the lock of a file exactly if a counter of it is not zero. -/
structure LockInv (file : Str → Str) (U : Pid → Str → Prop) (s : Locks) : Prop where
  holds : ∀ f p, s.holder f = some p ↔ ∃ a, U p a ∧ file (lockDir a) = f ∧ 0 < s.counter p (lockDir a)
  used : ∀ p d, 0 < s.counter p d → ∃ a, U p a ∧ d = lockDir a
  exist : ∀ p a, 0 < s.counter p (lockDir a) → s.dirs (file (lockDir a)) = true

theorem LockInv.start (file : Str → Str) (U : Pid → Str → Prop) (dirs : Str → Bool) :
    LockInv file U (Locks.start dirs) where
  holds := by
    intro f p
    constructor
    · intro h; cases h
    · rintro ⟨a, _, _, h⟩; cases h
  used := by intro p d h; cases h
  exist := by intro p a h; cases h

theorem LockInv.dirs {file : Str → Str} {U : Pid → Str → Prop} {s : Locks} (h : LockInv file U s) (f : Str) :
    LockInv file U { s with dirs := setAt s.dirs f true } where
  holds := h.holds
  used := h.used
  exist := by
    intro p a hp
    show setAt s.dirs f true _ = true
    by_cases he : file (lockDir a) = f
    · rw [he, setAt_self]
    · rw [setAt_ne _ _ he]; exact h.exist p a hp

/-- Counting up -/
theorem LockInv.up {file : Str → Str} {U : Pid → Str → Prop} {s : Locks} (h : LockInv file U s)
    {p : Pid} {a : Str} (hp : U p a) (hd : s.dirs (file (lockDir a)) = true)
    (hh : s.holder (file (lockDir a)) = none ∨ s.holder (file (lockDir a)) = some p) (n : Nat) :
    LockInv file U ({ s with holder := setAt s.holder (file (lockDir a)) (some p) }.count p (lockDir a) (n + 1)) := by
  have hc : ∀ q d, ({ s with holder := setAt s.holder (file (lockDir a)) (some p) }.count p (lockDir a) (n + 1)).counter q d =
      if q = p ∧ d = lockDir a then n + 1 else s.counter q d := fun q d => count_counter _ _ _ _ _ _
  refine ⟨?_, ?_, ?_⟩
  · intro f q
    show setAt s.holder (file (lockDir a)) (some p) f = some q ↔ _
    by_cases hf : f = file (lockDir a)
    · subst hf
      rw [setAt_self]
      constructor
      · intro hq
        cases hq
        exact ⟨a, hp, rfl, by rw [hc, if_pos ⟨rfl, rfl⟩]; omega⟩
      · rintro ⟨b, hb, hfb, hcb⟩
        rw [hc] at hcb
        by_cases hqp : q = p
        · rw [hqp]
        · rw [if_neg (fun x => hqp x.1)] at hcb
          have := (h.holds (file (lockDir a)) q).mpr ⟨b, hb, hfb, hcb⟩
          rcases hh with hh | hh
          · rw [hh] at this; cases this
          · rw [hh] at this; exact this
    · rw [setAt_ne _ _ hf, h.holds f q]
      constructor
      · rintro ⟨b, hb, hfb, hcb⟩
        refine ⟨b, hb, hfb, ?_⟩
        rw [hc]
        split
        · omega
        · exact hcb
      · rintro ⟨b, hb, hfb, hcb⟩
        refine ⟨b, hb, hfb, ?_⟩
        rw [hc] at hcb
        by_cases he : q = p ∧ lockDir b = lockDir a
        · exfalso; apply hf; rw [← hfb, he.2]
        · rw [if_neg he] at hcb; exact hcb
  · intro q d hq
    rw [hc] at hq
    by_cases he : q = p ∧ d = lockDir a
    · exact ⟨a, by rw [he.1]; exact hp, he.2⟩
    · rw [if_neg he] at hq; exact h.used q d hq
  · intro q b hq
    show s.dirs _ = true
    rw [hc] at hq
    by_cases he : q = p ∧ lockDir b = lockDir a
    · rw [he.2]; exact hd
    · rw [if_neg he] at hq; exact h.exist q b hq

theorem LockInv.lock {file : Str → Str} {U : Pid → Str → Prop} {s : Locks} (h : LockInv file U s)
    {p : Pid} {a : Str} (hp : U p a) (able : Bool) : LockInv file U (lockBackend file able p a s).2 := by
  unfold lockBackend
  simp only
  split
  · exact h
  · have h1 := h.dirs (file (lockDir a))
    have hd : ({ s with dirs := setAt s.dirs (file (lockDir a)) true } : Locks).dirs (file (lockDir a)) = true := setAt_self _ _ _
    split
    · split
      · exact h1
      · split
        · rename_i hh
          exact h1.up hp hd hh _
        · exact h1
    · rename_i hne
      have hpos : 0 < s.counter p (lockDir a) := Nat.pos_of_ne_zero hne
      have hh : s.holder (file (lockDir a)) = some p := (h.holds _ p).mpr ⟨a, hp, rfl, hpos⟩
      have := h1.up hp hd (Or.inr hh) (s.counter p (lockDir a))
      have he : ({ s with dirs := setAt s.dirs (file (lockDir a)) true, holder := setAt s.holder (file (lockDir a)) (some p) } : Locks) =
          { s with dirs := setAt s.dirs (file (lockDir a)) true } := by
        have : setAt s.holder (file (lockDir a)) (some p) = s.holder := by
          funext x
          by_cases hx : x = file (lockDir a)
          · subst hx; rw [setAt_self, hh]
          · rw [setAt_ne _ _ hx]
        rw [this]
      rw [he] at this
      exact this

theorem LockInv.unlock {file : Str → Str} {U : Pid → Str → Prop} (hU : Spelled file U) {s : Locks} (h : LockInv file U s)
    {p : Pid} {a : Str} (hp : U p a) : LockInv file U (unlockBackend file p a s).2 := by
  unfold unlockBackend
  simp only
  split
  · exact h
  · rename_i hdir
    split
    · exact h
    · rename_i hne
      have hpos : 0 < s.counter p (lockDir a) := Nat.pos_of_ne_zero hne
      have hh : s.holder (file (lockDir a)) = some p := (h.holds _ p).mpr ⟨a, hp, rfl, hpos⟩
      have hc : ∀ q d, (s.count p (lockDir a) (s.counter p (lockDir a) - 1)).counter q d =
          if q = p ∧ d = lockDir a then s.counter p (lockDir a) - 1 else s.counter q d := fun q d => count_counter _ _ _ _ _ _
      have hused : ∀ q d, 0 < (s.count p (lockDir a) (s.counter p (lockDir a) - 1)).counter q d → ∃ b, U q b ∧ d = lockDir b := by
        intro q d hq
        rw [hc] at hq
        by_cases he : q = p ∧ d = lockDir a
        · exact ⟨a, by rw [he.1]; exact hp, he.2⟩
        · rw [if_neg he] at hq; exact h.used q d hq
      have hex : ∀ q b, 0 < (s.count p (lockDir a) (s.counter p (lockDir a) - 1)).counter q (lockDir b) → s.dirs (file (lockDir b)) = true := by
        intro q b hq
        rw [hc] at hq
        by_cases he : q = p ∧ lockDir b = lockDir a
        · rw [he.2]; simpa using hdir
        · rw [if_neg he] at hq; exact h.exist q b hq
      split
      · rename_i hz
        refine ⟨?_, hused, hex⟩
        intro f q
        show setAt s.holder (file (lockDir a)) none f = some q ↔ ∃ b, U q b ∧ file (lockDir b) = f ∧
          0 < (s.count p (lockDir a) (s.counter p (lockDir a) - 1)).counter q (lockDir b)
        by_cases hf : f = file (lockDir a)
        · subst hf
          rw [setAt_self]
          constructor
          · intro x; cases x
          · rintro ⟨b, hb, hfb, hcb⟩
            exfalso
            rw [hc] at hcb
            by_cases he : q = p ∧ lockDir b = lockDir a
            · rw [if_pos he, hz] at hcb; cases hcb
            · rw [if_neg he] at hcb
              have := (h.holds (file (lockDir a)) q).mpr ⟨b, hb, hfb, hcb⟩
              rw [hh] at this
              cases this
              exact he ⟨rfl, by rw [hU p b a hb hp hfb]⟩
        · rw [setAt_ne _ _ hf, h.holds f q]
          constructor
          · rintro ⟨b, hb, hfb, hcb⟩
            refine ⟨b, hb, hfb, ?_⟩
            rw [hc, if_neg (fun he => hf (by rw [← hfb, he.2]))]
            exact hcb
          · rintro ⟨b, hb, hfb, hcb⟩
            refine ⟨b, hb, hfb, ?_⟩
            rw [hc, if_neg (fun he => hf (by rw [← hfb, he.2]))] at hcb
            exact hcb
      · rename_i hz
        refine ⟨?_, hused, hex⟩
        intro f q
        show s.holder f = some q ↔ ∃ b, U q b ∧ file (lockDir b) = f ∧
          0 < (s.count p (lockDir a) (s.counter p (lockDir a) - 1)).counter q (lockDir b)
        rw [h.holds f q]
        constructor
        · rintro ⟨b, hb, hfb, hcb⟩
          refine ⟨b, hb, hfb, ?_⟩
          rw [hc]
          split
          · exact Nat.pos_of_ne_zero hz
          · exact hcb
        · rintro ⟨b, hb, hfb, hcb⟩
          refine ⟨b, hb, hfb, ?_⟩
          rw [hc] at hcb
          by_cases he : q = p ∧ lockDir b = lockDir a
          · rw [he.1, he.2]; exact hpos
          · rw [if_neg he] at hcb; exact hcb

theorem LockInv.ends {file : Str → Str} {U : Pid → Str → Prop} {s : Locks} (h : LockInv file U s) (p : Pid) :
    LockInv file U (endProcess p s) := by
  have hc : ∀ q d, (endProcess p s).counter q d = if q = p then 0 else s.counter q d := by
    intro q d
    show setAt s.counter p (fun _ => 0) q d = _
    unfold setAt
    by_cases hq : q = p <;> simp [hq]
  refine ⟨?_, ?_, ?_⟩
  · intro f q
    have hs : (endProcess p s).holder f = some q ↔ s.holder f = some q ∧ q ≠ p := by
      show (if s.holder f = some p then none else s.holder f) = some q ↔ _
      by_cases hf : s.holder f = some p
      · rw [if_pos hf, hf]
        constructor
        · intro x; cases x
        · rintro ⟨x, y⟩; cases x; exact absurd rfl y
      · rw [if_neg hf]
        constructor
        · intro x; exact ⟨x, fun hq => hf (by rw [← hq]; exact x)⟩
        · exact fun x => x.1
    rw [hs, h.holds f q]
    constructor
    · rintro ⟨⟨b, hb, hfb, hcb⟩, hq⟩
      exact ⟨b, hb, hfb, by rw [hc, if_neg hq]; exact hcb⟩
    · rintro ⟨b, hb, hfb, hcb⟩
      rw [hc] at hcb
      by_cases hq : q = p
      · rw [if_pos hq] at hcb; cases hcb
      · rw [if_neg hq] at hcb; exact ⟨⟨b, hb, hfb, hcb⟩, hq⟩
  · intro q d hq
    rw [hc] at hq
    by_cases he : q = p
    · rw [if_pos he] at hq; cases hq
    · rw [if_neg he] at hq; exact h.used q d hq
  · intro q b hq
    show s.dirs _ = true
    rw [hc] at hq
    by_cases he : q = p
    · rw [if_pos he] at hq; cases hq
    · rw [if_neg he] at hq; exact h.exist q b hq

/-- The counters are what the callers see. -/
theorem lockStep_counter (file : Str → Str) (e : LockEvent) (s : Locks) (p : Pid) (realm : Str) :
    heldAfter p realm [(e, (lockStep file e s).1)] (s.counter p (lockDir realm)) =
      (lockStep file e s).2.counter p (lockDir realm) := by
  have hiff : ∀ q r, (p = q ∧ lockDir realm = lockDir r) ↔ (q = p ∧ r = realm) :=
    fun q r => ⟨fun x => ⟨x.1.symm, (lockDir_inj x.2).symm⟩, fun x => ⟨x.1.symm, by rw [x.2]⟩⟩
  cases e with
  | lock q r able =>
    simp only [lockStep, lockBackend]
    have up : ∀ (s1 : Locks) (n : Nat), s1.counter = s.counter → n = s.counter q (lockDir r) →
        heldAfter p realm [(.lock q r able, .done)] (s.counter p (lockDir realm)) =
          (s1.count q (lockDir r) (n + 1)).counter p (lockDir realm) := by
      intro s1 n h1 h2
      rw [count_counter]
      simp only [heldAfter, hiff]
      by_cases h : q = p ∧ r = realm
      · rw [if_pos h, if_pos h, h2, h.1, h.2]
      · rw [if_neg h, if_neg h, h1]
    split
    · rfl
    · split
      · split
        · rfl
        · split
          · exact up _ _ rfl rfl
          · rfl
      · exact up _ _ rfl rfl
  | unlock q r =>
    simp only [lockStep, unlockBackend]
    have down : heldAfter p realm [(.unlock q r, .done)] (s.counter p (lockDir realm)) =
          (s.count q (lockDir r) (s.counter q (lockDir r) - 1)).counter p (lockDir realm) := by
      rw [count_counter]
      simp only [heldAfter, hiff]
      by_cases h : q = p ∧ r = realm
      · rw [if_pos h, if_pos h, h.1, h.2]
      · rw [if_neg h, if_neg h]
    split
    · rfl
    · split
      · rfl
      · split
        · exact down
        · exact down
  | ends q =>
    show (if q = p then 0 else s.counter p (lockDir realm)) = setAt s.counter q (fun _ => 0) p (lockDir realm)
    unfold setAt
    by_cases h : q = p
    · simp [h]
    · rw [if_neg h, if_neg (fun x => h x.symm)]

theorem heldAfter_cons (p : Pid) (realm : Str) (x : LockEvent × LockOut) (h : List (LockEvent × LockOut)) (n : Nat) :
    heldAfter p realm (x :: h) n = heldAfter p realm h (heldAfter p realm [x] n) := by
  obtain ⟨e, o⟩ := x
  cases e <;> cases o <;> rfl

theorem lockRun_counter (file : Str → Str) (p : Pid) (realm : Str) : ∀ (es : List LockEvent) (s : Locks),
    heldAfter p realm (lockRun file es s).1 (s.counter p (lockDir realm)) =
      (lockRun file es s).2.counter p (lockDir realm) := by
  intro es
  induction es with
  | nil => intro s; rfl
  | cons e es ih =>
    intro s
    simp only [lockRun]
    rw [heldAfter_cons, lockStep_counter, ih]

theorem lockRun_inv {file : Str → Str} {U : Pid → Str → Prop} (hU : Spelled file U) : ∀ (es : List LockEvent),
    (∀ e ∈ es, ∀ p a, e.uses p a → U p a) → ∀ s, LockInv file U s → LockInv file U (lockRun file es s).2 := by
  intro es
  induction es with
  | nil => intro _ s h; exact h
  | cons e es ih =>
    intro hu s h
    refine ih (fun e' he' => hu e' (List.mem_cons_of_mem _ he')) _ ?_
    have hue := hu e (List.mem_cons_self ..)
    cases e with
    | lock q r able => exact h.lock (hue q r ⟨rfl, rfl⟩) able
    | unlock q r => exact h.unlock hU (hue q r ⟨rfl, rfl⟩)
    | ends q => exact h.ends q

end MM
