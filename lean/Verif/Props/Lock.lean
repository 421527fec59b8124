/-
C45: the lock of a repository.
-/
import Verif.Lock

namespace MM

/-- What the processes see when they make the given calls in the given order. -/
def lockHistory (file : Str → Str) (dirs : Str → Bool) (es : List LockEvent) : List (LockEvent × LockOut) :=
  (lockRun file es (Locks.start dirs)).1

/-- Process `p` has locked the repository at `realm` more often than unlocked it, going by
the calls that returned. -/
def HoldsLock (p : Pid) (realm : Str) (h : List (LockEvent × LockOut)) : Prop := 0 < heldAfter p realm h 0

theorem holdsLock_iff {file : Str → Str} {dirs : Str → Bool} {es : List LockEvent} {p : Pid} {a : Str} :
    HoldsLock p a (lockHistory file dirs es) ↔ 0 < (lockRun file es (Locks.start dirs)).2.counter p (lockDir a) := by
  unfold HoldsLock lockHistory
  rw [← lockRun_counter]
  rfl

theorem history_inv {file : Str → Str} {es : List LockEvent} (h : OneSpelling file es) (dirs : Str → Bool) :
    LockInv file (fun p a => ∃ e ∈ es, e.uses p a) (lockRun file es (Locks.start dirs)).2 :=
  lockRun_inv (fun p a b ⟨e, he, h1⟩ ⟨e', he', h2⟩ hf => h p a b e e' he he' h1 h2 hf) es
    (fun e he _ _ hu => ⟨e, he, hu⟩) _ (LockInv.start ..)

/-- At any time at most one process holds the lock of a repository, whatever paths the
processes use for it.

Partial: a single process must not use different paths for one repository, see
`C45_false`. -/
theorem C45_exclusive_partial {file : Str → Str} {dirs : Str → Bool} {es : List LockEvent}
    (h : OneSpelling file es) {p q : Pid} {a b : Str} (hab : file (lockDir a) = file (lockDir b))
    (hp : HoldsLock p a (lockHistory file dirs es)) (hq : HoldsLock q b (lockHistory file dirs es)) : p = q := by
  have inv := history_inv h dirs
  rw [holdsLock_iff] at hp hq
  have key : ∀ {p a}, 0 < (lockRun file es (Locks.start dirs)).2.counter p (lockDir a) →
      (lockRun file es (Locks.start dirs)).2.holder (file (lockDir a)) = some p := by
    intro p a hp
    obtain ⟨a', ha', he⟩ := inv.used p _ hp
    refine (inv.holds _ p).mpr ⟨a', ha', by rw [he], by rw [← he]; exact hp⟩
  have h1 := key hp
  have h2 := key hq
  rw [hab, h2] at h1
  injection h1 with h1
  exact h1.symm

/-- A call that locks a repository returns exactly if no other process holds the lock, and
waits otherwise.  So the lock is free again exactly when the outermost unlock call of its
holder has returned, or its holder has ended.

Partial: a single process must not use different paths for one repository, see
`C45_false`. -/
theorem C45_outermost_partial {file : Str → Str} {dirs : Str → Bool} {es : List LockEvent} {p : Pid} {a : Str}
    (h : OneSpelling file (es ++ [.lock p a true])) :
    ((lockStep file (.lock p a true) (lockRun file es (Locks.start dirs)).2).1 = .done ↔
      ¬ ∃ q b, q ≠ p ∧ file (lockDir b) = file (lockDir a) ∧ HoldsLock q b (lockHistory file dirs es)) ∧
    ((lockStep file (.lock p a true) (lockRun file es (Locks.start dirs)).2).1 = .waits ↔
      ∃ q b, q ≠ p ∧ file (lockDir b) = file (lockDir a) ∧ HoldsLock q b (lockHistory file dirs es)) := by
  have h0 : OneSpelling file es := fun p a b e e' he he' => h p a b e e' (List.mem_append_left _ he) (List.mem_append_left _ he')
  have inv := history_inv h0 dirs
  simp only [holdsLock_iff]
  generalize (lockRun file es (Locks.start dirs)).2 = s at inv
  have hother : (∃ q b, q ≠ p ∧ file (lockDir b) = file (lockDir a) ∧ 0 < s.counter q (lockDir b)) ↔
      ∃ q, q ≠ p ∧ s.holder (file (lockDir a)) = some q := by
    constructor
    · rintro ⟨q, b, h1, h2, h3⟩
      obtain ⟨b', hb', he⟩ := inv.used q _ h3
      exact ⟨q, h1, (inv.holds _ q).mpr ⟨b', hb', by rw [← he, h2], by rw [← he]; exact h3⟩⟩
    · rintro ⟨q, h1, h2⟩
      obtain ⟨b, hb, hf, hc⟩ := (inv.holds _ q).mp h2
      exact ⟨q, b, h1, hf, hc⟩
  rw [hother]
  simp only [lockStep, lockBackend]
  rw [if_neg (by simp)]
  by_cases hc : s.counter p (lockDir a) = 0
  · rw [if_pos hc, if_neg (by simp)]
    by_cases hh : s.holder (file (lockDir a)) = none ∨ s.holder (file (lockDir a)) = some p
    · rw [if_pos hh]
      have hno : ¬ ∃ q, q ≠ p ∧ s.holder (file (lockDir a)) = some q := by
        rintro ⟨q, h1, h2⟩
        rcases hh with hh | hh
        · rw [hh] at h2; cases h2
        · rw [hh] at h2; cases h2; exact h1 rfl
      simp [hno]
    · rw [if_neg hh]
      have hyes : ∃ q, q ≠ p ∧ s.holder (file (lockDir a)) = some q := by
        cases hx : s.holder (file (lockDir a)) with
        | none => exact absurd (Or.inl hx) hh
        | some q => exact ⟨q, fun hq => hh (Or.inr (by rw [hx, hq])), rfl⟩
      simp [hyes]
  · rw [if_neg hc]
    have hno : ¬ ∃ q, q ≠ p ∧ s.holder (file (lockDir a)) = some q := by
      rintro ⟨q, h1, h2⟩
      obtain ⟨a', ha', he⟩ := inv.used p _ (Nat.pos_of_ne_zero hc)
      have := (inv.holds (file (lockDir a)) p).mpr ⟨a', ha', by rw [he], by rw [← he]; exact Nat.pos_of_ne_zero hc⟩
      rw [this] at h2
      cases h2
      exact h1 rfl
    simp [hno]

/-- An unlock call of a process that holds the lock returns; any other raises an
`AssertionError` and changes nothing. -/
theorem C45_unlock {file : Str → Str} {dirs : Str → Bool} (es : List LockEvent) (p : Pid) (a : Str) :
    (¬ HoldsLock p a (lockHistory file dirs es) →
      lockStep file (.unlock p a) (lockRun file es (Locks.start dirs)).2 =
        (.raised .assertion, (lockRun file es (Locks.start dirs)).2)) ∧
    (OneSpelling file es → HoldsLock p a (lockHistory file dirs es) →
      (lockStep file (.unlock p a) (lockRun file es (Locks.start dirs)).2).1 = .done) := by
  rw [holdsLock_iff]
  constructor
  · intro h
    have hz : (lockRun file es (Locks.start dirs)).2.counter p (lockDir a) = 0 := by omega
    simp only [lockStep, unlockBackend]
    split <;> first | rfl | rw [if_pos hz]
  · intro h1 h
    have hd := (history_inv h1 dirs).exist p a h
    simp only [lockStep, unlockBackend]
    rw [if_neg (by rw [hd]; simp), if_neg (by omega)]
    split <;> rfl

/-- Locks of different repositories are independent: a call that locks a repository returns if all locks
that other processes hold are those of repositories with other `.git` directories.

Partial: as for `C45_outermost_partial`. -/
theorem C45_apart_partial {file : Str → Str} {dirs : Str → Bool} {es : List LockEvent} {p : Pid} {a : Str}
    (h : OneSpelling file (es ++ [.lock p a true]))
    (hq : ∀ q b, q ≠ p → HoldsLock q b (lockHistory file dirs es) → file (b ++ c!"/.git") ≠ file (a ++ c!"/.git")) :
    (lockStep file (.lock p a true) (lockRun file es (Locks.start dirs)).2).1 = .done :=
  (C45_outermost_partial h).1.mpr fun ⟨q, b, hne, he, hb⟩ => hq q b hne hb he

/-! ### Concrete cases -/

/-- Two processes, nested calls, and an end of a process. -/
def sampleCalls : List LockEvent :=
  [.lock 1 c!"/r" true, .lock 1 c!"/r" true, .lock 2 c!"/link" true, .unlock 1 c!"/r", .lock 2 c!"/link" true]

/-- `/link/.git` is the same directory as `/r/.git`. -/
def sampleFile (s : Str) : Str := if s = c!"/link/.git" then c!"/r/.git" else s

theorem sampleCalls_spelling : OneSpelling sampleFile (sampleCalls ++ [.lock 2 c!"/link" true]) := by
  intro p a b e e' he he' h1 h2 hf
  have key : ∀ e ∈ sampleCalls ++ [.lock 2 c!"/link" true], ∀ p a, e.uses p a →
      (p = 1 ∧ a = c!"/r") ∨ (p = 2 ∧ a = c!"/link") := by
    intro e he p a h
    simp only [sampleCalls, List.cons_append, List.nil_append, List.mem_cons, List.not_mem_nil, or_false] at he
    rcases he with rfl | rfl | rfl | rfl | rfl | rfl <;>
      simp only [LockEvent.uses] at h <;> obtain ⟨rfl, rfl⟩ := h <;> simp
  rcases key e he p a h1 with ⟨rfl, rfl⟩ | ⟨rfl, rfl⟩ <;>
    rcases key e' he' _ b h2 with ⟨hx, rfl⟩ | ⟨hx, rfl⟩ <;> first | rfl | cases hx

example : HoldsLock 1 c!"/r" (lockHistory sampleFile (fun _ => true) sampleCalls) := by
  show 0 < _; decide +kernel

/-- The second process still waits after the inner unlock call of the first, -/
example : (lockStep sampleFile (.lock 2 c!"/link" true) (lockRun sampleFile sampleCalls (Locks.start fun _ => true)).2).1 =
    .waits :=
  (C45_outermost_partial sampleCalls_spelling).2.mpr
    ⟨1, c!"/r", by decide, by decide, by show 0 < _; decide +kernel⟩

/-- and gets the lock after the outer one. -/
example : (lockHistory sampleFile (fun _ => true) (sampleCalls ++ [.unlock 1 c!"/r", .lock 2 c!"/link" true])).map Prod.snd =
    [.done, .done, .waits, .done, .waits, .done, .done] := by decide +kernel

/-- A third process locks another repository meanwhile. -/
example : (lockStep sampleFile (.lock 3 c!"/other" true) (lockRun sampleFile sampleCalls (Locks.start fun _ => true)).2).1 =
    .done := by
  have key : ∀ e ∈ sampleCalls ++ [.lock 3 c!"/other" true], ∀ p a, e.uses p a →
      (p = 1 ∧ a = c!"/r") ∨ (p = 2 ∧ a = c!"/link") ∨ (p = 3 ∧ a = c!"/other") := by
    intro e he p a h
    simp only [sampleCalls, List.cons_append, List.nil_append, List.mem_cons, List.not_mem_nil, or_false] at he
    rcases he with rfl | rfl | rfl | rfl | rfl | rfl <;>
      simp only [LockEvent.uses] at h <;> obtain ⟨rfl, rfl⟩ := h <;> simp
  have hs : OneSpelling sampleFile (sampleCalls ++ [.lock 3 c!"/other" true]) := by
    intro p a b e e' he he' h1 h2 _
    rcases key e he p a h1 with ⟨rfl, rfl⟩ | ⟨rfl, rfl⟩ | ⟨rfl, rfl⟩ <;>
      rcases key e' he' _ b h2 with ⟨hx, rfl⟩ | ⟨hx, rfl⟩ | ⟨hx, rfl⟩ <;> first | rfl | cases hx
  refine C45_apart_partial hs fun q b _ hb => ?_
  obtain ⟨b', ⟨e, he, hu⟩, hd⟩ := (history_inv (fun p a b e e' he he' => hs p a b e e'
    (List.mem_append_left _ he) (List.mem_append_left _ he')) fun _ => true).used q _ (holdsLock_iff.mp hb)
  have hd : b ++ c!"/.git" = b' ++ c!"/.git" := hd
  rw [hd]
  have : b' = c!"/r" ∨ b' = c!"/link" := by
    simp only [sampleCalls, List.mem_cons, List.not_mem_nil, or_false] at he
    rcases he with rfl | rfl | rfl | rfl | rfl <;>
      simp only [LockEvent.uses] at hu <;> obtain ⟨_, rfl⟩ := hu <;> simp
  rcases this with rfl | rfl <;> decide

/-- A process that uses two paths for one repository loses the lock with the unlock call
for one of them, while it still holds it by the other: the lock is then not exclusive. -/
theorem C45_false : ¬ ∀ (file : Str → Str) (dirs : Str → Bool) (es : List LockEvent) (p q : Pid) (a b : Str),
    file (lockDir a) = file (lockDir b) → HoldsLock p a (lockHistory file dirs es) →
      HoldsLock q b (lockHistory file dirs es) → p = q := by
  intro h
  have := h sampleFile (fun _ => true)
    [.lock 1 c!"/r" true, .lock 1 c!"/link" true, .unlock 1 c!"/link", .lock 2 c!"/r" true] 1 2 c!"/r" c!"/r"
    rfl (by show 0 < _; decide +kernel) (by show 0 < _; decide +kernel)
  cases this

end MM
