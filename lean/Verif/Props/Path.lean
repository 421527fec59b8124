/-
Property theorems about metadata paths (C01, C02).
-/
import Verif.Path

namespace MM

/-- Specification: a canonical relative path. -/
def Canonical (p : PPath) : Prop :=
  p.root = [] ∧ ∀ c ∈ p.comps, c ≠ [] ∧ c ≠ ['.'] ∧ '/' ∉ c

instance (p : PPath) : Decidable (Canonical p) := by unfold Canonical; infer_instance

/-- **C01** Every metadata path built from strings is relative and has only
canonical components. -/
theorem C01_canonical (args : List Str) : Canonical (metadataPath args) := by
  rw [metadataPath_eq]
  exact ⟨rfl, fun c hc => parseParts_ok args c hc⟩

/-- **C01** Building a path from the string form of a canonical path gives the
same path; in particular this holds for every path built from strings. -/
theorem C01_roundtrip (p : PPath) (h : Canonical p) : metadataPath [p.str] = p := by
  obtain ⟨root, comps⟩ := p
  obtain ⟨h1, h2⟩ := h
  simp only at h1 h2
  subst h1
  rw [str_rel h2, metadataPath_eq, parseParts_joinWith h2]

/-- **C01** The string form never starts with a slash and is empty exactly for
the empty path. -/
theorem C01_string (args : List Str) :
    (metadataPath args).str.head? ≠ some '/' ∧
    ((metadataPath args).str = [] ↔ (metadataPath args).len = 0) := by
  have h := C01_canonical args
  generalize metadataPath args = p at h
  obtain ⟨root, comps⟩ := p
  obtain ⟨h1, h2⟩ := h
  simp only at h1 h2
  subst h1
  rw [str_rel h2]
  refine ⟨head_joinWith h2, ?_⟩
  rw [joinWith_eq_nil h2]
  simp [PPath.len, PPath.parts]

/-- **C01** Different canonical paths have different string forms. -/
theorem C01_injective (p q : PPath) (hp : Canonical p) (hq : Canonical q)
    (h : p.str = q.str) : p = q := by
  rw [← C01_roundtrip p hp, ← C01_roundtrip q hq, h]

/-- The components that survive are exactly the components between slashes other
than empty ones and dots, in order, for a path given as one string. -/
theorem C01_components (s : Str) :
    (metadataPath [s]).comps = (splitOn '/' s).filter (fun c => c ≠ [] && c ≠ ['.']) := by
  rw [metadataPath_eq]
  simp only [parseParts, List.foldl, parseStep]
  have key : ∀ t : Str, ((splitOn '/' (t.dropWhile (· == '/'))).filter keepComp)
      = (splitOn '/' t).filter keepComp := by
    intro t
    induction t with
    | nil => rfl
    | cons a t ih =>
      by_cases ha : a = '/'
      · subst ha
        simp only [List.dropWhile, beq_self_eq_true, ih]
        simp [splitOn, keepComp]
      · have : (a == '/') = false := by simp [ha]
        simp [List.dropWhile, this]
  have conv : (fun c : Str => c ≠ [] && c ≠ ['.']) = keepComp := by
    funext c; simp [keepComp]
  rw [conv]
  unfold splitRoot
  split
  · simp only
    split <;> exact key _
  · simp

/-- **C02** Joining concatenates components; the result is canonical. -/
theorem C02_join (p q : PPath) (hp : Canonical p) (hq : Canonical q) :
    Canonical (p.join q) ∧ (p.join q).parts = p.parts ++ q.parts := by
  obtain ⟨pr, pc⟩ := p
  obtain ⟨qr, qc⟩ := q
  obtain ⟨h1, h2⟩ := hp
  obtain ⟨h3, h4⟩ := hq
  simp only at h1 h2 h3 h4
  subst h1 h3
  constructor
  · refine ⟨by simp [PPath.join], ?_⟩
    intro c hc
    simp [PPath.join] at hc
    rcases hc with hc | hc
    · exact h2 c hc
    · exact h4 c hc
  · simp [PPath.join, PPath.parts]

/-- **C02** Joining is associative, also when a right operand is absolute. -/
theorem C02_assoc (p q r : PPath) : (p.join q).join r = p.join (q.join r) := by
  obtain ⟨pr, pc⟩ := p
  obtain ⟨qr, qc⟩ := q
  obtain ⟨rr, rc⟩ := r
  by_cases h1 : qr = [] <;> by_cases h2 : rr = [] <;> simp [PPath.join, h1, h2]

/-- **C02** The empty path is neutral. -/
theorem C02_neutral (p : PPath) (hp : Canonical p) :
    (metadataPath [[]]).join p = p ∧ p.join (metadataPath [[]]) = p := by
  obtain ⟨pr, pc⟩ := p
  obtain ⟨h1, h2⟩ := hp
  simp only at h1
  subst h1
  have : metadataPath [[]] = { root := [], comps := [] } := rfl
  rw [this]
  simp [PPath.join]

/-- **C02** Lengths add up. -/
theorem C02_len (p q : PPath) (hp : Canonical p) (hq : Canonical q) :
    (p.join q).len = p.len + q.len := by
  unfold PPath.len
  rw [(C02_join p q hp hq).2, List.length_append]

/-- **C02** Joining with a common prefix keeps different paths different, and
joining a common suffix does so as well. -/
theorem C02_cancel (p q r : PPath) (hp : Canonical p) (hq : Canonical q) (hr : Canonical r) :
    (p.join q = p.join r → q = r) ∧ (q.join p = r.join p → q = r) := by
  obtain ⟨pr, pc⟩ := p
  obtain ⟨qr, qc⟩ := q
  obtain ⟨rr, rc⟩ := r
  obtain ⟨h1, _⟩ := hp
  obtain ⟨h2, _⟩ := hq
  obtain ⟨h3, _⟩ := hr
  simp only at h1 h2 h3
  subst h1 h2 h3
  simp [PPath.join]

/-- **C02** The string of a join of two non-empty paths is the two strings with
one slash in between. -/
theorem C02_str (p q : PPath) (hp : Canonical p) (hq : Canonical q)
    (hp0 : p.len ≠ 0) (hq0 : q.len ≠ 0) :
    (p.join q).str = p.str ++ '/' :: q.str := by
  obtain ⟨pr, pc⟩ := p
  obtain ⟨qr, qc⟩ := q
  obtain ⟨h1, h2⟩ := hp
  obtain ⟨h3, h4⟩ := hq
  simp only at h1 h2 h3 h4
  subst h1 h3
  have hj : PPath.join ⟨[], pc⟩ ⟨[], qc⟩ = ⟨[], pc ++ qc⟩ := by simp [PPath.join]
  rw [hj, str_rel h2, str_rel h4, str_rel (by
    intro c hc
    rcases List.mem_append.mp hc with hc | hc
    · exact h2 c hc
    · exact h4 c hc)]
  simp [PPath.len, PPath.parts] at hp0 hq0
  have key : ∀ (pc : List Str), pc ≠ [] → joinWith '/' (pc ++ qc)
      = joinWith '/' pc ++ '/' :: joinWith '/' qc := by
    intro pc
    induction pc with
    | nil => intro h; exact absurd rfl h
    | cons a pc ih =>
      intro _
      cases pc with
      | nil =>
        cases qc with
        | nil => exact absurd rfl hq0
        | cons b qc => simp [joinWith]
      | cons b pc =>
        have := ih (by simp)
        simp only [List.cons_append] at this ⊢
        simp [joinWith, this]
  exact key pc hp0

/-! Concrete cases: hypotheses are met by non-trivial paths. -/

example : metadataPath [c!"//a/./b//..//c/"] = ⟨[], [c!"a", c!"b", c!"..", c!"c"]⟩ := by decide
example : metadataPath [c!"x", c!"/a", c!"b"] = ⟨[], [c!"a", c!"b"]⟩ := by decide
example : metadataPath [c!"a\\b"] = ⟨[], [c!"a\\b"]⟩ := by decide
example : Canonical ⟨[], [c!"a", c!".."]⟩ ∧ (PPath.len ⟨[], [c!"a", c!".."]⟩) ≠ 0 := by decide
example : (metadataPath [c!"."]).str = [] ∧ (metadataPath [c!"/"]).str = [] := by decide

end MM
