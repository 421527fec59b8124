/-
`uuid.UUID` as text: `str(uuid)` and `UUID(text)`.
-/
import Verif.JsonText

namespace MM

/-- A 128 bit identifier -/
abbrev Uuid := Fin (2 ^ 128)

/-- `'%0wx' % n`: `w` lower-case hexadecimal digits. -/
def hexN : Nat → Nat → Str
  | 0, _ => []
  | w + 1, n => hexN w (n / 16) ++ [Nat.digitChar (n % 16)]

/-- `UUID.__str__`: groups of 8, 4, 4, 4 and 12 digits. -/
def Uuid.str (u : Uuid) : Str :=
  let h := hexN 32 u.val
  h.take 8 ++ '-' :: ((h.drop 8).take 4 ++ '-' :: ((h.drop 12).take 4 ++ '-' ::
    ((h.drop 16).take 4 ++ '-' :: h.drop 20)))

/-- `int(s, 16)` for a string of hexadecimal digits -/
def hexRead : Str → Nat → Option Nat
  | [], acc => some acc
  | c :: s, acc => match hexVal c with
    | some d => hexRead s (acc * 16 + d)
    | none => none

/-- `UUID(text)` (`uuid.py`, `__init__` with `hex`).  The removal of the prefixes
`urn:` and `uuid:` is left out; forms that only `int` accepts, such as
underscores, give an error here. -/
def Uuid.parse (s : Str) : Except PyErr Uuid :=
  let h := s.filter (fun c => c ≠ '-' && c ≠ '{' && c ≠ '}')
  if h.length ≠ 32 then .error .value
  else match hexRead h 0 with
    | some n => if hn : n < 2 ^ 128 then .ok ⟨n, hn⟩ else .error .value
    | none => .error .value

theorem length_hexN (w n : Nat) : (hexN w n).length = w := by
  induction w generalizing n with
  | zero => rfl
  | succ w ih => simp [hexN, ih]

theorem hexRead_append (s t : Str) (acc : Nat) :
    hexRead (s ++ t) acc = (hexRead s acc).bind (hexRead t) := by
  induction s generalizing acc with
  | nil => rfl
  | cons c s ih =>
    simp only [List.cons_append, hexRead]
    split
    · exact ih _
    · rfl

theorem hexRead_hexN (w n : Nat) (h : n < 16 ^ w) : hexRead (hexN w n) 0 = some n := by
  induction w generalizing n with
  | zero => simp at h; subst h; rfl
  | succ w ih =>
    have h1 : n / 16 < 16 ^ w := by
      rw [Nat.pow_succ] at h
      exact Nat.div_lt_of_lt_mul (by omega)
    rw [hexN, hexRead_append, ih _ h1]
    simp only [Option.bind_some, hexRead, hexVal_digitChar _ (Nat.mod_lt n (by omega : 0 < 16))]
    congr 1
    omega

theorem hexN_digits (w n : Nat) : ∀ c ∈ hexN w n, c ≠ '-' ∧ c ≠ '{' ∧ c ≠ '}' ∧ c ≠ '/' := by
  induction w generalizing n with
  | zero => simp [hexN]
  | succ w ih =>
    intro c hc
    simp only [hexN, List.mem_append, List.mem_cons, List.not_mem_nil, or_false] at hc
    rcases hc with hc | rfl
    · exact ih _ c hc
    · have : ∀ d, d < 16 → Nat.digitChar d ≠ '-' ∧ Nat.digitChar d ≠ '{' ∧ Nat.digitChar d ≠ '}' ∧
          Nat.digitChar d ≠ '/' := by decide
      exact this _ (Nat.mod_lt _ (by omega))

theorem filter_str (u : Uuid) :
    u.str.filter (fun c => c ≠ '-' && c ≠ '{' && c ≠ '}') = hexN 32 u.val := by
  have hd := hexN_digits 32 u.val
  unfold Uuid.str
  simp only
  generalize hexN 32 u.val = h at hd
  have keep : ∀ l : Str, (∀ c ∈ l, c ∈ h) →
      l.filter (fun c => c ≠ '-' && c ≠ '{' && c ≠ '}') = l := by
    intro l hl
    rw [List.filter_eq_self]
    intro c hc
    have := hd c (hl c hc)
    simp [this.1, this.2.1, this.2.2.1]
  have hs : ∀ l : Str, ('-' :: l).filter (fun c => c ≠ '-' && c ≠ '{' && c ≠ '}') =
      l.filter (fun c => c ≠ '-' && c ≠ '{' && c ≠ '}') := by
    intro l; rw [List.filter_cons_of_neg (by decide)]
  rw [List.filter_append, hs, List.filter_append, hs, List.filter_append, hs, List.filter_append,
    hs, keep _ (fun c hc => List.mem_of_mem_take hc),
    keep _ (fun c hc => List.mem_of_mem_drop (List.mem_of_mem_take hc)),
    keep _ (fun c hc => List.mem_of_mem_drop (List.mem_of_mem_take hc)),
    keep _ (fun c hc => List.mem_of_mem_drop (List.mem_of_mem_take hc)),
    keep _ (fun c hc => List.mem_of_mem_drop hc)]
  have e1 : h.drop 16 = (h.drop 12).drop 4 := by rw [List.drop_drop]
  have e2 : h.drop 20 = (h.drop 16).drop 4 := by rw [List.drop_drop]
  have e3 : h.drop 12 = (h.drop 8).drop 4 := by rw [List.drop_drop]
  rw [e2, List.take_append_drop, e1, List.take_append_drop, e3, List.take_append_drop,
    List.take_append_drop]

theorem Uuid.parse_str (u : Uuid) : Uuid.parse u.str = .ok u := by
  unfold Uuid.parse
  simp only [filter_str, length_hexN]
  rw [if_neg (by simp), hexRead_hexN 32 u.val (by
    have h := u.isLt
    have : (16 : Nat) ^ 32 = 2 ^ 128 := by decide
    exact Nat.lt_of_lt_of_eq h this.symm)]
  simp

theorem Uuid.str_injective {u v : Uuid} (h : u.str = v.str) : u = v := by
  have h1 := Uuid.parse_str u
  rw [h, Uuid.parse_str v] at h1
  exact (Except.ok.inj h1).symm

end MM
