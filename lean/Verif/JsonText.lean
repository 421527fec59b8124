/-
JSON text: `json.dumps`, `json.loads` of the Python standard library, and the
line based channel through which text is read from git.
-/
import Verif.Json

namespace MM

/-! ### Lines -/

/-- The characters at which `str.splitlines` splits. -/
def isLineSep (c : Char) : Bool :=
  c == '\n' || c == '\r' || c == '\x0b' || c == '\x0c' || c == '\x1c' || c == '\x1d' ||
  c == '\x1e' || c == '\u0085' || c == '\u2028' || c == '\u2029'

/-- `str.splitlines` with the current line in reverse in `acc`. -/
def splitlinesGo : Str → Str → List Str
  | [], [] => []
  | [], acc => [acc.reverse]
  | '\r' :: '\n' :: s, acc => acc.reverse :: splitlinesGo s []
  | c :: s, acc => if isLineSep c then acc.reverse :: splitlinesGo s [] else splitlinesGo s (c :: acc)

/-- `str.splitlines()` -/
def splitlines (s : Str) : List Str := splitlinesGo s []

/-- What `git_load_str` returns for a blob with text `s`: `checked_execute`
(gitbackend/subprocess.py 32-50) splits the output into lines and
`git_text_result` (67-69) joins them with newlines.  Decoding errors are not
modelled: blobs hold valid UTF-8. -/
def gitText (s : Str) : Str := joinWith '\n' (splitlines s)

theorem splitlinesGo_of_no_sep : ∀ (s acc : Str), (∀ c ∈ s, isLineSep c = false) →
    splitlinesGo s acc = if acc = [] ∧ s = [] then [] else [acc.reverse ++ s] := by
  intro s
  induction s with
  | nil =>
    intro acc _
    cases acc <;> simp [splitlinesGo]
  | cons c s ih =>
    intro acc h
    have hc : isLineSep c = false := h c (by simp)
    have hr : c ≠ '\r' := by
      rintro rfl; simp [isLineSep] at hc
    unfold splitlinesGo
    split
    · simp_all
    · simp_all
    · simp_all
    · rename_i c' s' acc' h1 heq
      cases heq
      rw [if_neg (by simp [hc]), ih _ (fun x hx => h x (by simp [hx]))]
      simp

theorem gitText_of_no_sep {s : Str} (h : ∀ c ∈ s, isLineSep c = false) : gitText s = s := by
  unfold gitText splitlines
  rw [splitlinesGo_of_no_sep s [] h]
  by_cases e : s = [] <;> simp [e, joinWith]

/-- Text with newlines as its only line separators, and none at the end, passes
through the channel unchanged. -/
theorem splitlinesGo_newline : ∀ (s acc : Str), (∀ c ∈ s, isLineSep c = true → c = '\n') →
    s.getLast? ≠ some '\n' →
    joinWith '\n' (splitlinesGo s acc) = acc.reverse ++ s ∧ (s ≠ [] → splitlinesGo s acc ≠ []) := by
  intro s
  induction s with
  | nil => intro acc _ _; cases acc <;> simp [splitlinesGo, joinWith]
  | cons c s ih =>
    intro acc h hl
    have hr : c ≠ '\r' := by
      rintro rfl
      exact absurd (h '\r' (by simp) (by decide)) (by decide)
    have hs : ∀ x ∈ s, isLineSep x = true → x = '\n' := fun x hx => h x (by simp [hx])
    have hstep : splitlinesGo (c :: s) acc =
        if isLineSep c then acc.reverse :: splitlinesGo s [] else splitlinesGo s (c :: acc) := by
      rw [splitlinesGo]
      intro s' e1 _
      exact hr e1
    rw [hstep]
    cases hc : isLineSep c with
    | true =>
      have hn := h c (by simp) hc
      subst hn
      have hsne : s ≠ [] := by rintro rfl; simp at hl
      have hl' : s.getLast? ≠ some '\n' := by
        cases s with
        | nil => exact absurd rfl hsne
        | cons a s => simpa [List.getLast?_cons_cons] using hl
      obtain ⟨h1, h2⟩ := ih [] hs hl'
      have h2 := h2 hsne
      simp only [if_true]
      cases hg : splitlinesGo s [] with
      | nil => exact absurd hg h2
      | cons p ps =>
        rw [hg] at h1
        simp [joinWith, h1]
    | false =>
      have hl' : s.getLast? ≠ some '\n' := by
        cases s with
        | nil => simp
        | cons a s => simpa [List.getLast?_cons_cons] using hl
      obtain ⟨h1, h2⟩ := ih (c :: acc) hs hl'
      simp only [Bool.false_eq_true, if_false]
      refine ⟨by rw [h1]; simp, fun _ => ?_⟩
      cases s with
      | nil => simp [splitlinesGo]
      | cons a s => exact h2 (by simp)

/-- Lines never hold a separator. -/
theorem splitlinesGo_no_sep : ∀ (n : Nat) (s acc : Str), s.length ≤ n →
    (∀ c ∈ acc, isLineSep c = false) →
    ∀ l ∈ splitlinesGo s acc, ∀ c ∈ l, isLineSep c = false := by
  intro n
  induction n with
  | zero =>
    intro s acc hs ha
    have : s = [] := by simpa using hs
    subst this
    cases acc with
    | nil => simp [splitlinesGo]
    | cons a acc =>
      intro l hl
      simp [splitlinesGo] at hl
      subst hl
      intro c hc
      simp at hc
      exact ha c (by simp; exact hc.symm)
  | succ n ih =>
    intro s acc hs ha l hl
    unfold splitlinesGo at hl
    split at hl
    · simp at hl
    · simp at hl
      subst hl
      intro c hc
      exact ha c (by simpa using hc)
    · rename_i s'
      rcases List.mem_cons.mp hl with rfl | hl
      · intro c hc; exact ha c (by simpa using hc)
      · exact ih s' [] (by simp at hs; omega) (by simp) l hl
    · rename_i acc' c s' _
      split at hl
      · rcases List.mem_cons.mp hl with rfl | hl
        · intro c hc; exact ha c (by simpa using hc)
        · exact ih s' [] (by simpa using hs) (by simp) l hl
      · rename_i hc
        exact ih s' (c :: acc) (by simpa using hs) (by
          intro x hx
          rcases List.mem_cons.mp hx with rfl | hx
          · simpa using hc
          · exact ha x hx) l hl

theorem mem_joinWith {sep : Char} {ls : List Str} {c : Char} (h : c ∈ joinWith sep ls) :
    c = sep ∨ ∃ l ∈ ls, c ∈ l := by
  induction ls with
  | nil => simp [joinWith] at h
  | cons l ls ih =>
    cases ls with
    | nil => exact Or.inr ⟨l, by simp, by simpa [joinWith] using h⟩
    | cons m ls =>
      simp only [joinWith, List.mem_append, List.mem_cons] at h
      rcases h with h | h | h
      · exact Or.inr ⟨l, by simp, h⟩
      · exact Or.inl h
      · rcases ih h with h | ⟨x, hx, hc⟩
        · exact Or.inl h
        · exact Or.inr ⟨x, List.mem_cons_of_mem _ hx, hc⟩

/-- What comes out of the channel has newlines as its only line separators. -/
theorem gitText_sep (s : Str) : ∀ c ∈ gitText s, isLineSep c = true → c = '\n' := by
  intro c hc hsep
  rcases mem_joinWith hc with h | ⟨l, hl, hc⟩
  · exact h
  · have := splitlinesGo_no_sep s.length s [] (by omega) (by simp) l hl c hc
    rw [hsep] at this
    cases this

theorem gitText_newline {s : Str} (h : ∀ c ∈ s, isLineSep c = true → c = '\n')
    (hl : s.getLast? ≠ some '\n') : gitText s = s := by
  unfold gitText splitlines
  simpa using (splitlinesGo_newline s [] h hl).1

/-- A trailing newline is lost. -/
theorem gitText_trailing {s : Str} (h : ∀ c ∈ s, isLineSep c = true → c = '\n') :
    gitText (s ++ ['\n']) ≠ s ++ ['\n'] := by
  intro he
  -- with every `splitlines` the text `t ++ "\n"` gives the lines of `t`, or one empty line
  have key : ∀ (s acc : Str), (∀ c ∈ s, isLineSep c = true → c = '\n') →
      (joinWith '\n' (splitlinesGo (s ++ ['\n']) acc)).length = acc.length + s.length ∧
      splitlinesGo (s ++ ['\n']) acc ≠ [] := by
    intro s
    induction s with
    | nil => intro acc _; simp [splitlinesGo, isLineSep, joinWith]
    | cons c s ih =>
      intro acc h
      have hr : c ≠ '\r' := by
        rintro rfl
        exact absurd (h '\r' (by simp) (by decide)) (by decide)
      have hstep : splitlinesGo (c :: (s ++ ['\n'])) acc =
          if isLineSep c then acc.reverse :: splitlinesGo (s ++ ['\n']) []
          else splitlinesGo (s ++ ['\n']) (c :: acc) := by
        rw [splitlinesGo]
        intro s' e1 _
        exact hr e1
      rw [List.cons_append, hstep]
      cases hc : isLineSep c with
      | true =>
        obtain ⟨h1, h2⟩ := ih [] (fun x hx => h x (by simp [hx]))
        simp only [if_true]
        cases hg : splitlinesGo (s ++ ['\n']) [] with
        | nil => exact absurd hg h2
        | cons p ps =>
          rw [hg] at h1
          simp only [joinWith, List.length_append, List.length_reverse, List.length_cons]
          simp at h1
          refine ⟨by omega, by simp⟩
      | false =>
        obtain ⟨h1, h2⟩ := ih (c :: acc) (fun x hx => h x (by simp [hx]))
        simp only [Bool.false_eq_true, if_false]
        simp at h1 ⊢
        exact ⟨by omega, h2⟩
  have := congrArg List.length he
  unfold gitText splitlines at this
  rw [(key s [] h).1] at this
  simp at this

/-! ### Writing -/

/-- `'{0:04x}'.format(n)` for `n < 65536` -/
def hex4 (n : Nat) : Str :=
  [Nat.digitChar (n / 4096 % 16), Nat.digitChar (n / 256 % 16), Nat.digitChar (n / 16 % 16),
   Nat.digitChar (n % 16)]

/-- `json.encoder.py_encode_basestring_ascii`: the text for one character. -/
def escChar (c : Char) : Str :=
  if c = '"' then ['\\', '"']
  else if c = '\\' then ['\\', '\\']
  else if c = '\n' then ['\\', 'n']
  else if c = '\r' then ['\\', 'r']
  else if c = '\t' then ['\\', 't']
  else if c = '\x0c' then ['\\', 'f']
  else if c = '\x08' then ['\\', 'b']
  else if 0x20 ≤ c.toNat ∧ c.toNat ≤ 0x7e then [c]
  else if c.toNat < 0x10000 then '\\' :: 'u' :: hex4 c.toNat
  else '\\' :: 'u' :: hex4 (0xd800 + (c.toNat - 0x10000) / 0x400) ++
    '\\' :: 'u' :: hex4 (0xdc00 + (c.toNat - 0x10000) % 0x400)

/-- A JSON string literal -/
def dumpStr (s : Str) : Str := '"' :: s.flatMap escChar ++ ['"']

/-- `int.__repr__` -/
def intText (i : Int) : Str :=
  if i < 0 then '-' :: Nat.toDigits 10 i.natAbs else Nat.toDigits 10 i.natAbs

/-- A float literal of JSON: sign, integer part, fraction, exponent, with at
least one of the last two. -/
def IsFloatTok (s : Str) : Prop :=
  ∃ sg ip fr ex : Str, s = sg ++ (ip ++ (fr ++ ex)) ∧ (sg = [] ∨ sg = ['-']) ∧
    (ip = ['0'] ∨ (ip ≠ [] ∧ ip.head? ≠ some '0' ∧ ∀ c ∈ ip, c.isDigit = true)) ∧
    (fr = [] ∨ ∃ ds, fr = '.' :: ds ∧ ds ≠ [] ∧ ∀ c ∈ ds, c.isDigit = true) ∧
    (ex = [] ∨ ∃ e es ds, ex = e :: (es ++ ds) ∧ (e = 'e' ∨ e = 'E') ∧
      (es = [] ∨ es = ['+'] ∨ es = ['-']) ∧ ds ≠ [] ∧ ∀ c ∈ ds, c.isDigit = true) ∧
    (fr ≠ [] ∨ ex ≠ [])

/-- What is assumed about `float.__repr__` and `float(str)`: the text of a float
is a JSON float literal and reading it gives the float back (documented
behaviour of Python since 3.1). -/
structure FloatText where
  repr : Flt → Str
  parse : Str → Option Flt
  parse_repr : ∀ f, parse (repr f) = some f
  shape : ∀ f, IsFloatTok (repr f)

mutual
/-- `json.dumps(j)` with default arguments. -/
def dumps (T : FloatText) : Json → Str
  | .null => c!"null"
  | .bool true => c!"true"
  | .bool false => c!"false"
  | .int i => intText i
  | .flt f => T.repr f
  | .str s => dumpStr s
  | .arr l => '[' :: dumpsArr T l
  | .obj l => '{' :: dumpsObj T l
/-- The elements of a list and the closing bracket. -/
def dumpsArr (T : FloatText) : List Json → Str
  | [] => [']']
  | [a] => dumps T a ++ [']']
  | a :: b :: l => dumps T a ++ ',' :: ' ' :: dumpsArr T (b :: l)
/-- The items of a dictionary and the closing brace. -/
def dumpsObj (T : FloatText) : List (Str × Json) → Str
  | [] => ['}']
  | [(k, a)] => dumpStr k ++ ':' :: ' ' :: (dumps T a ++ ['}'])
  | (k, a) :: p :: l => dumpStr k ++ ':' :: ' ' :: (dumps T a ++ ',' :: ' ' :: dumpsObj T (p :: l))
end

/-! ### Reading -/

/-- The value of a hexadecimal digit. -/
def hexVal (c : Char) : Option Nat :=
  if '0' ≤ c ∧ c ≤ '9' then some (c.toNat - 48)
  else if 'a' ≤ c ∧ c ≤ 'f' then some (c.toNat - 87)
  else if 'A' ≤ c ∧ c ≤ 'F' then some (c.toNat - 55)
  else none

/-- Four hexadecimal digits. -/
def readHex4 : Str → Option (Nat × Str)
  | a :: b :: c :: d :: r => do
    let a ← hexVal a
    let b ← hexVal b
    let c ← hexVal c
    let d ← hexVal d
    some (a * 4096 + b * 256 + c * 16 + d, r)
  | _ => none

/-- `chr(n)` where `n` is not a surrogate. -/
def chr? (n : Nat) : Option Char :=
  if h : n.isValidChar then some (Char.ofNatAux n h) else none

/-- One character of a string literal (`json.decoder.py_scanstring`).  Lone
surrogates, which Python would accept, are not modelled and give `none`. -/
def readChar : Str → Option (Char × Str)
  | '\\' :: 'u' :: r => do
    let (n, r) ← readHex4 r
    if 0xd800 ≤ n ∧ n ≤ 0xdbff then
      match r with
      | '\\' :: 'u' :: r => do
        let (m, r) ← readHex4 r
        if 0xdc00 ≤ m ∧ m ≤ 0xdfff then
          let c ← chr? (0x10000 + ((n - 0xd800) * 0x400 + (m - 0xdc00)))
          some (c, r)
        else none
      | _ => none
    else
      let c ← chr? n
      some (c, r)
  | '\\' :: e :: r =>
    if e = '"' then some ('"', r)
    else if e = '\\' then some ('\\', r)
    else if e = '/' then some ('/', r)
    else if e = 'b' then some ('\x08', r)
    else if e = 'f' then some ('\x0c', r)
    else if e = 'n' then some ('\n', r)
    else if e = 'r' then some ('\r', r)
    else if e = 't' then some ('\t', r)
    else none
  | '\\' :: [] => none
  | c :: r => if c.toNat < 0x20 then none else some (c, r)
  | [] => none

/-- A string literal after its opening quote; `n` bounds the number of characters. -/
def readStr : Nat → Str → Option (Str × Str)
  | 0, _ => none
  | _ + 1, '"' :: r => some ([], r)
  | n + 1, s => do
    let (c, r) ← readChar s
    let (t, r) ← readStr n r
    some (c :: t, r)

/-- The JSON white space. -/
def isWs (c : Char) : Bool := c == ' ' || c == '\t' || c == '\n' || c == '\r'

def skipWs (s : Str) : Str := s.dropWhile isWs

/-- A leading minus sign. -/
def scanSign : Str → Str × Str
  | '-' :: r => (['-'], r)
  | s => ([], s)

/-- Integer part of `NUMBER_RE` in `json.scanner`: `0|[1-9]\d*` -/
def scanIp : Str → Option (Str × Str)
  | '0' :: r => some (['0'], r)
  | c :: r => if c.isDigit then some ((c :: r).takeWhile Char.isDigit, (c :: r).dropWhile Char.isDigit)
    else none
  | [] => none

/-- Fraction of `NUMBER_RE`: `(\.\d+)?` -/
def scanFr : Str → Str × Str
  | '.' :: r =>
    if r.takeWhile Char.isDigit = [] then ([], '.' :: r)
    else ('.' :: r.takeWhile Char.isDigit, r.dropWhile Char.isDigit)
  | s => ([], s)

/-- The sign of an exponent. -/
def scanExSign : Str → Str × Str
  | '-' :: r => (['-'], r)
  | '+' :: r => (['+'], r)
  | s => ([], s)

/-- Exponent of `NUMBER_RE`: `([eE][-+]?\d+)?` -/
def scanEx : Str → Str × Str
  | e :: r =>
    if e = 'e' ∨ e = 'E' then
      let (sg, r') := scanExSign r
      if r'.takeWhile Char.isDigit = [] then ([], e :: r)
      else (e :: (sg ++ r'.takeWhile Char.isDigit), r'.dropWhile Char.isDigit)
    else ([], e :: r)
  | [] => ([], [])

/-- A number (`json.scanner.py_make_scanner`).  `NaN` and infinities are not modelled. -/
def readNum (T : FloatText) (s : Str) : Option (Json × Str) := do
  let (sg, s1) := scanSign s
  let (ip, s2) ← scanIp s1
  let (fr, s3) := scanFr s2
  let (ex, s4) := scanEx s3
  if fr = [] ∧ ex = [] then
    let n := Nat.ofDigitChars 10 ip 0
    some (.int (if sg = [] then (n : Int) else - (n : Int)), s4)
  else
    let f ← T.parse (sg ++ (ip ++ (fr ++ ex)))
    some (.flt f, s4)

mutual
/-- A JSON value (`scan_once`).  The first argument bounds the nesting. -/
def readVal (T : FloatText) : Nat → Str → Option (Json × Str)
  | 0, _ => none
  | n + 1, s =>
    match s with
    | '"' :: r => do
      let (t, r) ← readStr r.length r
      some (.str t, r)
    | '{' :: r =>
      match skipWs r with
      | '}' :: r => some (.obj [], r)
      | r => readObj T n [] r
    | '[' :: r =>
      match skipWs r with
      | ']' :: r => some (.arr [], r)
      | r => readArr T n r
    | 'n' :: 'u' :: 'l' :: 'l' :: r => some (.null, r)
    | 't' :: 'r' :: 'u' :: 'e' :: r => some (.bool true, r)
    | 'f' :: 'a' :: 'l' :: 's' :: 'e' :: r => some (.bool false, r)
    | s => readNum T s
/-- The rest of a list (`JSONArray`). -/
def readArr (T : FloatText) : Nat → Str → Option (Json × Str)
  | 0, _ => none
  | n + 1, s => do
    let (a, r) ← readVal T n s
    match skipWs r with
    | ']' :: r => some (.arr [a], r)
    | ',' :: r =>
      match readArr T n (skipWs r) with
      | some (.arr l, r) => some (.arr (a :: l), r)
      | _ => none
    | _ => none
/-- The rest of an object (`JSONObject`); a repeated key gets its last value. -/
def readObj (T : FloatText) : Nat → List (Str × Json) → Str → Option (Json × Str)
  | 0, _, _ => none
  | n + 1, acc, s =>
    match s with
    | '"' :: r => do
      let (k, r) ← readStr r.length r
      match skipWs r with
      | ':' :: r => do
        let (a, r) ← readVal T n (skipWs r)
        match skipWs r with
        | '}' :: r => some (.obj (dset acc k a), r)
        | ',' :: r => readObj T n (dset acc k a) (skipWs r)
        | _ => none
      | _ => none
    | _ => none
end

/-- `json.loads(s)`; `none` stands for any exception.  Python's recursion limit
is not modelled here. -/
def loads (T : FloatText) (s : Str) : Option Json :=
  match readVal T (2 * s.length + 2) (skipWs s) with
  | some (j, r) => if skipWs r = [] then some j else none
  | none => none

/-! ### Round trip -/

theorem hexVal_digitChar : ∀ n, n < 16 → hexVal (Nat.digitChar n) = some n := by
  decide

theorem readHex4_hex4 (n : Nat) (h : n < 65536) (r : Str) : readHex4 (hex4 n ++ r) = some (n, r) := by
  unfold hex4 readHex4
  simp only [List.cons_append, List.nil_append]
  rw [hexVal_digitChar _ (Nat.mod_lt _ (by omega)), hexVal_digitChar _ (Nat.mod_lt _ (by omega)),
    hexVal_digitChar _ (Nat.mod_lt _ (by omega)), hexVal_digitChar _ (Nat.mod_lt _ (by omega))]
  simp only [Option.bind_eq_bind, Option.bind_some]
  congr 2
  omega

theorem chr?_toNat (c : Char) : chr? c.toNat = some c := by
  unfold chr?
  have h : c.toNat.isValidChar := c.valid
  rw [dif_pos h]
  congr 1

theorem readChar_u {s r : Str} {n : Nat} {c : Char} (h : readHex4 s = some (n, r))
    (hn : ¬ (0xd800 ≤ n ∧ n ≤ 0xdbff)) (hc : chr? n = some c) :
    readChar ('\\' :: 'u' :: s) = some (c, r) := by
  simp only [readChar, h, Option.bind_eq_bind, Option.bind_some, if_neg hn, hc]

theorem readChar_pair {s s' r : Str} {n m : Nat} {c : Char}
    (h : readHex4 s = some (n, '\\' :: 'u' :: s')) (h' : readHex4 s' = some (m, r))
    (hn : 0xd800 ≤ n ∧ n ≤ 0xdbff) (hm : 0xdc00 ≤ m ∧ m ≤ 0xdfff)
    (hc : chr? (0x10000 + ((n - 0xd800) * 0x400 + (m - 0xdc00))) = some c) :
    readChar ('\\' :: 'u' :: s) = some (c, r) := by
  simp only [readChar, h, Option.bind_eq_bind, Option.bind_some, if_pos hn, h', if_pos hm, hc]

theorem pair_value (n hi lo : Nat) (h1 : 0x10000 ≤ n) (hhi : hi = 0xd800 + (n - 0x10000) / 0x400)
    (hlo : lo = 0xdc00 + (n - 0x10000) % 0x400) :
    0x10000 + ((hi - 0xd800) * 0x400 + (lo - 0xdc00)) = n := by omega

theorem readChar_escChar (c : Char) (r : Str) : readChar (escChar c ++ r) = some (c, r) := by
  unfold escChar
  have hv : c.toNat.isValidChar := c.valid
  have hlt : c.toNat < 0x110000 := by
    simp only [Nat.isValidChar] at hv; omega
  split
  · subst c; simp [readChar]
  split
  · subst c; simp [readChar]
  split
  · subst c; simp [readChar]
  split
  · subst c; simp [readChar]
  split
  · subst c; simp [readChar]
  split
  · subst c; simp [readChar]
  split
  · subst c; simp [readChar]
  split
  · rename_i h1 h2 h3 h4 h5 h6 h7 h8
    simp only [List.cons_append, List.nil_append]
    unfold readChar
    split
    · rename_i heq; cases heq; simp at h2
    · rename_i heq; cases heq; simp at h2
    · rename_i heq; cases heq; simp at h2
    · rename_i heq; cases heq
      rw [if_neg (by omega)]
    · rename_i heq; cases heq
  split
  · rename_i h8 h9
    simp only [List.cons_append]
    exact readChar_u (readHex4_hex4 _ (by omega) r)
      (by simp only [Nat.isValidChar] at hv; omega) (chr?_toNat c)
  · rename_i h8 h9
    simp only [List.cons_append, List.append_assoc]
    generalize hhi : 0xd800 + (c.toNat - 0x10000) / 0x400 = hi
    generalize hlo : 0xdc00 + (c.toNat - 0x10000) % 0x400 = lo
    refine readChar_pair (readHex4_hex4 _ (by omega) _) (readHex4_hex4 _ (by omega) r)
      (by omega) (by omega) ?_
    rw [pair_value c.toNat hi lo (by omega) hhi.symm hlo.symm]
    exact chr?_toNat c

theorem escChar_ne_nil (c : Char) : escChar c ≠ [] := by
  unfold escChar
  repeat' split
  all_goals simp

theorem escChar_head (c : Char) : (escChar c).head? ≠ some '"' := by
  unfold escChar
  repeat' split
  all_goals simp_all

theorem readStr_step {n : Nat} {s : Str} (h : s.head? ≠ some '"') :
    readStr (n + 1) s = (do
      let (c, r) ← readChar s
      let (t, r) ← readStr n r
      some (c :: t, r)) := by
  rw [readStr]
  intro r heq
  subst heq
  simp at h

theorem readStr_dump : ∀ (s r : Str) (n : Nat), s.length < n →
    readStr n (s.flatMap escChar ++ '"' :: r) = some (s, r) := by
  intro s
  induction s with
  | nil =>
    intro r n hn
    cases n with
    | zero => omega
    | succ n => simp [readStr]
  | cons c s ih =>
    intro r n hn
    cases n with
    | zero => omega
    | succ n =>
      simp only [List.flatMap_cons, List.append_assoc]
      rw [readStr_step, readChar_escChar]
      · simp only [Option.bind_eq_bind, Option.bind_some]
        rw [ih r n (by simpa using hn)]
        rfl
      · have h1 := escChar_head c
        have h2 := escChar_ne_nil c
        cases he : escChar c with
        | nil => exact absurd he h2
        | cons a t => rw [he] at h1; simpa using h1

theorem length_flatMap_escChar (s : Str) : s.length ≤ (s.flatMap escChar).length := by
  induction s with
  | nil => simp
  | cons c s ih =>
    have := List.length_pos_iff.mpr (escChar_ne_nil c)
    simp only [List.flatMap_cons, List.length_append, List.length_cons]
    omega

theorem readStr_dumpStr (s r : Str) :
    readStr (s.flatMap escChar ++ '"' :: r).length (s.flatMap escChar ++ '"' :: r) = some (s, r) := by
  apply readStr_dump
  have := length_flatMap_escChar s
  simp only [List.length_append, List.length_cons]
  omega

/-- The text after a number does not continue the number. -/
def NumEnd (r : Str) : Prop :=
  ∀ c, r.head? = some c → c.isDigit = false ∧ c ≠ '.' ∧ c ≠ 'e' ∧ c ≠ 'E'

theorem takeWhile_digits {ds r : Str} (h : ∀ c ∈ ds, c.isDigit = true)
    (hr : ∀ c, r.head? = some c → c.isDigit = false) :
    (ds ++ r).takeWhile Char.isDigit = ds ∧ (ds ++ r).dropWhile Char.isDigit = r := by
  induction ds with
  | nil =>
    cases r with
    | nil => simp
    | cons c r => have := hr c rfl; simp [this]
  | cons d ds ih =>
    have h1 := h d (by simp)
    have := ih (fun c hc => h c (by simp [hc]))
    simp [h1, this]

theorem scanSign_of_ne {s : Str} (h : s.head? ≠ some '-') : scanSign s = ([], s) := by
  unfold scanSign
  split
  · simp at h
  · rfl

theorem scanFr_of_ne {s : Str} (h : s.head? ≠ some '.') : scanFr s = ([], s) := by
  unfold scanFr
  split
  · simp at h
  · rfl

theorem scanEx_of_ne {s : Str} (h : s.head? ≠ some 'e') (h' : s.head? ≠ some 'E') :
    scanEx s = ([], s) := by
  unfold scanEx
  split
  · rename_i e r
    simp at h h'
    simp [h, h']
  · rfl

theorem scanIp_ok {ip r : Str}
    (h : ip = ['0'] ∨ (ip ≠ [] ∧ ip.head? ≠ some '0' ∧ ∀ c ∈ ip, c.isDigit = true))
    (hr : ∀ c, r.head? = some c → c.isDigit = false) : scanIp (ip ++ r) = some (ip, r) := by
  rcases h with rfl | ⟨h1, h2, h3⟩
  · simp [scanIp]
  · cases ip with
    | nil => exact absurd rfl h1
    | cons c ip =>
      have hc : c ≠ '0' := by simpa using h2
      have hd := h3 c (by simp)
      have ht := takeWhile_digits h3 hr
      rw [List.cons_append] at ht ⊢
      unfold scanIp
      split
      · rename_i heq; cases heq; exact absurd rfl hc
      · rename_i heq; cases heq
        rw [if_pos hd, ht.1, ht.2]
      · rename_i heq; cases heq

theorem scanExSign_ok {es ds r : Str} (h : es = [] ∨ es = ['+'] ∨ es = ['-'])
    (hd : ∀ c ∈ ds, c.isDigit = true) (hne : ds ≠ []) :
    scanExSign (es ++ (ds ++ r)) = (es, ds ++ r) := by
  cases ds with
  | nil => exact absurd rfl hne
  | cons d ds =>
    have h1 := hd d (by simp)
    have n1 : d ≠ '-' := by rintro rfl; simp [Char.isDigit] at h1
    have n2 : d ≠ '+' := by rintro rfl; simp [Char.isDigit] at h1
    rcases h with rfl | rfl | rfl
    · simp only [List.nil_append, List.cons_append]
      unfold scanExSign
      split
      · rename_i heq; cases heq; exact absurd rfl n1
      · rename_i heq; cases heq; exact absurd rfl n2
      · rfl
    · rfl
    · rfl

/-- Scanning a number followed by something else. -/
theorem scan_parts {sg ip fr ex r : Str} (hs : sg = [] ∨ sg = ['-'])
    (hip : ip = ['0'] ∨ (ip ≠ [] ∧ ip.head? ≠ some '0' ∧ ∀ c ∈ ip, c.isDigit = true))
    (hfr : fr = [] ∨ ∃ ds, fr = '.' :: ds ∧ ds ≠ [] ∧ ∀ c ∈ ds, c.isDigit = true)
    (hex : ex = [] ∨ ∃ e es ds, ex = e :: (es ++ ds) ∧ (e = 'e' ∨ e = 'E') ∧
      (es = [] ∨ es = ['+'] ∨ es = ['-']) ∧ ds ≠ [] ∧ ∀ c ∈ ds, c.isDigit = true)
    (hr : NumEnd r) :
    scanSign (sg ++ (ip ++ (fr ++ (ex ++ r)))) = (sg, ip ++ (fr ++ (ex ++ r))) ∧
    scanIp (ip ++ (fr ++ (ex ++ r))) = some (ip, fr ++ (ex ++ r)) ∧
    scanFr (fr ++ (ex ++ r)) = (fr, ex ++ r) ∧ scanEx (ex ++ r) = (ex, r) := by
  have hexr : ∀ c, (ex ++ r).head? = some c → c.isDigit = false ∧ c ≠ '.' := by
    rcases hex with rfl | ⟨e, es, ds, rfl, he, _⟩
    · intro c hc; exact ⟨(hr c hc).1, (hr c hc).2.1⟩
    · intro c hc
      simp at hc; subst hc
      rcases he with rfl | rfl <;> decide
  have hfrr : ∀ c, (fr ++ (ex ++ r)).head? = some c → c.isDigit = false := by
    rcases hfr with rfl | ⟨ds, rfl, _⟩
    · intro c hc; exact (hexr c hc).1
    · intro c hc
      simp at hc; subst hc; decide
  have h1 : scanSign (sg ++ (ip ++ (fr ++ (ex ++ r)))) = (sg, ip ++ (fr ++ (ex ++ r))) := by
    rcases hs with rfl | rfl
    · apply scanSign_of_ne
      rcases hip with rfl | ⟨hne, _, hd⟩
      · simp
      · cases ip with
        | nil => exact absurd rfl hne
        | cons c ip =>
          have := hd c (by simp)
          simp
          rintro rfl
          simp [Char.isDigit] at this
    · rfl
  have h2 : scanIp (ip ++ (fr ++ (ex ++ r))) = some (ip, fr ++ (ex ++ r)) := scanIp_ok hip hfrr
  have h3 : scanFr (fr ++ (ex ++ r)) = (fr, ex ++ r) := by
    rcases hfr with rfl | ⟨ds, rfl, hne, hd⟩
    · apply scanFr_of_ne
      intro hc
      exact (hexr '.' (by simpa using hc)).2 rfl
    · have := takeWhile_digits hd (fun c hc => (hexr c hc).1)
      simp only [scanFr, List.cons_append, this.1, this.2, if_neg hne]
  have h4 : scanEx (ex ++ r) = (ex, r) := by
    rcases hex with rfl | ⟨e, es, ds, rfl, he, hes, hne, hd⟩
    · apply scanEx_of_ne
      · intro hc; exact (hr 'e' (by simpa using hc)).2.2.1 rfl
      · intro hc; exact (hr 'E' (by simpa using hc)).2.2.2 rfl
    · have ht := takeWhile_digits hd (fun c hc => (hr c hc).1)
      have hsg := scanExSign_ok (r := r) hes hd hne
      simp only [scanEx, List.cons_append, List.append_assoc, if_pos he, hsg, ht.1, ht.2,
        if_neg hne]
  exact ⟨h1, h2, h3, h4⟩

theorem readNum_scan (T : FloatText) {sg ip fr ex r : Str} (hs : sg = [] ∨ sg = ['-'])
    (hip : ip = ['0'] ∨ (ip ≠ [] ∧ ip.head? ≠ some '0' ∧ ∀ c ∈ ip, c.isDigit = true))
    (hfr : fr = [] ∨ ∃ ds, fr = '.' :: ds ∧ ds ≠ [] ∧ ∀ c ∈ ds, c.isDigit = true)
    (hex : ex = [] ∨ ∃ e es ds, ex = e :: (es ++ ds) ∧ (e = 'e' ∨ e = 'E') ∧
      (es = [] ∨ es = ['+'] ∨ es = ['-']) ∧ ds ≠ [] ∧ ∀ c ∈ ds, c.isDigit = true)
    (hr : NumEnd r) :
    readNum T (sg ++ (ip ++ (fr ++ (ex ++ r)))) =
      (if fr = [] ∧ ex = [] then
        some (.int (if sg = [] then ((Nat.ofDigitChars 10 ip 0 : Nat) : Int)
          else - ((Nat.ofDigitChars 10 ip 0 : Nat) : Int)), r)
      else (T.parse (sg ++ (ip ++ (fr ++ ex)))).bind (fun f => some (.flt f, r))) := by
  obtain ⟨h1, h2, h3, h4⟩ := scan_parts hs hip hfr hex hr
  unfold readNum
  rw [h1]
  simp only [h2, Option.bind_eq_bind, Option.bind_some, h3, h4]

theorem toDigits_ip (n : Nat) : Nat.toDigits 10 n = ['0'] ∨ (Nat.toDigits 10 n ≠ [] ∧
    (Nat.toDigits 10 n).head? ≠ some '0' ∧ ∀ c ∈ Nat.toDigits 10 n, c.isDigit = true) := by
  by_cases h0 : n = 0
  · subst h0; left; simp [Nat.toDigits_zero]
  · right
    refine ⟨Nat.toDigits_ne_nil, ?_, fun c hc => Nat.isDigit_of_mem_toDigits (by omega) (by omega) hc⟩
    have key : ∀ n, n ≠ 0 → (Nat.toDigits 10 n).head? ≠ some '0' := by
      intro n
      induction n using Nat.strongRecOn with
      | ind n ih =>
        intro hn
        by_cases hlt : n < 10
        · rw [Nat.toDigits_of_lt_base hlt]
          have : ∀ n, n < 10 → n ≠ 0 → some (Nat.digitChar n) ≠ some '0' := by decide
          exact this n hlt hn
        · rw [Nat.toDigits_of_base_le (by omega) (by omega)]
          have hq : n / 10 ≠ 0 := by omega
          have := ih (n / 10) (by omega) hq
          cases hd : Nat.toDigits 10 (n / 10) with
          | nil => exact absurd hd Nat.toDigits_ne_nil
          | cons a t => rw [hd] at this; simpa using this
    exact key n h0

theorem readNum_int (T : FloatText) (i : Int) (r : Str) (hr : NumEnd r) :
    readNum T (intText i ++ r) = some (.int i, r) := by
  unfold intText
  split
  · rename_i h
    have := readNum_scan T (sg := ['-']) (fr := []) (ex := []) (r := r) (Or.inr rfl)
      (toDigits_ip i.natAbs) (Or.inl rfl) (Or.inl rfl) hr
    simp only [List.cons_append, List.nil_append] at this
    rw [List.cons_append, this]
    simp only [Nat.ofDigitChars_toDigits (b := 10) (by omega) (by omega)]
    simp
    omega
  · rename_i h
    have := readNum_scan T (sg := []) (fr := []) (ex := []) (r := r) (Or.inl rfl)
      (toDigits_ip i.natAbs) (Or.inl rfl) (Or.inl rfl) hr
    simp only [List.nil_append] at this
    rw [this]
    simp only [Nat.ofDigitChars_toDigits (b := 10) (by omega) (by omega)]
    simp
    omega

theorem readNum_flt (T : FloatText) (f : Flt) (r : Str) (hr : NumEnd r) :
    readNum T (T.repr f ++ r) = some (.flt f, r) := by
  obtain ⟨sg, ip, fr, ex, h, h1, h2, h3, h4, h5⟩ := T.shape f
  have hp := T.parse_repr f
  rw [h] at hp ⊢
  simp only [List.append_assoc]
  rw [readNum_scan T h1 h2 h3 h4 hr, hp]
  rw [if_neg]
  · rfl
  · rintro ⟨e1, e2⟩
    rcases h5 with h5 | h5
    · exact h5 e1
    · exact h5 e2

/-- An instance of the assumptions about floats, which shows that they can be
met.  It writes mantissa and exponent of the binary representation. -/
def FloatText.sample : FloatText where
  repr f := (if f.neg then ['-'] else []) ++ (Nat.toDigits 10 f.mant ++
    (['.', '0'] ++ ('e' :: Nat.toDigits 10 f.e)))
  parse s :=
    let (sg, s1) := scanSign s
    match scanIp s1 with
    | none => none
    | some (ip, s2) =>
      let (_, s3) := scanFr s2
      let (ex, _) := scanEx s3
      let mant := Nat.ofDigitChars 10 ip 0
      let e := Nat.ofDigitChars 10 (ex.drop 1) 0
      if h : mant < 2 ^ 53 ∧ e ≤ 2045 ∧ (2 ^ 52 ≤ mant ∨ e = 0) then
        some ⟨sg ≠ [], mant, e, h⟩
      else none
  parse_repr f := by
    obtain ⟨h1, h2, h3, h4⟩ := scan_parts
      (sg := if f.neg then ['-'] else []) (ip := Nat.toDigits 10 f.mant) (fr := ['.', '0'])
      (ex := 'e' :: Nat.toDigits 10 f.e) (r := [])
      (by cases f.neg <;> simp) (toDigits_ip f.mant)
      (Or.inr ⟨['0'], rfl, by simp, by simp [Char.isDigit]⟩)
      (Or.inr ⟨'e', [], _, rfl, Or.inl rfl, Or.inl rfl, Nat.toDigits_ne_nil, fun c hc =>
        Nat.isDigit_of_mem_toDigits (by omega) (by omega) hc⟩)
      (by intro c hc; simp at hc)
    simp only [List.append_nil] at h1 h2 h3 h4
    simp only [h1, h2, h3, h4, List.drop_one, List.tail_cons,
      Nat.ofDigitChars_toDigits (b := 10) (by omega) (by omega)]
    obtain ⟨neg, mant, e, ok⟩ := f
    rw [dif_pos ok]
    cases neg <;> simp
  shape f := by
    refine ⟨_, _, _, _, rfl, by cases f.neg <;> simp, toDigits_ip f.mant,
      Or.inr ⟨['0'], rfl, by simp, by simp [Char.isDigit]⟩,
      Or.inr ⟨'e', [], _, rfl, Or.inl rfl, Or.inl rfl, Nat.toDigits_ne_nil, fun c hc =>
        Nat.isDigit_of_mem_toDigits (by omega) (by omega) hc⟩, Or.inl (by simp)⟩

/-- The first character of a number. -/
def NumHead (c : Char) : Prop := c = '-' ∨ c.isDigit = true

theorem readVal_num (T : FloatText) (n : Nat) (c : Char) (s : Str) (h : NumHead c) :
    readVal T (n + 1) (c :: s) = readNum T (c :: s) := by
  have hn : c ≠ '"' ∧ c ≠ '{' ∧ c ≠ '[' ∧ c ≠ 'n' ∧ c ≠ 't' ∧ c ≠ 'f' := by
    refine ⟨?_, ?_, ?_, ?_, ?_, ?_⟩ <;> rintro rfl <;> rcases h with h | h <;> simp [Char.isDigit] at h
  rw [readVal] <;> intros <;> simp_all

theorem intText_head (i : Int) : ∃ c s, intText i = c :: s ∧ NumHead c := by
  unfold intText
  split
  · exact ⟨_, _, rfl, Or.inl rfl⟩
  · cases hd : Nat.toDigits 10 i.natAbs with
    | nil => exact absurd hd Nat.toDigits_ne_nil
    | cons a t =>
      refine ⟨a, t, rfl, Or.inr ?_⟩
      exact Nat.isDigit_of_mem_toDigits (b := 10) (n := i.natAbs) (by omega) (by omega) (by rw [hd]; simp)

theorem floatTok_head {s : Str} (h : IsFloatTok s) : ∃ c t, s = c :: t ∧ NumHead c := by
  obtain ⟨sg, ip, fr, ex, h, h1, h2, _⟩ := h
  subst h
  rcases h1 with rfl | rfl
  · rcases h2 with rfl | ⟨hne, _, hd⟩
    · exact ⟨'0', _, rfl, Or.inr (by decide)⟩
    · cases ip with
      | nil => exact absurd rfl hne
      | cons c ip => exact ⟨c, _, rfl, Or.inr (hd c (by simp))⟩
  · exact ⟨'-', _, rfl, Or.inl rfl⟩

/-- A value's text starts with a character that is neither white space nor a
closing bracket. -/
def ValHead (c : Char) : Prop := isWs c = false ∧ c ≠ ']' ∧ c ≠ '}'

theorem valHead_of_numHead {c : Char} (h : NumHead c) : ValHead c := by
  refine ⟨?_, ?_, ?_⟩
  · simp only [isWs, Bool.or_eq_false_iff, beq_eq_false_iff_ne]
    refine ⟨⟨⟨?_, ?_⟩, ?_⟩, ?_⟩ <;> rintro rfl <;> rcases h with h | h <;> simp [Char.isDigit] at h
  · rintro rfl; rcases h with h | h <;> simp [Char.isDigit] at h
  · rintro rfl; rcases h with h | h <;> simp [Char.isDigit] at h

theorem dumps_head (T : FloatText) (j : Json) : ∃ c s, dumps T j = c :: s ∧ ValHead c := by
  cases j with
  | null => exact ⟨_, _, rfl, by unfold ValHead; decide⟩
  | bool b => cases b <;> exact ⟨_, _, rfl, by unfold ValHead; decide⟩
  | int i =>
    obtain ⟨c, s, h, hc⟩ := intText_head i
    exact ⟨c, s, by simp [dumps, h], valHead_of_numHead hc⟩
  | flt f =>
    obtain ⟨c, s, h, hc⟩ := floatTok_head (T.shape f)
    exact ⟨c, s, by simp [dumps, h], valHead_of_numHead hc⟩
  | str s => exact ⟨'"', _, rfl, by unfold ValHead; decide⟩
  | arr l => exact ⟨'[', dumpsArr T l, by simp [dumps], by unfold ValHead; decide⟩
  | obj l => exact ⟨'{', dumpsObj T l, by simp [dumps], by unfold ValHead; decide⟩

theorem skipWs_cons {c : Char} {s : Str} (h : isWs c = false) : skipWs (c :: s) = c :: s := by
  simp [skipWs, h]

theorem skipWs_space (s : Str) : skipWs (' ' :: s) = skipWs s := by
  simp [skipWs, isWs]

theorem skipWs_dumps (T : FloatText) (j : Json) (r : Str) :
    skipWs (dumps T j ++ r) = dumps T j ++ r := by
  obtain ⟨c, s, h, hc⟩ := dumps_head T j
  rw [h, List.cons_append, skipWs_cons hc.1]

theorem skipWs_dumpStr (s r : Str) : skipWs (dumpStr s ++ r) = dumpStr s ++ r := by
  simp only [dumpStr, List.cons_append]
  exact skipWs_cons (by decide)

theorem dumpStr_append (s r : Str) : dumpStr s ++ r = '"' :: (s.flatMap escChar ++ '"' :: r) := by
  simp [dumpStr]

theorem numEnd_of_cons {c : Char} {r : Str} (h : c.isDigit = false ∧ c ≠ '.' ∧ c ≠ 'e' ∧ c ≠ 'E') :
    NumEnd (c :: r) := by
  intro c' hc'
  simp at hc'; subst hc'; exact h

theorem dumpsArr_head (T : FloatText) (a : Json) (l : List Json) :
    ∃ c s, dumpsArr T (a :: l) = c :: s ∧ ValHead c := by
  obtain ⟨c, s, h, hc⟩ := dumps_head T a
  cases l with
  | nil => exact ⟨c, s ++ [']'], by simp [dumpsArr, h], hc⟩
  | cons b l => exact ⟨c, _, by rw [dumpsArr, h, List.cons_append], hc⟩

mutual
theorem readVal_dumps (T : FloatText) : ∀ (j : Json) (n : Nat) (r : Str), j.WF → NumEnd r →
    j.size ≤ n → readVal T n (dumps T j ++ r) = some (j, r)
  | .null, n, r, _, _, hn => by
    cases n with
    | zero => simp [Json.size] at hn
    | succ n => simp [dumps, readVal]
  | .bool b, n, r, _, _, hn => by
    cases n with
    | zero => simp [Json.size] at hn
    | succ n => cases b <;> simp [dumps, readVal]
  | .int i, n, r, _, hr, hn => by
    cases n with
    | zero => simp [Json.size] at hn
    | succ n =>
      obtain ⟨c, s, h, hc⟩ := intText_head i
      have h2 := readNum_int T i r hr
      simp only [dumps, h, List.cons_append] at h2 ⊢
      rw [readVal_num T n c _ hc, h2]
  | .flt f, n, r, _, hr, hn => by
    cases n with
    | zero => simp [Json.size] at hn
    | succ n =>
      obtain ⟨c, s, h, hc⟩ := floatTok_head (T.shape f)
      have h2 := readNum_flt T f r hr
      simp only [dumps, h, List.cons_append] at h2 ⊢
      rw [readVal_num T n c _ hc, h2]
  | .str s, n, r, _, _, hn => by
    cases n with
    | zero => simp [Json.size] at hn
    | succ n =>
      simp only [dumps, dumpStr_append, readVal]
      rw [readStr_dumpStr]
      rfl
  | .arr l, n, r, hw, hr, hn => by
    cases n with
    | zero => simp [Json.size] at hn
    | succ n =>
      simp only [dumps, List.cons_append, readVal]
      cases l with
      | nil => simp [dumpsArr, skipWs, isWs]
      | cons a l =>
        obtain ⟨c, s, h, hc⟩ := dumpsArr_head T a l
        have hs : skipWs (dumpsArr T (a :: l) ++ r) = dumpsArr T (a :: l) ++ r := by
          rw [h, List.cons_append, skipWs_cons hc.1]
        rw [hs]
        have ih := readArr_dumps T (a :: l) n r (by simpa [Json.WF] using hw) (by simp)
          (by simp only [Json.size] at hn; omega)
        split
        · rename_i heq
          rw [h] at heq
          cases heq
          exact absurd rfl hc.2.1
        · exact ih
  | .obj l, n, r, hw, hr, hn => by
    cases n with
    | zero => simp [Json.size] at hn
    | succ n =>
      simp only [dumps, List.cons_append, readVal]
      cases l with
      | nil => simp [dumpsObj, skipWs, isWs]
      | cons p l =>
        have h : ∃ s, dumpsObj T (p :: l) ++ r = '"' :: s := by
          obtain ⟨k, a⟩ := p
          cases l <;> simp only [dumpsObj, dumpStr, List.cons_append] <;> exact ⟨_, rfl⟩
        obtain ⟨s, h⟩ := h
        have hs : skipWs (dumpsObj T (p :: l) ++ r) = dumpsObj T (p :: l) ++ r := by
          rw [h]; exact skipWs_cons (by decide)
        rw [hs]
        simp only [Json.WF] at hw
        have ih := readObj_dumps T (p :: l) n [] r hw.2 (by simpa using hw.1) (by simp)
          (by simp only [Json.size] at hn; omega)
        split
        · rename_i heq
          rw [h] at heq
          cases heq
        · simpa using ih
theorem readArr_dumps (T : FloatText) : ∀ (l : List Json) (n : Nat) (r : Str), Json.WFArr l →
    l ≠ [] → Json.sizeArr l ≤ n → readArr T n (dumpsArr T l ++ r) = some (.arr l, r)
  | [], _, _, _, h, _ => absurd rfl h
  | [a], n, r, hw, _, hn => by
    cases n with
    | zero => simp [Json.sizeArr] at hn
    | succ n =>
      simp only [Json.WFArr] at hw
      simp only [Json.sizeArr] at hn
      simp only [dumpsArr, List.append_assoc, List.cons_append, List.nil_append, readArr]
      rw [readVal_dumps T a n _ hw.1 (numEnd_of_cons (by decide)) (by omega)]
      simp [skipWs, isWs]
  | a :: b :: l, n, r, hw, _, hn => by
    cases n with
    | zero => simp [Json.sizeArr] at hn
    | succ n =>
      simp only [Json.WFArr] at hw
      have hn2 : Json.sizeArr (b :: l) ≤ n := by simp only [Json.sizeArr] at hn ⊢; omega
      have hn1 : a.size ≤ n := by simp only [Json.sizeArr] at hn; omega
      simp only [dumpsArr, List.append_assoc, List.cons_append, readArr]
      rw [readVal_dumps T a n _ hw.1 (numEnd_of_cons (by decide)) hn1]
      simp only [Option.bind_eq_bind, Option.bind_some]
      rw [skipWs_cons (by decide)]
      simp only [skipWs_space]
      obtain ⟨c, s, h, hc⟩ := dumpsArr_head T b l
      have hs : skipWs (dumpsArr T (b :: l) ++ r) = dumpsArr T (b :: l) ++ r := by
        rw [h, List.cons_append, skipWs_cons hc.1]
      rw [hs, readArr_dumps T (b :: l) n r (by simpa [Json.WFArr] using hw.2) (by simp) hn2]
theorem readObj_dumps (T : FloatText) : ∀ (l : List (Str × Json)) (n : Nat)
    (acc : List (Str × Json)) (r : Str), Json.WFObj l → (dkeys (acc ++ l)).Nodup →
    l ≠ [] → Json.sizeObj l ≤ n → readObj T n acc (dumpsObj T l ++ r) = some (.obj (acc ++ l), r)
  | [], _, _, _, _, _, h, _ => absurd rfl h
  | [(k, a)], n, acc, r, hw, hk, _, hn => by
    cases n with
    | zero => simp [Json.sizeObj] at hn
    | succ n =>
      simp only [Json.WFObj] at hw
      simp only [Json.sizeObj] at hn
      simp only [dumpsObj, List.append_assoc, List.cons_append, List.nil_append, dumpStr_append,
        readObj]
      rw [readStr_dumpStr]
      simp only [Option.bind_eq_bind, Option.bind_some]
      rw [skipWs_cons (by decide)]
      simp only [skipWs_space, skipWs_dumps]
      rw [readVal_dumps T a n _ hw.1 (numEnd_of_cons (by decide)) (by omega)]
      simp only [Option.bind_some]
      rw [skipWs_cons (by decide)]
      simp only
      rw [dset_of_not_mem]
      simp only [dkeys, List.map_append, List.nodup_append] at hk
      intro hmem
      exact hk.2.2 k hmem k (by simp) rfl
  | (k, a) :: p :: l, n, acc, r, hw, hk, _, hn => by
    cases n with
    | zero => simp [Json.sizeObj] at hn
    | succ n =>
      simp only [Json.WFObj] at hw
      have hn2 : Json.sizeObj (p :: l) ≤ n := by
        obtain ⟨k', b⟩ := p
        simp only [Json.sizeObj] at hn ⊢; omega
      have hn1 : a.size ≤ n := by simp only [Json.sizeObj] at hn; omega
      simp only [dumpsObj, List.append_assoc, List.cons_append, dumpStr_append, readObj]
      rw [readStr_dumpStr]
      simp only [Option.bind_eq_bind, Option.bind_some]
      rw [skipWs_cons (by decide)]
      simp only [skipWs_space, skipWs_dumps]
      rw [readVal_dumps T a n _ hw.1 (numEnd_of_cons (by decide)) hn1]
      simp only [Option.bind_some]
      rw [skipWs_cons (by decide)]
      simp only [skipWs_space]
      have h : ∃ s, dumpsObj T (p :: l) ++ r = '"' :: s := by
        obtain ⟨k, a⟩ := p
        cases l <;> simp only [dumpsObj, dumpStr, List.cons_append] <;> exact ⟨_, rfl⟩
      obtain ⟨s, h⟩ := h
      have hs : skipWs (dumpsObj T (p :: l) ++ r) = dumpsObj T (p :: l) ++ r := by
        rw [h]; exact skipWs_cons (by decide)
      have hset : dset acc k a = acc ++ [(k, a)] := by
        rw [dset_of_not_mem]
        simp only [dkeys, List.map_append, List.nodup_append] at hk
        intro hmem
        exact hk.2.2 k hmem k (by simp) rfl
      rw [hs, hset, readObj_dumps T (p :: l) n (acc ++ [(k, a)]) r
        (by simpa [Json.WFObj] using hw.2) (by simpa using hk) (by simp) hn2]
      simp
end

/-! ### The size of a value is bounded by its text -/

theorem dumps_pos (T : FloatText) (j : Json) : 1 ≤ (dumps T j).length := by
  obtain ⟨c, s, h, _⟩ := dumps_head T j
  rw [h]; simp

mutual
theorem size_le (T : FloatText) : ∀ j : Json, j.size ≤ 2 * (dumps T j).length
  | .null | .bool true | .bool false => by simp [Json.size, dumps]
  | .int i => by have := dumps_pos T (.int i); simp only [Json.size]; omega
  | .flt f => by have := dumps_pos T (.flt f); simp only [Json.size]; omega
  | .str s => by have := dumps_pos T (.str s); simp only [Json.size]; omega
  | .arr l => by
    have := sizeArr_le T l
    simp only [Json.size, dumps, List.length_cons]; omega
  | .obj l => by
    have := sizeObj_le T l
    simp only [Json.size, dumps, List.length_cons]; omega
theorem sizeArr_le (T : FloatText) : ∀ l : List Json,
    Json.sizeArr l ≤ 2 * (dumpsArr T l).length
  | [] => by simp [Json.sizeArr, dumpsArr]
  | [a] => by
    have := size_le T a
    simp only [Json.sizeArr, dumpsArr, List.length_append, List.length_cons, List.length_nil]
    omega
  | a :: b :: l => by
    have h1 := size_le T a
    have h2 := sizeArr_le T (b :: l)
    simp only [Json.sizeArr, dumpsArr, List.length_append, List.length_cons] at h2 ⊢
    omega
theorem sizeObj_le (T : FloatText) : ∀ l : List (Str × Json),
    Json.sizeObj l ≤ 2 * (dumpsObj T l).length
  | [] => by simp [Json.sizeObj, dumpsObj]
  | [(k, a)] => by
    have := size_le T a
    simp only [Json.sizeObj, dumpsObj, List.length_append, List.length_cons, List.length_nil]
    omega
  | (k, a) :: p :: l => by
    have h1 := size_le T a
    have h2 := sizeObj_le T (p :: l)
    simp only [Json.sizeObj, dumpsObj, List.length_append, List.length_cons] at h2 ⊢
    omega
end

theorem loads_dumps (T : FloatText) (j : Json) (h : j.WF) : loads T (dumps T j) = some j := by
  unfold loads
  have h1 := skipWs_dumps T j []
  have h2 := readVal_dumps T j (2 * (dumps T j).length + 2) [] h (by intro c hc; simp at hc)
    (by have := size_le T j; omega)
  simp only [List.append_nil] at h1 h2
  rw [h1, h2]
  simp [skipWs]

/-! ### JSON text has no line separator -/

/-- Printable ASCII -/
def Plain (c : Char) : Prop := 0x20 ≤ c.toNat ∧ c.toNat ≤ 0x7e

instance (c : Char) : Decidable (Plain c) := by unfold Plain; infer_instance

theorem not_sep_of_plain {c : Char} (h : Plain c) : isLineSep c = false := by
  simp only [isLineSep, Bool.or_eq_false_iff, beq_eq_false_iff_ne]
  unfold Plain at h
  refine ⟨⟨⟨⟨⟨⟨⟨⟨⟨?_, ?_⟩, ?_⟩, ?_⟩, ?_⟩, ?_⟩, ?_⟩, ?_⟩, ?_⟩, ?_⟩ <;> rintro rfl <;>
    revert h <;> decide

theorem plain_digitChar : ∀ n, n < 16 → Plain (Nat.digitChar n) := by decide

theorem plain_hex4 (n : Nat) : ∀ c ∈ hex4 n, Plain c := by
  intro c hc
  simp only [hex4, List.mem_cons, List.not_mem_nil, or_false] at hc
  rcases hc with rfl | rfl | rfl | rfl <;> exact plain_digitChar _ (Nat.mod_lt _ (by omega))

theorem plain_escChar (c : Char) : ∀ x ∈ escChar c, Plain x := by
  have e1 : Plain '\\' := by decide
  have e2 : Plain 'u' := by decide
  unfold escChar
  repeat' split
  all_goals intro x hx
  · simp at hx; rcases hx with rfl | rfl <;> decide
  · simp at hx; subst hx; decide
  · simp at hx; rcases hx with rfl | rfl <;> decide
  · simp at hx; rcases hx with rfl | rfl <;> decide
  · simp at hx; rcases hx with rfl | rfl <;> decide
  · simp at hx; rcases hx with rfl | rfl <;> decide
  · simp at hx; rcases hx with rfl | rfl <;> decide
  · simp at hx; subst hx; assumption
  · simp only [List.mem_cons] at hx
    rcases hx with rfl | rfl | hx
    · exact e1
    · exact e2
    · exact plain_hex4 _ x hx
  · simp only [List.mem_cons, List.mem_append] at hx
    rcases hx with (rfl | rfl | hx) | rfl | rfl | hx
    · exact e1
    · exact e2
    · exact plain_hex4 _ x hx
    · exact e1
    · exact e2
    · exact plain_hex4 _ x hx

theorem plain_dumpStr (s : Str) : ∀ x ∈ dumpStr s, Plain x := by
  intro x hx
  simp only [dumpStr, List.cons_append, List.mem_cons, List.mem_append, List.mem_flatMap,
    List.not_mem_nil, or_false] at hx
  rcases hx with rfl | ⟨c, _, hc⟩ | rfl
  · decide
  · exact plain_escChar c x hc
  · decide

theorem plain_digit {c : Char} (h : c.isDigit = true) : Plain c := by
  simp [Char.isDigit, UInt32.le_iff_toNat_le] at h
  unfold Plain
  have : c.toNat = c.val.toNat := rfl
  omega

theorem plain_intText (i : Int) : ∀ x ∈ intText i, Plain x := by
  have : ∀ x ∈ Nat.toDigits 10 i.natAbs, Plain x := fun x hx =>
    plain_digit (Nat.isDigit_of_mem_toDigits (by omega) (by omega) hx)
  intro x hx
  unfold intText at hx
  split at hx
  · rcases List.mem_cons.mp hx with rfl | hx
    · decide
    · exact this x hx
  · exact this x hx

theorem plain_floatTok {s : Str} (h : IsFloatTok s) : ∀ x ∈ s, Plain x := by
  obtain ⟨sg, ip, fr, ex, rfl, h1, h2, h3, h4, _⟩ := h
  intro x hx
  simp only [List.mem_append] at hx
  rcases hx with hx | hx | hx | hx
  · rcases h1 with rfl | rfl
    · simp at hx
    · simp at hx; subst hx; decide
  · rcases h2 with rfl | ⟨_, _, hd⟩
    · simp at hx; subst hx; decide
    · exact plain_digit (hd x hx)
  · rcases h3 with rfl | ⟨ds, rfl, _, hd⟩
    · simp at hx
    · rcases List.mem_cons.mp hx with rfl | hx
      · decide
      · exact plain_digit (hd x hx)
  · rcases h4 with rfl | ⟨e, es, ds, rfl, he, hes, _, hd⟩
    · simp at hx
    · simp only [List.mem_cons, List.mem_append] at hx
      rcases hx with rfl | hx | hx
      · rcases he with rfl | rfl <;> decide
      · rcases hes with rfl | rfl | rfl
        · simp at hx
        · simp at hx; subst hx; decide
        · simp at hx; subst hx; decide
      · exact plain_digit (hd x hx)

mutual
theorem plain_dumps (T : FloatText) : ∀ j : Json, ∀ x ∈ dumps T j, Plain x
  | .null => by simp only [dumps]; decide
  | .bool true => by simp only [dumps]; decide
  | .bool false => by simp only [dumps]; decide
  | .int i => by simp only [dumps]; exact plain_intText i
  | .flt f => by simp only [dumps]; exact plain_floatTok (T.shape f)
  | .str s => by simp only [dumps]; exact plain_dumpStr s
  | .arr l => by
    have := plain_dumpsArr T l
    intro x hx
    simp only [dumps, List.mem_cons] at hx
    rcases hx with rfl | hx
    · decide
    · exact this x hx
  | .obj l => by
    have := plain_dumpsObj T l
    intro x hx
    simp only [dumps, List.mem_cons] at hx
    rcases hx with rfl | hx
    · decide
    · exact this x hx
theorem plain_dumpsArr (T : FloatText) : ∀ l : List Json, ∀ x ∈ dumpsArr T l, Plain x
  | [] => by simp only [dumpsArr]; decide
  | [a] => by
    have := plain_dumps T a
    intro x hx
    simp only [dumpsArr, List.mem_append, List.mem_cons, List.not_mem_nil, or_false] at hx
    rcases hx with hx | rfl
    · exact this x hx
    · decide
  | a :: b :: l => by
    have h1 := plain_dumps T a
    have h2 := plain_dumpsArr T (b :: l)
    intro x hx
    simp only [dumpsArr, List.mem_append, List.mem_cons] at hx
    rcases hx with hx | rfl | rfl | hx
    · exact h1 x hx
    · decide
    · decide
    · exact h2 x hx
theorem plain_dumpsObj (T : FloatText) : ∀ l : List (Str × Json), ∀ x ∈ dumpsObj T l, Plain x
  | [] => by simp only [dumpsObj]; decide
  | [(k, a)] => by
    have h1 := plain_dumpStr k
    have h2 := plain_dumps T a
    intro x hx
    simp only [dumpsObj, List.mem_append, List.mem_cons, List.not_mem_nil, or_false] at hx
    rcases hx with hx | rfl | rfl | hx | rfl
    · exact h1 x hx
    · decide
    · decide
    · exact h2 x hx
    · decide
  | (k, a) :: p :: l => by
    have h1 := plain_dumpStr k
    have h2 := plain_dumps T a
    have h3 := plain_dumpsObj T (p :: l)
    intro x hx
    simp only [dumpsObj, List.mem_append, List.mem_cons] at hx
    rcases hx with hx | rfl | rfl | hx | rfl | rfl | hx
    · exact h1 x hx
    · decide
    · decide
    · exact h2 x hx
    · decide
    · decide
    · exact h3 x hx
end

theorem gitText_dumps (T : FloatText) (j : Json) : gitText (dumps T j) = dumps T j :=
  gitText_of_no_sep (fun c hc => not_sep_of_plain (plain_dumps T j c hc))

end MM
