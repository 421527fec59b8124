/-
Names in git trees: the text that `git mktree` reads, the text that `git cat-file -p`
and `git ls-tree` print, and what the Python code makes of it.
-/
import Verif.JsonText

namespace MM

/-! ### UTF-8 -/

/-- The UTF-8 bytes of a character. -/
def utf8Char (c : Char) : List Nat := (String.utf8EncodeChar c).map UInt8.toNat

/-- `s.encode("utf-8")` -/
def utf8 (s : Str) : List Nat := s.flatMap utf8Char

/-- `b.decode("utf-8")`, `none` for an `UnicodeDecodeError`. -/
def utf8Decode (b : List Nat) : Option Str :=
  (ByteArray.utf8Decode? (b.map UInt8.ofNat).toByteArray).map Array.toList

theorem utf8_bytes (s : Str) : (utf8 s).map UInt8.ofNat = s.flatMap String.utf8EncodeChar := by
  induction s with
  | nil => rfl
  | cons c s ih =>
    simp only [utf8, List.flatMap_cons, List.map_append] at ih ⊢
    rw [ih]
    simp [utf8Char, Function.comp_def]

theorem utf8Decode_utf8 (s : Str) : utf8Decode (utf8 s) = some s := by
  have h : (s.flatMap String.utf8EncodeChar).toByteArray = s.utf8Encode := rfl
  unfold utf8Decode
  rw [utf8_bytes, h, List.utf8Decode?_utf8Encode]
  simp

theorem utf8_lt (s : Str) : ∀ b ∈ utf8 s, b < 256 := by
  intro b hb
  obtain ⟨c, _, h⟩ := List.mem_flatMap.mp hb
  obtain ⟨x, _, rfl⟩ := List.mem_map.mp h
  exact x.toNat_lt

theorem utf8Char_ascii {c : Char} (h : c.toNat < 128) : utf8Char c = [c.toNat] := by
  have h' : c.val.toNat ≤ 127 := Nat.lt_succ_iff.mp h
  unfold utf8Char String.utf8EncodeChar
  simp only [h', if_true, List.map_cons, List.map_nil]
  have : (UInt8.ofNat c.val.toNat).toNat = c.val.toNat := by
    simp; omega
  rw [this]
  rfl

theorem utf8Char_wide {c : Char} (h : ¬ c.toNat < 128) : ∀ b ∈ utf8Char c, 128 ≤ b := by
  have h' : ¬ c.val.toNat ≤ 127 := fun h' => h (Nat.lt_succ_iff.mpr h')
  have hv := c.valid
  have key : ∀ n m : Nat, m = 128 ∨ m = 192 ∨ m = 224 ∨ m = 240 → n < 256 → m ≤ n →
      128 ≤ (UInt8.ofNat n).toNat := by
    intro n m hm h1 h2
    have : (UInt8.ofNat n).toNat = n := by simp; omega
    omega
  intro b hb
  unfold utf8Char String.utf8EncodeChar at hb
  simp only [h', if_false] at hb
  split at hb
  · simp only [List.map_cons, List.map_nil, List.mem_cons, List.not_mem_nil, or_false] at hb
    rcases hb with rfl | rfl
    · exact key _ 192 (by simp) (by omega) (by omega)
    · exact key _ 128 (by simp) (by omega) (by omega)
  · split at hb
    · simp only [List.map_cons, List.map_nil, List.mem_cons, List.not_mem_nil, or_false] at hb
      rcases hb with rfl | rfl | rfl
      · exact key _ 224 (by simp) (by omega) (by omega)
      · exact key _ 128 (by simp) (by omega) (by omega)
      · exact key _ 128 (by simp) (by omega) (by omega)
    · simp only [List.map_cons, List.map_nil, List.mem_cons, List.not_mem_nil, or_false] at hb
      rcases hb with rfl | rfl | rfl | rfl
      · exact key _ 240 (by simp) (by omega) (by omega)
      · exact key _ 128 (by simp) (by omega) (by omega)
      · exact key _ 128 (by simp) (by omega) (by omega)
      · exact key _ 128 (by simp) (by omega) (by omega)

/-! ### The text read by `git mktree` -/

/-- An entry of a git tree.  Only the two modes that the project writes exist in
the model: `040000 tree` and `100644 blob`. -/
structure TreeEntry where
  isTree : Bool
  hash : Str
  name : Str
  deriving DecidableEq, Repr

/-- A hexadecimal object name as git reads it: 40 hexadecimal digits. -/
def isHash (h : Str) : Bool := h.length == 40 && h.all (fun c => (hexVal c).isSome)

/-- `escape_double_quotes` (mtreenodemapper.py 77-88) -/
def escapeQuotes (s : Str) : Str :=
  if '"' ∈ s then
    '"' :: s.flatMap (fun c => if c = '\\' then ['\\', '\\'] else if c = '"' then ['\\', '"'] else [c])
      ++ ['"']
  else s

/-- The mode and type of an entry (mtreenodemapper.py 67-68, treeupdater.py 46-53). -/
def TreeEntry.mode (e : TreeEntry) : Str := if e.isTree then c!"040000 tree" else c!"100644 blob"

/-- One line of the tree specification (gitbackend/subprocess.py 153-156), for a
name that is already escaped. -/
def specLine (e : TreeEntry) (name : Str) : Str := e.mode ++ ' ' :: e.hash ++ '\t' :: name

/-- `tree_spec` (gitbackend/subprocess.py 153-156) with the names escaped as in
mtreenodemapper.py 65-73. -/
def treeSpec (es : List TreeEntry) : Str :=
  joinWith '\n' (es.map (fun e => specLine e (escapeQuotes e.name))) ++ ['\n']

/-! ### What `git mktree` makes of it

From git's `builtin/mktree.c` and `quote.c`. -/

/-- The value of an octal digit. -/
def octVal (c : Char) : Option Nat :=
  if '0' ≤ c ∧ c ≤ '7' then some (c.toNat - '0'.toNat) else none

/-- The one-letter escapes of git. -/
def gitEscape : Char → Option Nat
  | 'a' => some 7 | 'b' => some 8 | 't' => some 9 | 'n' => some 10 | 'v' => some 11
  | 'f' => some 12 | 'r' => some 13 | '\\' => some 92 | '"' => some 34
  | _ => none

/-- `unquote_c_style` after the opening quote: the bytes up to the closing quote.  An
octal escape has three digits, the first of them at most 3. -/
def gitUnquote : Str → Option (List Nat)
  | [] => none
  | '"' :: _ => some []
  | '\\' :: a :: s =>
    match gitEscape a with
    | some d => (gitUnquote s).map (d :: ·)
    | none =>
      match s with
      | b :: c :: s' =>
        match octVal a, octVal b, octVal c with
        | some x, some y, some z =>
          if x ≤ 3 then (gitUnquote s').map ((x * 64 + y * 8 + z) :: ·) else none
        | _, _, _ => none
      | _ => none
  | '\\' :: [] => none
  | c :: s => (gitUnquote s).map (utf8Char c ++ ·)

/-- The path field of a line of `git mktree` input: a quoted path is unquoted, the
path ends at a NUL, and a path with a slash is refused.  Paths that are not UTF-8 are
refused here. -/
def mktreePath (p : Str) : Option Str :=
  let p := p.takeWhile (· ≠ '\x00')
  let q := match p with
    | '"' :: s => (gitUnquote s).bind fun bs => utf8Decode (bs.takeWhile (· ≠ 0))
    | _ => some p
  match q with
  | some q => if '/' ∈ q then none else some q
  | none => none

/-- One line of `git mktree` input: mode, type, object name, tab, path.  Modes
other than the two that the project writes are refused. -/
def mktreeLine (l : Str) : Option TreeEntry :=
  let go (isTree : Bool) (r : Str) : Option TreeEntry :=
    if isHash (r.take 40) then
      match r.drop 40 with
      | '\t' :: p => (mktreePath p).map (fun n => ⟨isTree, r.take 40, n⟩)
      | _ => none
    else none
  if startsWith l c!"040000 tree " then go true (l.drop 12)
  else if startsWith l c!"100644 blob " then go false (l.drop 12)
  else none

/-- The lines of `git mktree` input: each line ends with a newline; text after the
last newline is a line of its own. -/
def inputLines (s : Str) : List Str :=
  let ls := splitOn '\n' s
  if ls.getLast? = some [] then ls.dropLast else ls

/-- All or nothing. -/
def allSome {α β : Type} (f : α → Option β) : List α → Option (List β)
  | [] => some []
  | a :: l => match f a with
    | some b => (allSome f l).map (b :: ·)
    | none => none

/-- The sort key of an entry: git compares tree entries bytewise, with a slash
after the names of trees.  The bytewise order of UTF-8 is the order of the
characters. -/
def TreeEntry.key (e : TreeEntry) : Str := if e.isTree then e.name ++ ['/'] else e.name

/-- The lexicographic order of strings. -/
def strLe : Str → Str → Bool
  | [], _ => true
  | _ :: _, [] => false
  | a :: s, b :: t => if a.toNat < b.toNat then true else if b.toNat < a.toNat then false else strLe s t

/-- The order of entries in a git tree. -/
def TreeEntry.le (a b : TreeEntry) : Bool := strLe a.key b.key

/-- Insertion into a sorted list. -/
def insertEntry (e : TreeEntry) : List TreeEntry → List TreeEntry
  | [] => [e]
  | f :: l => if e.le f then e :: f :: l else f :: insertEntry e l

/-- The entries in the order of git. -/
def sortEntries (es : List TreeEntry) : List TreeEntry := es.foldr insertEntry []

/-- `git mktree --missing`: the entries of the stored tree, `none` if the command
fails.  The existence of the objects is not checked (`--missing`). -/
def mktree (input : Str) : Option (List TreeEntry) :=
  (allSome mktreeLine (inputLines input)).map sortEntries

/-! ### What git prints -/

/-- A digit of an octal number. -/
def octDigit (n : Nat) : Char := Nat.digitChar (n % 8)

/-- The text printed for one byte of a quoted path (`quote_c_style` in git's
`quote.c`, with `core.quotePath` at its default `true`). -/
def quoteByte (b : Nat) : Str :=
  if b = 7 then c!"\\a" else if b = 8 then c!"\\b" else if b = 9 then c!"\\t"
  else if b = 10 then c!"\\n" else if b = 11 then c!"\\v" else if b = 12 then c!"\\f"
  else if b = 13 then c!"\\r" else if b = 34 then c!"\\\"" else if b = 92 then c!"\\\\"
  else if b < 32 ∨ 127 ≤ b then
    ['\\', octDigit (b / 64), octDigit (b / 8), octDigit b]
  else [Char.ofNat b]

/-- A byte that is printed as it is. -/
def plainByte (b : Nat) : Bool := decide (32 ≤ b ∧ b < 127 ∧ b ≠ 34 ∧ b ≠ 92)

/-- A path as git prints it. -/
def gitQuote (name : Str) : Str :=
  let bs := utf8 name
  if bs.all plainByte then bs.flatMap quoteByte else '"' :: bs.flatMap quoteByte ++ ['"']

/-- The output of `git cat-file -p` and `git ls-tree` for a tree. -/
def catTree (es : List TreeEntry) : Str :=
  es.flatMap (fun e => specLine e (gitQuote e.name) ++ ['\n'])

/-! ### What the Python code makes of it -/

/-- `split_git_lstree_line` (utils.py 118-121).  A wrong number of fields is a
`ValueError`. -/
def splitLstreeLine (l : Str) : Except PyErr (Str × Str × Str × Str) :=
  match splitOn '\t' l with
  | [fixed, name] => match splitOn ' ' fixed with
    | [flag, ty, hash] => .ok (flag, ty, hash, name)
    | _ => .error .value
  | _ => .error .value

/-- The one-letter escapes of `codecs.escape_decode`. -/
def simpleEscape : Char → Option Nat
  | 'a' => some 7 | 'b' => some 8 | 't' => some 9 | 'n' => some 10 | 'v' => some 11
  | 'f' => some 12 | 'r' => some 13 | '\\' => some 92 | '"' => some 34 | '\'' => some 39
  | _ => none

/-- `codecs.escape_decode(s)[0]`.  The escape `\x` is refused: git never prints it.
An escaped newline is dropped in Python; git never prints it either, and the model
keeps it as an unknown escape. -/
def escapeDecode : Str → Option (List Nat)
  | [] => some []
  | '\\' :: a :: r =>
    match simpleEscape a with
    | some b => (escapeDecode r).map (b :: ·)
    | none =>
      match octVal a with
      | some x =>
        match r with
        | b :: r1 =>
          match octVal b with
          | some y =>
            match r1 with
            | c :: r2 =>
              match octVal c with
              | some z => (escapeDecode r2).map ((x * 64 + y * 8 + z) % 256 :: ·)
              | none => (escapeDecode (c :: r2)).map ((x * 8 + y) :: ·)
            | [] => some [(x * 8 + y)]
          | none => (escapeDecode (b :: r1)).map (x :: ·)
        | [] => some [x]
      | none =>
        if a = 'x' then none
        else (escapeDecode r).map (fun bs => 92 :: utf8Char a ++ bs)
  | ['\\'] => none
  | c :: r => (escapeDecode r).map (utf8Char c ++ ·)

/-- The name of a child (mtreenodemapper.py 32-33).  `name[1:-1]` drops the first
and the last character. -/
def readName (name : Str) : Except PyErr Str :=
  match name with
  | '"' :: s => match escapeDecode s.dropLast with
    | some bs => match utf8Decode bs with
      | some n => .ok n
      | none => .error .value
    | none => .error .value
  | _ => .ok name

/-- One line of the output of `git cat-file -p`, as read by mtreenodemapper.py
30-48.  Entries of another type are a `ValueError`. -/
def readTreeLine (l : Str) : Except PyErr TreeEntry := do
  let (_, ty, hash, name) ← splitLstreeLine l
  let n ← readName name
  if ty = c!"tree" then pure ⟨true, hash, n⟩
  else if ty = c!"blob" then pure ⟨false, hash, n⟩
  else .error .value

/-- All or the first exception. -/
def eachOk {α β : Type} (f : α → Except PyErr β) : List α → Except PyErr (List β)
  | [] => .ok []
  | a :: l => do
    let b ← f a
    let bs ← eachOk f l
    .ok (b :: bs)

/-- The entries that mtreenodemapper.py 27-48 reads for a stored tree:
`checked_execute` splits the output of git into lines. -/
def readTree (es : List TreeEntry) : Except PyErr (List TreeEntry) :=
  eachOk readTreeLine (splitlines (catTree es))

/-! ### Lemmas -/

/-- Names that git can store and that the code reads back: what a file system
allows, without newlines. -/
structure NameOk (n : Str) : Prop where
  ne : n ≠ []
  slash : '/' ∉ n
  nul : '\x00' ∉ n
  newline : '\n' ∉ n

theorem isHash_cons {h : Str} (hh : isHash h = true) :
    h.length = 40 ∧ ∀ c ∈ h, (hexVal c).isSome = true := by
  simpa [isHash] using hh

theorem hexVal_ne {c : Char} (h : (hexVal c).isSome = true) :
    c ≠ '\t' ∧ c ≠ ' ' ∧ c ≠ '\n' ∧ isLineSep c = false := by
  refine ⟨?_, ?_, ?_, ?_⟩
  · rintro rfl; exact absurd h (by decide)
  · rintro rfl; exact absurd h (by decide)
  · rintro rfl; exact absurd h (by decide)
  · cases hs : isLineSep c with
    | false => rfl
    | true =>
      simp only [isLineSep, Bool.or_eq_true, beq_iff_eq] at hs
      exfalso
      rcases hs with ((((((((rfl | rfl) | rfl) | rfl) | rfl) | rfl) | rfl) | rfl) | rfl) | rfl <;>
        exact absurd h (by decide)

theorem gitUnquote_simple {a : Char} {d : Nat} (h : gitEscape a = some d) (s : Str) :
    gitUnquote ('\\' :: a :: s) = (gitUnquote s).map (d :: ·) := by
  cases s with
  | nil => unfold gitUnquote; simp [h, gitUnquote]
  | cons b s =>
    cases s with
    | nil => rw [gitUnquote, h]; simp
    | cons c s => rw [gitUnquote, h]

/-- Unquoting undoes `escape_double_quotes`. -/
theorem gitUnquote_escape (s r : Str) :
    gitUnquote (s.flatMap (fun c => if c = '\\' then ['\\', '\\'] else
      if c = '"' then ['\\', '"'] else [c]) ++ '"' :: r) = some (utf8 s) := by
  induction s with
  | nil => simp [gitUnquote, utf8]
  | cons c s ih =>
    have hu : utf8 (c :: s) = utf8Char c ++ utf8 s := by simp [utf8]
    rw [hu]
    by_cases h1 : c = '\\'
    · subst h1; simp only [List.flatMap_cons, if_true, List.cons_append, List.nil_append]
      rw [gitUnquote_simple (d := 92) rfl, ih]; simp [utf8Char_ascii]
    · by_cases h2 : c = '"'
      · subst h2
        simp only [List.flatMap_cons, h1, if_true, if_false, List.cons_append, List.nil_append]
        rw [gitUnquote_simple (d := 34) rfl, ih]; simp [utf8Char_ascii]
      · simp only [List.flatMap_cons, h1, h2, if_false, List.cons_append, List.nil_append]
        rw [gitUnquote]
        · simp [ih]
        · intro h; exact h2 h
        · intro _ _ h _; exact h1 h
        · intro h _; exact h1 h

theorem takeWhile_all {α : Type} {p : α → Bool} {l : List α} (h : ∀ a ∈ l, p a = true) :
    l.takeWhile p = l := by
  induction l with
  | nil => rfl
  | cons a l ih => simp [List.takeWhile, h a (by simp), ih (fun x hx => h x (by simp [hx]))]

theorem mem_escapeQuotes {s : Str} {c : Char} (h : c ∈ escapeQuotes s) :
    c ∈ s ∨ c = '\\' ∨ c = '"' := by
  unfold escapeQuotes at h
  split at h
  · simp only [List.cons_append, List.mem_cons, List.mem_append, List.mem_flatMap,
      List.not_mem_nil, or_false] at h
    rcases h with h | ⟨a, ha, h⟩ | h
    · exact .inr (.inr h)
    · split at h
      · simp at h; exact .inr (.inl h)
      · split at h
        · simp at h; rcases h with h | h
          · exact .inr (.inl h)
          · exact .inr (.inr h)
        · simp at h; subst h; exact .inl ha
    · exact .inr (.inr h)
  · exact .inl h

/-- No byte of a character other than NUL is 0. -/
theorem utf8_takeWhile {n : Str} (h : '\x00' ∉ n) : (utf8 n).takeWhile (· ≠ 0) = utf8 n := by
  apply takeWhile_all
  intro b hb
  obtain ⟨c, hc, hbc⟩ := List.mem_flatMap.mp hb
  by_cases hw : c.toNat < 128
  · rw [utf8Char_ascii hw] at hbc
    simp at hbc
    subst hbc
    simp
    intro h0
    apply h
    have : c = Char.ofNat 0 := by rw [← h0, Char.ofNat_toNat]
    rw [this] at hc
    exact hc
  · have := utf8Char_wide hw b hbc
    simp
    omega

theorem mktreePath_escape {n : Str} (h : NameOk n) : mktreePath (escapeQuotes n) = some n := by
  have htw : (escapeQuotes n).takeWhile (· ≠ '\x00') = escapeQuotes n := by
    apply takeWhile_all
    intro a ha
    rcases mem_escapeQuotes ha with h1 | h1 | h1
    · simp; rintro rfl; exact h.nul h1
    · subst h1; decide
    · subst h1; decide
  unfold mktreePath
  simp only [htw]
  by_cases hq : '"' ∈ n
  · simp only [escapeQuotes, if_pos hq, List.cons_append]
    rw [gitUnquote_escape]
    simp only [Option.bind_some]
    rw [utf8_takeWhile h.nul, utf8Decode_utf8]
    simp [h.slash]
  · simp only [escapeQuotes, if_neg hq]
    have hs := h.slash
    clear htw h
    cases n with
    | nil => simp
    | cons c n =>
      have hc : c ≠ '"' := by rintro rfl; simp at hq
      split
      · rename_i heq
        split at heq
        · rename_i e; cases e; exact absurd rfl hc
        · cases heq; simp [hs]
      · rename_i heq
        split at heq
        · rename_i e; cases e; exact absurd rfl hc
        · cases heq

theorem take_append_len {α : Type} {a b : List α} {n : Nat} (h : a.length = n) :
    (a ++ b).take n = a := by subst h; simp

theorem drop_append_len {α : Type} {a b : List α} {n : Nat} (h : a.length = n) :
    (a ++ b).drop n = b := by subst h; simp

theorem startsWith_append (p s : Str) : startsWith (p ++ s) p = true := by
  simp [startsWith]

theorem mktreeLine_spec {e : TreeEntry} {p : Str} (hh : isHash e.hash = true) :
    mktreeLine (specLine e p) = (mktreePath p).map (fun n => ⟨e.isTree, e.hash, n⟩) := by
  have hl := (isHash_cons hh).1
  obtain ⟨t, h, n⟩ := e
  simp only at hh hl
  have h12 : ∀ (m : Str), m.length = 12 → ∀ x : Str, (m ++ x).drop 12 = x := by
    intro m hm x; exact drop_append_len hm
  cases t with
  | true =>
    have e1 : specLine ⟨true, h, n⟩ p = c!"040000 tree " ++ (h ++ '\t' :: p) := by
      simp [specLine, TreeEntry.mode]
    unfold mktreeLine
    rw [e1, startsWith_append]
    simp only [if_true]
    rw [h12 _ (by decide), take_append_len hl, drop_append_len hl, if_pos hh]
    rfl
  | false =>
    have e1 : specLine ⟨false, h, n⟩ p = c!"100644 blob " ++ (h ++ '\t' :: p) := by
      simp [specLine, TreeEntry.mode]
    have e0 : startsWith (c!"100644 blob " ++ (h ++ '\t' :: p)) c!"040000 tree " = false := by
      simp [startsWith, List.isPrefixOf]
    unfold mktreeLine
    rw [e1, e0, startsWith_append]
    simp only [if_true, Bool.false_eq_true, if_false]
    rw [h12 _ (by decide), take_append_len hl, drop_append_len hl, if_pos hh]
    rfl

theorem allSome_map {α β γ : Type} {f : β → Option γ} {g : α → β} {k : α → γ} {l : List α}
    (h : ∀ a ∈ l, f (g a) = some (k a)) : allSome f (l.map g) = some (l.map k) := by
  induction l with
  | nil => rfl
  | cons a l ih => simp [allSome, h a (by simp), ih (fun x hx => h x (by simp [hx]))]

theorem inputLines_join {ls : List Str} (hne : ls ≠ []) (h : ∀ l ∈ ls, '\n' ∉ l) :
    inputLines (joinWith '\n' ls ++ ['\n']) = ls := by
  have e : ∀ ls : List Str, ls ≠ [] → joinWith '\n' ls ++ ['\n'] = joinWith '\n' (ls ++ [[]]) := by
    intro ls
    induction ls with
    | nil => intro h; exact absurd rfl h
    | cons a ls ih =>
      intro _
      cases ls with
      | nil => simp [joinWith]
      | cons b ls =>
        have := ih (by simp)
        simp only [joinWith, List.cons_append, List.append_assoc] at this ⊢
        rw [this]
  unfold inputLines
  rw [e ls hne, splitOn_joinWith (by simp) (by
    intro p hp
    rcases List.mem_append.mp hp with hp | hp
    · exact h p hp
    · simp at hp; subst hp; simp)]
  simp

theorem newline_not_mem_specLine {e : TreeEntry} {p : Str} (hh : isHash e.hash = true)
    (hp : '\n' ∉ p) : '\n' ∉ specLine e p := by
  have h2 := (isHash_cons hh).2
  have hm : '\n' ∉ e.mode := by
    unfold TreeEntry.mode; split <;> decide
  have hx : '\n' ∉ e.hash := fun hx => (hexVal_ne (h2 _ hx)).2.2.1 rfl
  simp only [specLine, List.mem_append, List.mem_cons]
  rintro ((h | h | h) | h | h)
  · exact hm h
  · exact absurd h (by decide)
  · exact hx h
  · exact absurd h (by decide)
  · exact hp h

/-- `git mktree` stores exactly the entries that were given to it. -/
theorem mktree_treeSpec {es : List TreeEntry} (hne : es ≠ [])
    (hh : ∀ e ∈ es, isHash e.hash = true) (hn : ∀ e ∈ es, NameOk e.name) :
    mktree (treeSpec es) = some (sortEntries es) := by
  unfold mktree treeSpec
  rw [inputLines_join (by simpa using hne) (by
    intro l hl
    obtain ⟨e, he, rfl⟩ := List.mem_map.mp hl
    apply newline_not_mem_specLine (hh e he)
    intro h
    rcases mem_escapeQuotes h with h | h | h
    · exact (hn e he).newline h
    · exact absurd h (by decide)
    · exact absurd h (by decide))]
  rw [allSome_map (k := id) (by
    intro e he
    rw [mktreeLine_spec (hh e he), mktreePath_escape (hn e he)]
    rfl)]
  simp

/-! Reading back. -/

theorem octVal_octDigit (n : Nat) : octVal (octDigit n) = some (n % 8) := by
  have : ∀ m, m < 8 → octVal (Nat.digitChar m) = some m := by decide
  exact this _ (Nat.mod_lt _ (by decide))

theorem simpleEscape_octDigit (n : Nat) : simpleEscape (octDigit n) = none := by
  have : ∀ m, m < 8 → simpleEscape (Nat.digitChar m) = none := by decide
  exact this _ (Nat.mod_lt _ (by decide))

theorem plainChar_ne {b : Nat} (h1 : 32 ≤ b) (h2 : b < 127) (h3 : b ≠ 34) (h4 : b ≠ 92) :
    Char.ofNat b ≠ '\\' ∧ Char.ofNat b ≠ '"' ∧ Char.ofNat b ≠ '\t'
      ∧ isLineSep (Char.ofNat b) = false ∧ (Char.ofNat b).toNat = b := by
  have e : (Char.ofNat b).toNat = b := by
    have hv : b.isValidChar := Or.inl (by omega)
    simp [Char.ofNat, hv, Char.toNat, Char.ofNatAux]
  have hne : ∀ c : Char, c.toNat ≠ b → Char.ofNat b ≠ c := by
    intro c hc h; rw [← h] at hc; exact hc e
  refine ⟨hne _ (fun h => h4 h.symm), hne _ (fun h => h3 h.symm), hne _ ?_, ?_, e⟩
  · intro h
    have : '\t'.toNat = 9 := rfl
    omega
  · cases hs : isLineSep (Char.ofNat b) with
    | false => rfl
    | true =>
      exfalso
      simp only [isLineSep, Bool.or_eq_true, beq_iff_eq] at hs
      rcases hs with ((((((((h | h) | h) | h) | h) | h) | h) | h) | h) | h <;>
        (rw [h] at e; have := e.symm; revert h1 h2; subst this; decide)

/-- Every byte that git prints is read back. -/
theorem escapeDecode_quoteByte {b : Nat} (hb : b < 256) (r : Str) :
    escapeDecode (quoteByte b ++ r) = (escapeDecode r).map (b :: ·) := by
  unfold quoteByte
  by_cases h7 : b = 7
  · subst h7; simp [escapeDecode, simpleEscape]
  by_cases h8 : b = 8
  · subst h8; simp [escapeDecode, simpleEscape]
  by_cases h9 : b = 9
  · subst h9; simp [escapeDecode, simpleEscape]
  by_cases h10 : b = 10
  · subst h10; simp [escapeDecode, simpleEscape]
  by_cases h11 : b = 11
  · subst h11; simp [escapeDecode, simpleEscape]
  by_cases h12 : b = 12
  · subst h12; simp [escapeDecode, simpleEscape]
  by_cases h13 : b = 13
  · subst h13; simp [escapeDecode, simpleEscape]
  by_cases h34 : b = 34
  · subst h34; simp [escapeDecode, simpleEscape]
  by_cases h92 : b = 92
  · subst h92; simp [escapeDecode, simpleEscape]
  simp only [h7, h8, h9, h10, h11, h12, h13, h34, h92, if_false]
  by_cases hc : b < 32 ∨ 127 ≤ b
  · rw [if_pos hc]
    simp only [List.cons_append, List.nil_append]
    rw [escapeDecode]
    simp only [simpleEscape_octDigit, octVal_octDigit]
    have : (b / 64 % 8 * 64 + b / 8 % 8 * 8 + b % 8) % 256 = b := by omega
    rw [this]
  · rw [if_neg hc]
    simp only [not_or, Nat.not_lt, Nat.not_le] at hc
    obtain ⟨p1, _, _, _, p5⟩ := plainChar_ne hc.1 hc.2 h34 h92
    simp only [List.cons_append, List.nil_append]
    rw [escapeDecode]
    · rw [utf8Char_ascii (by omega), p5]
      simp
    · intro _ _ h _; exact p1 h
    · intro h _; exact p1 h

theorem escapeDecode_quote {bs : List Nat} (h : ∀ b ∈ bs, b < 256) :
    escapeDecode (bs.flatMap quoteByte) = some bs := by
  induction bs with
  | nil => simp [escapeDecode]
  | cons b bs ih =>
    rw [List.flatMap_cons, escapeDecode_quoteByte (h b (by simp)),
      ih (fun x hx => h x (by simp [hx]))]
    rfl

/-- What git prints holds no tab and no line separator. -/
theorem quoteByte_plain (b : Nat) : ∀ c ∈ quoteByte b, c ≠ '\t' ∧ isLineSep c = false := by
  have hoct : ∀ n, octDigit n ≠ '\t' ∧ isLineSep (octDigit n) = false := by
    intro n
    have : ∀ m, m < 8 → Nat.digitChar m ≠ '\t' ∧ isLineSep (Nat.digitChar m) = false := by decide
    exact this _ (Nat.mod_lt _ (by decide))
  unfold quoteByte
  by_cases h7 : b = 7
  · subst h7; decide
  by_cases h8 : b = 8
  · subst h8; decide
  by_cases h9 : b = 9
  · subst h9; decide
  by_cases h10 : b = 10
  · subst h10; decide
  by_cases h11 : b = 11
  · subst h11; decide
  by_cases h12 : b = 12
  · subst h12; decide
  by_cases h13 : b = 13
  · subst h13; decide
  by_cases h34 : b = 34
  · subst h34; decide
  by_cases h92 : b = 92
  · subst h92; decide
  simp only [h7, h8, h9, h10, h11, h12, h13, h34, h92, if_false]
  by_cases hc : b < 32 ∨ 127 ≤ b
  · rw [if_pos hc]
    intro c hc
    simp only [List.mem_cons, List.not_mem_nil, or_false] at hc
    rcases hc with rfl | rfl | rfl | rfl
    · decide
    · exact hoct _
    · exact hoct _
    · exact hoct _
  · rw [if_neg hc]
    simp only [not_or, Nat.not_lt, Nat.not_le] at hc
    obtain ⟨_, _, p3, p4, _⟩ := plainChar_ne hc.1 hc.2 h34 h92
    intro c hc
    simp at hc
    subst hc
    exact ⟨p3, p4⟩

theorem gitQuote_plain (n : Str) : ∀ c ∈ gitQuote n, c ≠ '\t' ∧ isLineSep c = false := by
  have h : ∀ c ∈ (utf8 n).flatMap quoteByte, c ≠ '\t' ∧ isLineSep c = false := by
    intro c hc
    obtain ⟨b, _, hb⟩ := List.mem_flatMap.mp hc
    exact quoteByte_plain b c hb
  intro c hc
  unfold gitQuote at hc
  simp only at hc
  split at hc
  · exact h c hc
  · simp only [List.cons_append, List.mem_cons, List.mem_append, List.not_mem_nil, or_false] at hc
    rcases hc with rfl | hc | rfl
    · decide
    · exact h c hc
    · decide

/-- A name of plain bytes is printed as it is. -/
theorem plain_name {n : Str} (h : (utf8 n).all plainByte = true) :
    (utf8 n).flatMap quoteByte = n ∧ n.head? ≠ some '"' := by
  induction n with
  | nil => exact ⟨rfl, by simp⟩
  | cons c n ih =>
    simp only [utf8, List.flatMap_cons, List.all_append, Bool.and_eq_true] at h ih ⊢
    have hc : c.toNat < 128 := by
      apply Classical.byContradiction
      intro hw
      have hne : utf8Char c ≠ [] := by
        intro e
        have := congrArg List.length e
        simp [utf8Char] at this
        have := c.utf8Size_pos
        omega
      obtain ⟨b, hb⟩ := List.exists_mem_of_ne_nil _ hne
      have h1 := utf8Char_wide hw b hb
      have h2 := List.all_eq_true.mp h.1 b hb
      simp [plainByte] at h2
      omega
    rw [utf8Char_ascii hc] at h ⊢
    have h2 := h.1
    simp only [List.all_cons, List.all_nil, Bool.and_true, plainByte, decide_eq_true_eq] at h2
    obtain ⟨a1, a2, a3, a4⟩ := h2
    have hq : quoteByte c.toNat = [c] := by
      unfold quoteByte
      rw [if_neg (by omega), if_neg (by omega), if_neg (by omega), if_neg (by omega),
        if_neg (by omega), if_neg (by omega), if_neg (by omega), if_neg a3, if_neg a4,
        if_neg (by omega), Char.ofNat_toNat]
    refine ⟨?_, ?_⟩
    · simp only [List.flatMap_cons, List.cons_append, List.nil_append, hq, (ih h.2).1]
    · simp
      rintro rfl
      exact a3 rfl

/-- Reading a printed name gives the name. -/
theorem readName_gitQuote (n : Str) : readName (gitQuote n) = .ok n := by
  unfold gitQuote
  simp only
  split
  · rename_i h
    obtain ⟨h1, h2⟩ := plain_name h
    rw [h1]
    unfold readName
    split
    · simp at h2
    · rfl
  · rw [List.cons_append]
    unfold readName
    simp only [List.dropLast_concat]
    rw [escapeDecode_quote (utf8_lt n)]
    simp only [utf8Decode_utf8]

theorem readTreeLine_spec {e : TreeEntry} (hh : isHash e.hash = true) :
    readTreeLine (specLine e (gitQuote e.name)) = .ok e := by
  obtain ⟨t, h, n⟩ := e
  have h2 := (isHash_cons hh).2
  have hx : ∀ c ∈ h, c ≠ '\t' ∧ c ≠ ' ' := fun c hc => ⟨(hexVal_ne (h2 c hc)).1, (hexVal_ne (h2 c hc)).2.1⟩
  have hq : '\t' ∉ gitQuote n := fun hm => (gitQuote_plain n _ hm).1 rfl
  have hsp : ' ' ∉ h := fun hm => (hx _ hm).2 rfl
  unfold readTreeLine splitLstreeLine
  have e1 : specLine ⟨t, h, n⟩ (gitQuote n) = (TreeEntry.mode ⟨t, h, n⟩ ++ ' ' :: h) ++ '\t' :: gitQuote n := by
    simp [specLine]
  have hm : '\t' ∉ (TreeEntry.mode ⟨t, h, n⟩ ++ ' ' :: h) := by
    simp only [List.mem_append, List.mem_cons]
    rintro (hm | hm | hm)
    · cases t
      · exact absurd (show '\t' ∈ c!"100644 blob" from hm) (by decide)
      · exact absurd (show '\t' ∈ c!"040000 tree" from hm) (by decide)
    · exact absurd hm (by decide)
    · exact (hx _ hm).1 rfl
  rw [e1, splitOn_append hm, splitOn_of_not_mem hq]
  have hs : splitOn ' ' (TreeEntry.mode ⟨t, h, n⟩ ++ ' ' :: h) =
      [if t then c!"040000" else c!"100644", if t then c!"tree" else c!"blob", h] := by
    cases t
    · have : TreeEntry.mode ⟨false, h, n⟩ ++ ' ' :: h = c!"100644" ++ ' ' :: (c!"blob" ++ ' ' :: h) := by
        simp [TreeEntry.mode]
      rw [this, splitOn_append (by decide), splitOn_append (by decide), splitOn_of_not_mem hsp]
      rfl
    · have : TreeEntry.mode ⟨true, h, n⟩ ++ ' ' :: h = c!"040000" ++ ' ' :: (c!"tree" ++ ' ' :: h) := by
        simp [TreeEntry.mode]
      rw [this, splitOn_append (by decide), splitOn_append (by decide), splitOn_of_not_mem hsp]
      rfl
  simp only [hs]
  cases t
  · simp only [readName_gitQuote, bind, Except.bind]
    rfl
  · simp only [readName_gitQuote, bind, Except.bind]
    rfl

theorem specLine_plain {e : TreeEntry} (hh : isHash e.hash = true) :
    ∀ c ∈ specLine e (gitQuote e.name), isLineSep c = false := by
  have h2 := (isHash_cons hh).2
  intro c hc
  simp only [specLine, List.mem_append, List.mem_cons] at hc
  rcases hc with (hc | rfl | hc) | rfl | hc
  · have : ∀ c ∈ e.mode, isLineSep c = false := by
      unfold TreeEntry.mode; split <;> decide
    exact this c hc
  · decide
  · exact (hexVal_ne (h2 c hc)).2.2.2
  · decide
  · exact (gitQuote_plain _ c hc).2

theorem splitlinesGo_line : ∀ (l acc s : Str), (∀ c ∈ l, isLineSep c = false) →
    splitlinesGo (l ++ '\n' :: s) acc = (acc.reverse ++ l) :: splitlinesGo s [] := by
  intro l
  induction l with
  | nil =>
    intro acc s _
    rw [List.nil_append]
    rw [splitlinesGo]
    · simp [isLineSep]
    · intro s' h; exact absurd h (by decide)
  | cons c l ih =>
    intro acc s h
    have hc := h c (by simp)
    rw [List.cons_append, splitlinesGo]
    · rw [if_neg (by simp [hc]), ih (c :: acc) s (fun x hx => h x (by simp [hx]))]
      simp
    · intro s' h1; subst h1; simp [isLineSep] at hc

theorem splitlines_catTree {es : List TreeEntry} (hh : ∀ e ∈ es, isHash e.hash = true) :
    splitlines (catTree es) = es.map (fun e => specLine e (gitQuote e.name)) := by
  induction es with
  | nil => rfl
  | cons e es ih =>
    unfold splitlines catTree at ih ⊢
    rw [List.flatMap_cons, List.append_assoc, List.singleton_append,
      splitlinesGo_line _ [] _ (specLine_plain (hh e (by simp))), ih (fun x hx => hh x (by simp [hx]))]
    simp

/-- The code reads exactly the entries of a stored tree, whatever their names. -/
theorem readTree_ok {es : List TreeEntry} (hh : ∀ e ∈ es, isHash e.hash = true) :
    readTree es = .ok es := by
  unfold readTree
  rw [splitlines_catTree hh]
  induction es with
  | nil => rfl
  | cons e es ih =>
    simp only [List.map_cons, eachOk]
    rw [readTreeLine_spec (hh e (by simp)), ih (fun x hx => hh x (by simp [hx]))]
    rfl

/-! ### Names that are passed on as git prints them -/

/-- `tree_spec` (gitbackend/subprocess.py 153-156) with the names as they are. -/
def rawSpec (es : List TreeEntry) : Str :=
  joinWith '\n' (es.map (fun e => specLine e e.name)) ++ ['\n']

theorem gitEscape_octDigit (n : Nat) : gitEscape (octDigit n) = none := by
  have : ∀ m, m < 8 → gitEscape (Nat.digitChar m) = none := by decide
  exact this _ (Nat.mod_lt _ (by decide))

theorem gitUnquote_quoteByte {b : Nat} (hb : b < 256) (r : Str) :
    gitUnquote (quoteByte b ++ r) = (gitUnquote r).map (b :: ·) := by
  unfold quoteByte
  by_cases h7 : b = 7
  · subst h7; exact gitUnquote_simple rfl r
  by_cases h8 : b = 8
  · subst h8; exact gitUnquote_simple rfl r
  by_cases h9 : b = 9
  · subst h9; exact gitUnquote_simple rfl r
  by_cases h10 : b = 10
  · subst h10; exact gitUnquote_simple rfl r
  by_cases h11 : b = 11
  · subst h11; exact gitUnquote_simple rfl r
  by_cases h12 : b = 12
  · subst h12; exact gitUnquote_simple rfl r
  by_cases h13 : b = 13
  · subst h13; exact gitUnquote_simple rfl r
  by_cases h34 : b = 34
  · subst h34; exact gitUnquote_simple rfl r
  by_cases h92 : b = 92
  · subst h92; exact gitUnquote_simple rfl r
  simp only [h7, h8, h9, h10, h11, h12, h13, h34, h92, if_false]
  by_cases hc : b < 32 ∨ 127 ≤ b
  · rw [if_pos hc]
    simp only [List.cons_append, List.nil_append]
    rw [gitUnquote]
    simp only [gitEscape_octDigit, octVal_octDigit]
    have : b / 64 % 8 * 64 + b / 8 % 8 * 8 + b % 8 = b := by omega
    rw [this, if_pos (by omega)]
  · rw [if_neg hc]
    simp only [not_or, Nat.not_lt, Nat.not_le] at hc
    obtain ⟨p1, p2, _, _, p5⟩ := plainChar_ne hc.1 hc.2 h34 h92
    simp only [List.cons_append, List.nil_append]
    rw [gitUnquote]
    · rw [utf8Char_ascii (by omega), p5]
      simp
    · intro h; exact p2 h
    · intro _ _ h _; exact p1 h
    · intro h _; exact p1 h

theorem gitUnquote_quote {bs : List Nat} (h : ∀ b ∈ bs, b < 256) (r : Str) :
    gitUnquote (bs.flatMap quoteByte ++ '"' :: r) = some bs := by
  induction bs with
  | nil => simp [gitUnquote]
  | cons b bs ih =>
    rw [List.flatMap_cons, List.append_assoc, gitUnquote_quoteByte (h b (by simp)),
      ih (fun x hx => h x (by simp [hx]))]
    rfl

theorem quoteByte_nul (b : Nat) : '\x00' ∉ quoteByte b := by
  have hoct : ∀ n, '\x00' ≠ octDigit n := by
    intro n
    have : ∀ m, m < 8 → '\x00' ≠ Nat.digitChar m := by decide
    exact this _ (Nat.mod_lt _ (by decide))
  unfold quoteByte
  by_cases h7 : b = 7
  · subst h7; decide
  by_cases h8 : b = 8
  · subst h8; decide
  by_cases h9 : b = 9
  · subst h9; decide
  by_cases h10 : b = 10
  · subst h10; decide
  by_cases h11 : b = 11
  · subst h11; decide
  by_cases h12 : b = 12
  · subst h12; decide
  by_cases h13 : b = 13
  · subst h13; decide
  by_cases h34 : b = 34
  · subst h34; decide
  by_cases h92 : b = 92
  · subst h92; decide
  simp only [h7, h8, h9, h10, h11, h12, h13, h34, h92, if_false]
  by_cases hc : b < 32 ∨ 127 ≤ b
  · rw [if_pos hc]
    intro h
    simp only [List.mem_cons, List.not_mem_nil, or_false] at h
    rcases h with h | h | h | h
    · exact absurd h (by decide)
    · exact hoct _ h
    · exact hoct _ h
    · exact hoct _ h
  · rw [if_neg hc]
    simp only [not_or, Nat.not_lt, Nat.not_le] at hc
    obtain ⟨_, _, _, _, p5⟩ := plainChar_ne hc.1 hc.2 h34 h92
    intro h
    simp at h
    rw [← h] at p5
    have : (0 : Nat) = b := p5
    omega

theorem gitQuote_nul (n : Str) : '\x00' ∉ gitQuote n := by
  have h : '\x00' ∉ (utf8 n).flatMap quoteByte := by
    intro hc
    obtain ⟨b, _, hb⟩ := List.mem_flatMap.mp hc
    exact quoteByte_nul b hb
  intro hc
  unfold gitQuote at hc
  simp only at hc
  split at hc
  · exact h hc
  · simp only [List.cons_append, List.mem_cons, List.mem_append, List.not_mem_nil, or_false] at hc
    rcases hc with hc | hc | hc
    · exact absurd hc (by decide)
    · exact h hc
    · exact absurd hc (by decide)

/-- `git mktree` reads a name as git prints it. -/
theorem mktreePath_gitQuote {n : Str} (h1 : '/' ∉ n) (h2 : '\x00' ∉ n) :
    mktreePath (gitQuote n) = some n := by
  have htw : (gitQuote n).takeWhile (· ≠ '\x00') = gitQuote n := by
    apply takeWhile_all
    intro a ha
    simp
    rintro rfl
    exact gitQuote_nul n ha
  unfold mktreePath
  simp only [htw]
  by_cases hp : (utf8 n).all plainByte = true
  · obtain ⟨e1, e2⟩ := plain_name hp
    have e : gitQuote n = n := by unfold gitQuote; simp only; rw [if_pos hp, e1]
    rw [e]
    cases n with
    | nil => simp
    | cons c n =>
      have hc : c ≠ '"' := by rintro rfl; simp at e2
      split
      · rename_i heq
        split at heq
        · rename_i e; cases e; exact absurd rfl hc
        · cases heq; simp [h1]
      · rename_i heq
        split at heq
        · rename_i e; cases e; exact absurd rfl hc
        · cases heq
  · have e : gitQuote n = '"' :: ((utf8 n).flatMap quoteByte ++ ['"']) := by
      unfold gitQuote; simp only; rw [if_neg hp]; rfl
    rw [e]
    simp only
    rw [gitUnquote_quote (utf8_lt n)]
    simp only [Option.bind_some]
    rw [utf8_takeWhile h2, utf8Decode_utf8]
    simp [h1]

theorem gitQuote_newline (n : Str) : '\n' ∉ gitQuote n := fun h =>
  absurd (gitQuote_plain n _ h).2 (by decide)

/-- An entry with its name as git prints it. -/
def TreeEntry.raw (e : TreeEntry) : TreeEntry := ⟨e.isTree, e.hash, gitQuote e.name⟩

/-- `git mktree` stores the entries that git printed. -/
theorem mktree_rawSpec {es : List TreeEntry} (hne : es ≠ []) (hh : ∀ e ∈ es, isHash e.hash = true)
    (hn : ∀ e ∈ es, '/' ∉ e.name ∧ '\x00' ∉ e.name) :
    mktree (rawSpec (es.map TreeEntry.raw)) = some (sortEntries es) := by
  unfold mktree rawSpec
  rw [List.map_map, inputLines_join (by simpa using hne) (by
    intro l hl
    obtain ⟨e, he, rfl⟩ := List.mem_map.mp hl
    exact newline_not_mem_specLine (e := e.raw) (hh e he) (gitQuote_newline _))]
  rw [allSome_map (k := id) (by
    intro e he
    simp only [Function.comp]
    rw [mktreeLine_spec (e := e.raw) (hh e he)]
    show (mktreePath (gitQuote e.name)).map _ = _
    rw [mktreePath_gitQuote (hn e he).1 (hn e he).2]
    rfl)]
  simp

theorem gitQuote_injective {a b : Str} (h : gitQuote a = gitQuote b) : a = b := by
  have h1 := readName_gitQuote a
  rw [h, readName_gitQuote b] at h1
  cases h1
  rfl

/-! ### The order of entries -/

theorem insertEntry_perm (e : TreeEntry) (l : List TreeEntry) : (insertEntry e l).Perm (e :: l) := by
  induction l with
  | nil => exact List.Perm.refl _
  | cons f l ih =>
    unfold insertEntry
    split
    · exact List.Perm.refl _
    · exact (List.Perm.cons f ih).trans (List.Perm.swap e f l)

theorem sortEntries_perm (es : List TreeEntry) : (sortEntries es).Perm es := by
  induction es with
  | nil => exact List.Perm.refl _
  | cons e es ih => exact (insertEntry_perm e _).trans (List.Perm.cons e ih)

theorem mem_sortEntries {es : List TreeEntry} {e : TreeEntry} : e ∈ sortEntries es ↔ e ∈ es :=
  (sortEntries_perm es).mem_iff

theorem key_injective {a b : TreeEntry} (ha : '/' ∉ a.name) (hb : '/' ∉ b.name)
    (h : a.key = b.key) : a.name = b.name := by
  unfold TreeEntry.key at h
  split at h <;> split at h
  · exact List.append_cancel_right h
  · exfalso; apply hb; rw [← h]; simp
  · exfalso; apply ha; rw [h]; simp
  · exact h

theorem strLe_total : ∀ a b : Str, (strLe a b || strLe b a) = true
  | [], b => by simp [strLe]
  | a :: s, [] => by simp [strLe]
  | a :: s, b :: t => by
    simp only [strLe]
    have := strLe_total s t
    by_cases h1 : a.toNat < b.toNat
    · simp [h1]
    · by_cases h2 : b.toNat < a.toNat
      · simp [h2]
      · simp [h1, h2]; simpa using this

theorem strLe_trans : ∀ a b c : Str, strLe a b = true → strLe b c = true → strLe a c = true
  | [], b, c => by simp [strLe]
  | a :: s, [], c => by simp [strLe]
  | a :: s, b :: t, [] => by simp [strLe]
  | a :: s, b :: t, c :: u => by
    have ih := strLe_trans s t u
    simp only [strLe]
    intro h1 h2
    split at h1
    · split at h2
      · rw [if_pos (by omega)]
      · split at h2
        · cases h2
        · rw [if_pos (by omega)]
    · split at h1
      · cases h1
      · split at h2
        · rw [if_pos (by omega)]
        · split at h2
          · cases h2
          · rw [if_neg (by omega), if_neg (by omega)]; exact ih h1 h2

theorem strLe_antisymm : ∀ a b : Str, strLe a b = true → strLe b a = true → a = b
  | [], [] => by simp
  | [], b :: t => by simp [strLe]
  | a :: s, [] => by simp [strLe]
  | a :: s, b :: t => by
    have ih := strLe_antisymm s t
    simp only [strLe]
    intro h1 h2
    split at h1
    · rw [if_neg (by omega), if_pos (by assumption)] at h2; cases h2
    · split at h1
      · cases h1
      · rw [if_neg (by omega), if_neg (by omega)] at h2
        rw [ih h1 h2]
        have : a.toNat = b.toNat := by omega
        rw [Char.toNat_inj.mp this]

theorem TreeEntry.le_total (a b : TreeEntry) : (a.le b || b.le a) = true := strLe_total _ _

theorem TreeEntry.le_trans (a b c : TreeEntry) (h1 : a.le b = true) (h2 : b.le c = true) :
    a.le c = true := strLe_trans _ _ _ h1 h2

theorem insertEntry_pairwise {e : TreeEntry} {l : List TreeEntry}
    (h : l.Pairwise (fun a b => a.le b = true)) :
    (insertEntry e l).Pairwise (fun a b => a.le b = true) := by
  induction l with
  | nil => simp [insertEntry]
  | cons f l ih =>
    rw [List.pairwise_cons] at h
    unfold insertEntry
    split
    · rename_i hle
      rw [List.pairwise_cons]
      refine ⟨?_, List.pairwise_cons.mpr h⟩
      intro x hx
      rcases List.mem_cons.mp hx with rfl | hx
      · exact hle
      · exact TreeEntry.le_trans _ _ _ hle (h.1 x hx)
    · rename_i hle
      rw [List.pairwise_cons]
      refine ⟨?_, ih h.2⟩
      intro x hx
      rcases List.mem_cons.mp ((insertEntry_perm e l).mem_iff.mp hx) with rfl | hx
      · have := TreeEntry.le_total x f
        simpa [hle] using this
      · exact h.1 x hx

theorem sortEntries_pairwise (es : List TreeEntry) :
    (sortEntries es).Pairwise (fun a b => a.le b = true) := by
  induction es with
  | nil => exact List.Pairwise.nil
  | cons e es ih => exact insertEntry_pairwise ih

/-- Trees with the same entries are stored the same, in whatever order the
entries are given. -/
theorem sortEntries_of_perm {es fs : List TreeEntry} (hp : es.Perm fs)
    (hn : (es.map TreeEntry.name).Nodup) (hs : ∀ e ∈ es, '/' ∉ e.name) :
    sortEntries es = sortEntries fs := by
  have h1 := sortEntries_pairwise es
  have h2 := sortEntries_pairwise fs
  have hp2 : (sortEntries es).Perm (sortEntries fs) :=
    (sortEntries_perm es).trans (hp.trans (sortEntries_perm fs).symm)
  refine List.Perm.eq_of_pairwise ?_ h1 h2 hp2
  intro a b ha hb hab hba
  have ha' : a ∈ es := mem_sortEntries.mp ha
  have hb' : b ∈ es := hp.symm.mem_iff.mp (mem_sortEntries.mp hb)
  have hk := strLe_antisymm _ _ hab hba
  have hname := key_injective (hs a ha') (hs b hb') hk
  have : ∀ (l : List TreeEntry), (l.map TreeEntry.name).Nodup → a ∈ l → b ∈ l → a = b := by
    intro l
    induction l with
    | nil => intro _ h; simp at h
    | cons x l ih =>
      intro hn h1 h2
      simp only [List.map_cons, List.nodup_cons, List.mem_map, not_exists, not_and] at hn
      rcases List.mem_cons.mp h1 with e1 | e1 <;> rcases List.mem_cons.mp h2 with e2 | e2
      · rw [e1, e2]
      · subst e1; exact absurd hname.symm (hn.1 b e2)
      · subst e2; exact absurd hname (hn.1 a e1)
      · exact ih hn.2 e1 e2
  exact this es hn ha' hb'

end MM
