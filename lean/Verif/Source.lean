/-
Model of the serialisation in `metadatasource.py`.
-/
import Verif.Path
import Verif.Reference

namespace MM

/-- White space removed by `str.strip()` (`str.isspace`) -/
def isSpace (c : Char) : Bool :=
  c == ' ' || c == '\t' || c == '\n' || c == '\r' || c == '\x0b' || c == '\x0c' ||
  c == '\x1c' || c == '\x1d' || c == '\x1e' || c == '\x1f' || c == '\u0085' || c == '\u00a0' ||
  c == '\u1680' || ('\u2000' ≤ c && c ≤ '\u200a') || c == '\u2028' || c == '\u2029' ||
  c == '\u202f' || c == '\u205f' || c == '\u3000'

/-- `s.strip()` -/
def strip (s : Str) : Str := ((s.dropWhile isSpace).reverse.dropWhile isSpace).reverse

/-- `LocalGitMetadataSource` and `ImmediateMetadataSource` (metadatasource.py
76-88, 147-153).  A `Path` is a `PurePosixPath` as far as serialisation is
concerned. -/
inductive Source
  | localGit (repo : PPath) (ref : Str)
  | immediate (content : Json)

namespace Source

/-- `LocalGitMetadataSource(path, reference)` (metadatasource.py 80-88) -/
def mkLocal (repo : PPath) (ref : Str) : Source := .localGit repo (strip ref)

/-- `PurePosixPath.as_posix()` is `str(path)`; `Path` does not override `__str__`. -/
def toJson : Source → Json
  | .localGit p r => .obj [tag c!"LocalGitMetadataSource",
      (c!"metadata_source_type", .str c!"LocalGitMetadataSource"),
      (c!"git_repository_path", .str p.purePosixStr), (c!"object_reference", .str r)]
  | .immediate j => .obj [tag c!"ImmediateMetadataSource",
      (c!"metadata_source_type", .str c!"ImmediateMetadataSource"), (c!"content", j)]

/-- `LocalGitMetadataSource.from_json_obj` (metadatasource.py 131-144).  A
`KeyError` is caught and gives `None`.  Non-string fields are errors: `Path(x)`
raises `TypeError`, the constructor asserts that the reference is a string. -/
def localFromJson (j : Json) : Except PyErr (Option Source) :=
  let body : Except PyErr Source := do
    assertType j c!"LocalGitMetadataSource"
    checkVersion j
    let t ← j.item c!"metadata_source_type"
    if t.pyEq (.str c!"LocalGitMetadataSource") then pure () else throw .assertion
    let p ← j.item c!"git_repository_path"
    let p ← match p with
      | .str p => pure (parseParts [p])
      | _ => throw .type
    let r ← j.item c!"object_reference"
    match r with
    | .str r => pure (mkLocal p r)
    | _ => throw .assertion
  match body with
  | .ok s => .ok (some s)
  | .error .key => .ok none
  | .error e => .error e

/-- `ImmediateMetadataSource.from_json_obj` (metadatasource.py 178-189) -/
def immediateFromJson (j : Json) : Except PyErr (Option Source) :=
  let body : Except PyErr Source := do
    assertType j c!"ImmediateMetadataSource"
    checkVersion j
    let t ← j.item c!"metadata_source_type"
    if t.pyEq (.str c!"ImmediateMetadataSource") then pure () else throw .assertion
    let c ← j.item c!"content"
    pure (.immediate c)
  match body with
  | .ok s => .ok (some s)
  | .error .key => .ok none
  | .error e => .error e

/-- `MetadataSource.from_json_obj` (metadatasource.py 55-69).  `json_obj.get` on
something that is not a dictionary is an `AttributeError`. -/
def fromJson (j : Json) : Except PyErr (Option Source) :=
  match j with
  | .obj l =>
    match dget l c!"metadata_source_type" with
    | none => .ok none
    | some .null => .ok none
    | some t =>
      if t.pyEq (.str c!"LocalGitMetadataSource") then localFromJson j
      else if t.pyEq (.str c!"ImmediateMetadataSource") then immediateFromJson j
      else .ok none
  | _ => .error .attribute

/-- `to_json_str` (metadatasource.py 52-53) -/
def toText (T : FloatText) (s : Source) : Str := dumps T s.toJson

/-- `from_json_str` (metadatasource.py 71-73) -/
def fromText (T : FloatText) (s : Str) : Except PyErr (Option Source) :=
  match loads T s with
  | some j => fromJson j
  | none => .error .value

/-- `__eq__` of both classes (metadatasource.py 90-94, 155-158) -/
def eq : Source → Source → Bool
  | .localGit p r, .localGit q s => p = q && r = s
  | .immediate a, .immediate b => a.pyEq b
  | _, _ => false

end Source

/-! ### Lemmas -/

theorem dropWhile_idem {α : Type} (p : α → Bool) (l : List α) :
    (l.dropWhile p).dropWhile p = l.dropWhile p := by
  induction l with
  | nil => rfl
  | cons a l ih =>
    by_cases h : p a
    · simp [h, ih]
    · simp [h]

theorem dropWhile_eq_self {α : Type} {p : α → Bool} {l : List α}
    (h : ∀ a, l.head? = some a → p a = false) : l.dropWhile p = l := by
  cases l with
  | nil => rfl
  | cons a l => simp [h a rfl]

theorem head_dropWhile {α : Type} {p : α → Bool} {l : List α} :
    ∀ a, (l.dropWhile p).head? = some a → p a = false := by
  induction l with
  | nil => simp
  | cons b l ih =>
    intro a
    by_cases h : p b
    · simpa [h] using ih a
    · simp only [h, Bool.false_eq_true, not_false_eq_true, List.dropWhile_cons_of_neg,
        List.head?_cons, Option.some.injEq]
      rintro rfl
      simpa using h

theorem strip_idem (s : Str) : strip (strip s) = strip s := by
  have hlast : ∀ a, (strip s).reverse.head? = some a → isSpace a = false := by
    intro a ha
    unfold strip at ha
    rw [List.reverse_reverse] at ha
    exact head_dropWhile a ha
  have hfirst : ∀ a, (strip s).head? = some a → isSpace a = false := by
    intro a ha
    unfold strip at ha
    generalize hu : s.dropWhile isSpace = u at ha
    have hh : ∀ a, u.head? = some a → isSpace a = false := by
      rw [← hu]; exact fun a => head_dropWhile a
    have hsuf : u.reverse.dropWhile isSpace <:+ u.reverse := List.dropWhile_suffix _
    have hpre : (u.reverse.dropWhile isSpace).reverse <+: u := by
      have := List.reverse_prefix.mpr hsuf
      simpa using this
    obtain ⟨t, ht⟩ := hpre
    apply hh a
    rw [← ht]
    cases hx : (u.reverse.dropWhile isSpace).reverse with
    | nil => rw [hx] at ha; simp at ha
    | cons b r => rw [hx] at ha; simpa using ha
  have h1 : (strip s).dropWhile isSpace = strip s := dropWhile_eq_self hfirst
  have h2 : (strip s).reverse.dropWhile isSpace = (strip s).reverse := dropWhile_eq_self hlast
  have : strip (strip s) =
    (((strip s).dropWhile isSpace).reverse.dropWhile isSpace).reverse := rfl
  rw [this, h1, h2, List.reverse_reverse]

/-- A path object: its root is one of the three roots, its components are those
that parsing yields. -/
def PPath.Ok (p : PPath) : Prop :=
  (p.root = [] ∨ p.root = ['/'] ∨ p.root = ['/', '/']) ∧ ∀ c ∈ p.comps, CompOk c

theorem splitRoot_slash {n : Nat} {s : Str} (hn : n = 1 ∨ n = 2) (h : s.head? ≠ some '/') :
    splitRoot (List.replicate n '/' ++ s) = (List.replicate n '/', s) := by
  have hd : s.dropWhile (· == '/') = s := by
    apply dropWhile_eq_self
    intro a ha
    simp
    rintro rfl
    exact h ha
  rcases hn with rfl | rfl
  · simp [splitRoot, hd, List.replicate]
  · simp [splitRoot, hd, List.replicate]
    omega

theorem parseParts_str {p : PPath} (h : p.Ok) : parseParts [p.purePosixStr] = p := by
  obtain ⟨root, comps⟩ := p
  obtain ⟨h1, h2⟩ := h
  simp only at h1 h2
  have hh := head_joinWith h2
  have hc : (splitOn '/' (joinWith '/' comps)).filter keepComp = comps := by
    have := parseParts_joinWith h2
    simp only [parseParts, List.foldl, parseStep, splitRoot_of_not_slash hh, if_true,
      List.nil_append, PPath.mk.injEq, true_and] at this
    exact this
  rcases h1 with rfl | rfl | rfl
  · by_cases hj : joinWith '/' comps = []
    · have hnil := (joinWith_eq_nil h2).mp hj
      subst hnil
      decide
    · simp only [PPath.purePosixStr, List.nil_append, hj, if_false]
      exact parseParts_joinWith h2
  · have e : PPath.purePosixStr ⟨['/'], comps⟩ = List.replicate 1 '/' ++ joinWith '/' comps := by
      simp [PPath.purePosixStr]
    rw [e]
    simp only [parseParts, List.foldl, parseStep]
    rw [splitRoot_slash (Or.inl rfl) hh]
    simp [hc]
  · have e : PPath.purePosixStr ⟨['/', '/'], comps⟩ = List.replicate 2 '/' ++ joinWith '/' comps := by
      simp [PPath.purePosixStr, List.replicate]
    rw [e]
    simp only [parseParts, List.foldl, parseStep]
    rw [splitRoot_slash (Or.inr rfl) hh]
    simp [hc, List.replicate]

theorem splitRoot_root (s : Str) : (splitRoot s).1 = [] ∨ (splitRoot s).1 = ['/'] ∨
    (splitRoot s).1 = ['/', '/'] := by
  unfold splitRoot
  split
  · simp only
    split
    · exact Or.inr (Or.inr rfl)
    · exact Or.inr (Or.inl rfl)
  · exact Or.inl rfl

/-- Every path built from strings satisfies `PPath.Ok`. -/
theorem ok_parseParts (args : List Str) : (parseParts args).Ok := by
  refine ⟨?_, parseParts_ok args⟩
  unfold parseParts
  have : ∀ (args : List Str) (acc : PPath),
      (acc.root = [] ∨ acc.root = ['/'] ∨ acc.root = ['/', '/']) →
      ((args.foldl parseStep acc).root = [] ∨ (args.foldl parseStep acc).root = ['/'] ∨
        (args.foldl parseStep acc).root = ['/', '/']) := by
    intro args
    induction args with
    | nil => intro acc h; exact h
    | cons a as ih =>
      intro acc h
      apply ih
      unfold parseStep
      simp only
      split
      · exact h
      · exact splitRoot_root a
  exact this args _ (Or.inl rfl)

end MM
