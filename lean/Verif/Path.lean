/-
Model of `metadatapath.py`.

`MetadataPath` derives from `pathlib.PurePosixPath`.  The parsing rules modelled
here are those of Python 3.7 to 3.11 (`pathlib._PosixFlavour.splitroot`,
`_Flavour.parse_parts`, `_Flavour.join_parsed_parts`), the versions used by the
project's CI (.appveyor.yml, .github/workflows/runtests.yml).
-/
import Verif.Basic

namespace MM

/-- A pure posix path: `root` is `""`, `"/"` or `"//"`, `comps` are the parts
after the root. -/
structure PPath where
  root : Str
  comps : List Str
  deriving DecidableEq, Repr

namespace PPath

/-- `PurePath.parts`: the root, if there is one, is the first part. -/
def parts (p : PPath) : List Str := if p.root = [] then p.comps else p.root :: p.comps

/-- `PurePath.is_absolute` -/
def isAbsolute (p : PPath) : Bool := p.root ≠ []

end PPath

/-- `_PosixFlavour.splitroot`: exactly two leading slashes give the root `"//"`,
any other positive number gives `"/"`. -/
def splitRoot (s : Str) : Str × Str :=
  match s with
  | '/' :: _ =>
    let rel := s.dropWhile (· == '/')
    if s.length - rel.length = 2 then (['/', '/'], rel) else (['/'], rel)
  | _ => ([], s)

/-- The components kept by `parse_parts`: empty ones and `"."` are dropped. -/
def keepComp (c : Str) : Bool := c ≠ [] && c ≠ ['.']

/-- One argument of `parse_parts`.  The Python code walks the arguments from the
last to the first and stops at the first rooted one; walking forward and
restarting at a rooted argument is the same. -/
def parseStep (acc : PPath) (arg : Str) : PPath :=
  let (root, rel) := splitRoot arg
  let comps := (splitOn '/' rel).filter keepComp
  if root = [] then { acc with comps := acc.comps ++ comps } else { root, comps }

/-- `PurePosixPath(*args)` for string arguments. -/
def parseParts (args : List Str) : PPath := args.foldl parseStep { root := [], comps := [] }

/-- `MetadataPath.__new__` (metadatapath.py 7-28).  The result of
`arg.replace("\\", "/")` in line 12 is discarded by the code, so it does not
appear here.  The warning for absolute paths is not modelled. -/
def metadataPath (args : List Str) : PPath :=
  let original := parseParts args
  if original.isAbsolute = false then parseParts [joinWith '/' original.parts]
  else parseParts [joinWith '/' (original.parts.drop 1)]

/-- `PurePath.__str__` -/
def PPath.purePosixStr (p : PPath) : Str :=
  let s := p.root ++ joinWith '/' p.comps
  if s = [] then ['.'] else s

/-- `MetadataPath.__str__` (metadatapath.py 30-35); `as_posix` is the same string. -/
def PPath.str (p : PPath) : Str :=
  let s := p.purePosixStr
  if s = ['.'] then [] else s

/-- `MetadataPath.__len__` (metadatapath.py 37-38) -/
def PPath.len (p : PPath) : Nat := p.parts.length

/-- `self / other` for two path objects (`PurePath.__truediv__`,
`_Flavour.join_parsed_parts`): an absolute right operand replaces the left one. -/
def PPath.join (p q : PPath) : PPath :=
  if q.root = [] then { p with comps := p.comps ++ q.comps } else q

/-! ### Lemmas -/

/-- A component as the user expects it: not empty, not `"."`, no slash. -/
def CompOk (c : Str) : Prop := c ≠ [] ∧ c ≠ ['.'] ∧ '/' ∉ c

instance (c : Str) : Decidable (CompOk c) := by unfold CompOk; infer_instance

theorem compOk_of_mem_filter {s c : Str} (h : c ∈ (splitOn '/' s).filter keepComp) :
    CompOk c := by
  rw [List.mem_filter] at h
  obtain ⟨h1, h2⟩ := h
  simp [keepComp] at h2
  exact ⟨h2.1, h2.2, not_mem_of_mem_splitOn _ _ _ h1⟩

theorem parseStep_ok {acc : PPath} (h : ∀ c ∈ acc.comps, CompOk c) (arg : Str) :
    ∀ c ∈ (parseStep acc arg).comps, CompOk c := by
  unfold parseStep
  intro c hc
  simp only at hc
  split at hc
  · rcases List.mem_append.mp hc with hc | hc
    · exact h c hc
    · exact compOk_of_mem_filter hc
  · exact compOk_of_mem_filter hc

theorem parseParts_ok (args : List Str) : ∀ c ∈ (parseParts args).comps, CompOk c := by
  unfold parseParts
  have : ∀ (args : List Str) (acc : PPath), (∀ c ∈ acc.comps, CompOk c) →
      ∀ c ∈ (args.foldl parseStep acc).comps, CompOk c := by
    intro args
    induction args with
    | nil => intro acc h; exact h
    | cons a as ih => intro acc h; exact ih _ (parseStep_ok h a)
  exact this args _ (by simp)

theorem splitRoot_of_not_slash {s : Str} (h : s.head? ≠ some '/') : splitRoot s = ([], s) := by
  unfold splitRoot
  split
  · simp at h
  · rfl

theorem head_joinWith {ps : List Str} (h : ∀ c ∈ ps, CompOk c) :
    (joinWith '/' ps).head? ≠ some '/' := by
  cases ps with
  | nil => simp [joinWith]
  | cons p ps =>
    obtain ⟨h1, _, h3⟩ := h p (by simp)
    cases p with
    | nil => exact absurd rfl h1
    | cons a p =>
      have : a ≠ '/' := by
        intro e; subst e; simp at h3
      cases ps <;> simp [joinWith, this]

theorem filter_keep {ps : List Str} (h : ∀ c ∈ ps, CompOk c) : ps.filter keepComp = ps := by
  rw [List.filter_eq_self]
  intro c hc
  obtain ⟨h1, h2, _⟩ := h c hc
  simp [keepComp, h1, h2]

/-- Parsing the `/`-joined string of good components gives these components. -/
theorem parseParts_joinWith {ps : List Str} (h : ∀ c ∈ ps, CompOk c) :
    parseParts [joinWith '/' ps] = { root := [], comps := ps } := by
  unfold parseParts
  simp only [List.foldl, parseStep]
  rw [splitRoot_of_not_slash (head_joinWith h)]
  simp only [if_true, List.nil_append]
  cases ps with
  | nil => rfl
  | cons p ps =>
    rw [splitOn_joinWith (by simp) (fun c hc => (h c hc).2.2), filter_keep h]

theorem parts_drop_one {p : PPath} (h : p.root ≠ []) : p.parts.drop 1 = p.comps := by
  simp [PPath.parts, h]

/-- What the two-step construction in `__new__` amounts to. -/
theorem metadataPath_eq (args : List Str) :
    metadataPath args = { root := [], comps := (parseParts args).comps } := by
  unfold metadataPath
  simp only
  have ok := parseParts_ok args
  by_cases h : (parseParts args).root = []
  · simp only [PPath.isAbsolute, h, PPath.parts, if_true]
    simpa using parseParts_joinWith ok
  · simp only [PPath.isAbsolute, parts_drop_one h]
    simpa [h] using parseParts_joinWith ok

theorem joinWith_eq_nil {ps : List Str} (h : ∀ c ∈ ps, CompOk c) :
    joinWith '/' ps = [] ↔ ps = [] := by
  cases ps with
  | nil => simp [joinWith]
  | cons p ps =>
    obtain ⟨h1, _, _⟩ := h p (by simp)
    cases ps <;> simp [joinWith, h1]

theorem joinWith_ne_dot {ps : List Str} (h : ∀ c ∈ ps, CompOk c) :
    joinWith '/' ps ≠ ['.'] := by
  cases ps with
  | nil => simp [joinWith]
  | cons p ps =>
    obtain ⟨h1, h2, _⟩ := h p (by simp)
    cases ps with
    | nil => simpa [joinWith] using h2
    | cons q qs =>
      cases p with
      | nil => exact absurd rfl h1
      | cons a p => cases p <;> simp [joinWith]

theorem str_rel {ps : List Str} (h : ∀ c ∈ ps, CompOk c) :
    PPath.str { root := [], comps := ps } = joinWith '/' ps := by
  unfold PPath.str PPath.purePosixStr
  simp only [List.nil_append]
  by_cases hj : joinWith '/' ps = []
  · simp [hj]
  · simp [hj, joinWith_ne_dot h]

end MM
