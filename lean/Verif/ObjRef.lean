/-
Object references: `mapper/gitmapper/objectreference.py`.
-/
import Verif.TreeUpdater

namespace MM

/-- `GitReference` (objectreference.py 19-24) -/
def objectRefName : Str := c!"refs/datalad/object-references-2.0"
/-- `GitReference` (objectreference.py 19-24) -/
def legacyTreesName : Str := c!"refs/datalad/object-references/trees"
/-- `GitReference` (objectreference.py 19-24) -/
def legacyBlobsName : Str := c!"refs/datalad/object-references/blobs"

/-- The repositories and the two global sets of objectreference.py (lines 16, 27), as lists
without duplicates.  The first component of an object reference is `true` for trees. -/
structure RefState where
  repo : Repo
  cached : List (Bool × Str)
  checked : List Realm
  deriving Repr

/-- Run git commands. -/
def liftR {α : Type} (g : G α) : M RefState α := fun s =>
  match g s.repo with
  | (x, repo) => (x, { s with repo := repo })

/-- `set.add` -/
def insertNew {α : Type} [DecidableEq α] (l : List α) (a : α) : List α := if a ∈ l then l else l ++ [a]

/-- `cached_object_references.add` -/
def cacheRef (x : Bool × Str) : M RefState Unit :=
  M.modify fun s => { s with cached := insertNew s.cached x }

/-- `add_object_reference` (objectreference.py 30-37) -/
def addObjectRef (isTree : Bool) (h : Str) : M RefState Unit :=
  if h = noneLocation then pure () else cacheRef (isTree, h)

/-- `git_ls_tree` (gitbackend/subprocess.py 113-116) -/
def gitLsTree (C : Cfg) (r : Realm) (loc : Str) : G (List Str) :=
  gitCmd fun L => ([], do
    let es ← treeAt C L r loc
    .ok (splitlines (catTree es)))

/-- The body of the loop in `add_legacy_store_entries_from` (objectreference.py 48-55) -/
def cacheLegacyLine (isTree : Bool) (l : Str) : M RefState Unit := do
  let (_, _, h, _) ← M.ofExcept (splitLstreeLine l)
  cacheRef (isTree, h)

/-- `add_legacy_store_entries_from` (objectreference.py 40-58) -/
def addLegacyFrom (C : Cfg) (r : Realm) (name : Str) (isTree : Bool) : M RefState Bool :=
  M.catchRuntime
    (do
      let lines ← liftR (gitLsTree C r name)
      let _ ← M.forEach (cacheLegacyLine isTree) lines
      pure true)
    (pure false)

/-- `add_legacy_store_entries` (objectreference.py 61-80) -/
def addLegacy (C : Cfg) (r : Realm) : M RefState (Bool × Bool) := do
  let s ← M.get
  if r ∈ s.checked then pure (false, false)
  else do
    M.modify fun s => { s with checked := insertNew s.checked r }
    let t ← addLegacyFrom C r legacyTreesName true
    let b ← addLegacyFrom C r legacyBlobsName false
    pure (t, b)

/-- The names under which an object reference is stored (objectreference.py 108-113) -/
def chunks (h : Str) : List Str := [h.take 3, (h.drop 3).take 3, (h.drop 6).take 3, h.drop 9]

/-- The path of an object reference (objectreference.py 106-117); hashes of another length
are a `ValueError` in `PathInfo` (treeupdater.py 66-67, 85-88). -/
def refInfo (x : Bool × Str) : Except PyErr PathInfo :=
  if x.2.length = 40 then .ok ⟨chunks x.2, x.2, x.1⟩ else .error .value

/-- The locked part of `flush_object_references` (objectreference.py 120-126): any
`RuntimeError` while reading the tree makes it start with an empty one.  The lock itself
is in `Lock` and `Concurrent`.  The recursion depth of Python is 1000. -/
def storeRefs (C : Cfg) (r : Realm) (infos : List PathInfo) : M RefState Unit := do
  let root ← M.catchRuntime (liftR (getDir C r objectRefName)) (pure [])
  let h ← liftR (addPaths C 1000 r infos root)
  liftR (gitUpdateRef C r objectRefName h)

/-- `flush_object_references` (objectreference.py 105-128), the part for the cached set -/
def flushCached (C : Cfg) (r : Realm) : M RefState Unit := do
  let s ← M.get
  if s.cached.isEmpty then pure ()
  else do
    let infos ← M.ofExcept (eachOk refInfo s.cached)
    storeRefs C r infos
    M.modify fun s => { s with cached := [] }

/-- `remove_legacy_store_reference` (objectreference.py 83-89, 130-133), if a store was read -/
def dropLegacy (r : Realm) (name : Str) (added : Bool) : M RefState Unit :=
  if added then liftR (gitDeleteRef r name) else pure ()

/-- `flush_object_references` (objectreference.py 92-133) -/
def flush (C : Cfg) (r : Realm) : M RefState Unit := do
  let (t, b) ← addLegacy C r
  flushCached C r
  dropLegacy r legacyTreesName t
  dropLegacy r legacyBlobsName b

/-! ### What is stored -/

/-- The object-reference tree of the repository has an entry for the object. -/
def Recorded (C : Cfg) (L : Log) (r : Realm) (x : Bool × Str) : Prop :=
  ∃ es, resolve C L r objectRefName = some (.tree es) ∧ entryAt C L r es (chunks x.2) = some x

/-- A legacy store of the repository has an entry for the object. -/
def InLegacy (C : Cfg) (L : Log) (r : Realm) (name h : Str) : Prop :=
  ∃ es, resolve C L r name = some (.tree es) ∧ ∃ e ∈ es, e.hash = h

/-! ### Names -/

theorem char_le {a b : Char} (h : a ≤ b) : a.toNat ≤ b.toNat := h

theorem hexVal_some {c : Char} (h : (hexVal c).isSome = true) :
    32 ≤ c.toNat ∧ c.toNat < 127 ∧ c.toNat ≠ 34 ∧ c.toNat ≠ 92 ∧ c.toNat ≠ 47 := by
  unfold hexVal at h
  split at h
  · rename_i hx
    have h1 : 48 ≤ c.toNat := char_le hx.1
    have h2 : c.toNat ≤ 57 := char_le hx.2
    omega
  · split at h
    · rename_i hx
      have h1 : 97 ≤ c.toNat := char_le hx.1
      have h2 : c.toNat ≤ 102 := char_le hx.2
      omega
    · split at h
      · rename_i hx
        have h1 : 65 ≤ c.toNat := char_le hx.1
        have h2 : c.toNat ≤ 70 := char_le hx.2
        omega
      · cases h

theorem gitQuote_hex {n : Str} (h : ∀ c ∈ n, (hexVal c).isSome = true) : gitQuote n = n ∧ '/' ∉ n := by
  constructor
  · have key : ∀ n : Str, (∀ c ∈ n, (hexVal c).isSome = true) →
        (utf8 n).all plainByte = true ∧ (utf8 n).flatMap quoteByte = n := by
      intro n
      induction n with
      | nil => intro _; exact ⟨rfl, rfl⟩
      | cons c n ih =>
        intro h
        obtain ⟨h1, h2⟩ := ih fun x hx => h x (List.mem_cons_of_mem _ hx)
        obtain ⟨a1, a2, a3, a4, _⟩ := hexVal_some (h c (List.mem_cons_self ..))
        have hu : utf8 (c :: n) = c.toNat :: utf8 n := by
          unfold utf8
          rw [List.flatMap_cons, utf8Char_ascii (by omega)]
          rfl
        have hq : quoteByte c.toNat = [c] := by
          unfold quoteByte
          rw [if_neg (by omega), if_neg (by omega), if_neg (by omega), if_neg (by omega),
            if_neg (by omega), if_neg (by omega), if_neg (by omega), if_neg (by omega), if_neg (by omega),
            if_neg (by omega)]
          simp
        rw [hu]
        constructor
        · rw [List.all_cons, h1, Bool.and_true]
          unfold plainByte
          simp; omega
        · rw [List.flatMap_cons, hq, h2]; rfl
    obtain ⟨h1, h2⟩ := key n h
    unfold gitQuote
    simp only
    rw [if_pos h1]
    exact h2
  · intro hm
    exact (hexVal_some (h _ hm)).2.2.2.2 rfl

theorem chunks_mem {h : Str} {n : Str} (hn : n ∈ chunks h) : ∀ c ∈ n, c ∈ h := by
  unfold chunks at hn
  intro c hc
  simp only [List.mem_cons, List.not_mem_nil, or_false] at hn
  rcases hn with rfl | rfl | rfl | rfl
  · exact List.mem_of_mem_take hc
  · exact List.mem_of_mem_drop (List.mem_of_mem_take hc)
  · exact List.mem_of_mem_drop (List.mem_of_mem_take hc)
  · exact List.mem_of_mem_drop hc

theorem chunks_flatten (h : Str) : (chunks h).flatten = h := by
  unfold chunks
  simp only [List.flatten_cons, List.flatten_nil, List.append_nil]
  have e1 : h.drop 9 = (h.drop 6).drop 3 := by rw [List.drop_drop]
  have e2 : h.drop 6 = (h.drop 3).drop 3 := by rw [List.drop_drop]
  rw [e1, List.take_append_drop, e2, List.take_append_drop, List.take_append_drop]

theorem chunks_inj {a b : Str} (h : chunks a = chunks b) : a = b := by
  rw [← chunks_flatten a, ← chunks_flatten b, h]

theorem chunks_length (h : Str) : (chunks h).length = 4 := rfl

/-- A path of an object reference is not above another one. -/
theorem chunks_prefix {a b : Str} (h : chunks a <+: chunks b) : a = b :=
  chunks_inj (h.eq_of_length rfl)

theorem refInfo_ok {x : Bool × Str} (h : isHash x.2 = true) : refInfo x = .ok ⟨chunks x.2, x.2, x.1⟩ := by
  unfold refInfo
  rw [if_pos (isHash_cons h).1]

theorem refInfo_well {x : Bool × Str} (h : isHash x.2 = true) : WellInfo ⟨chunks x.2, x.2, x.1⟩ :=
  ⟨h, fun _ hn => gitQuote_hex fun c hc => (isHash_cons h).2 c (chunks_mem hn c hc)⟩

/-- The paths of a set of object references -/
def refInfos (xs : List (Bool × Str)) : List PathInfo := xs.map fun x => ⟨chunks x.2, x.2, x.1⟩

theorem eachOk_refInfo {xs : List (Bool × Str)} (h : ∀ x ∈ xs, isHash x.2 = true) :
    eachOk refInfo xs = .ok (refInfos xs) := by
  induction xs with
  | nil => rfl
  | cons x xs ih =>
    unfold eachOk
    rw [bind_of_eq_ok _ (refInfo_ok (h x (List.mem_cons_self ..))),
      bind_of_eq_ok _ (ih fun y hy => h y (List.mem_cons_of_mem _ hy))]
    rfl

/-! ### Crash points -/

/-- What holds for the state of the repositories at every moment between two states. -/
def Always (I : Log → Prop) (a b : Log) : Prop := a <:+ b ∧ ∀ L, a <:+ L → L <:+ b → I L

theorem Always.trans {I : Log → Prop} {a b c : Log} (h1 : Always I a b) (h2 : Always I b c) :
    Always I a c := by
  refine ⟨h1.1.trans h2.1, fun L h3 h4 => ?_⟩
  rcases List.suffix_or_suffix_of_suffix h4 h2.1 with h | h
  · exact h1.2 L h3 h
  · exact h2.2 L h h4

theorem Always.refl {I : Log → Prop} {a : Log} (h : I a) : Always I a a :=
  ⟨List.suffix_refl a, fun L h1 h2 => by
    have : L = a := (h1.eq_of_length_le h2.length_le).symm
    rw [this]; exact h⟩

theorem Always.imp {I J : Log → Prop} {a b : Log} (h : Always I a b)
    (hij : ∀ L, a <:+ L → L <:+ b → I L → J L) : Always J a b :=
  ⟨h.1, fun L h1 h2 => hij L h1 h2 (h.2 L h1 h2)⟩

theorem Always.last {I : Log → Prop} {a b : Log} (h : Always I a b) : I b := h.2 b h.1 (List.suffix_refl b)

theorem grows_of_suffix {a b : Log} (h : a <:+ b) : Grows a b := by
  obtain ⟨K, rfl⟩ := h
  exact grows_append K a

/-- If all changes are of a kind, then all changes up to any moment are. -/
theorem always_of_ops {P : GitOp → Prop} {a b K : Log} (h : b = K ++ a) (hK : ∀ op ∈ K, P op) :
    Always (fun L => ∃ K', L = K' ++ a ∧ ∀ op ∈ K', P op) a b := by
  subst h
  refine ⟨List.suffix_append K a, ?_⟩
  rintro L ⟨K', rfl⟩ ⟨K2, h2⟩
  rw [← List.append_assoc] at h2
  have := List.append_cancel_right h2
  exact ⟨K', rfl, fun op hop => hK op (by rw [← this]; exact List.mem_append_right _ hop)⟩

theorem OnlySaves.always {r : Realm} {s s' : Repo} (h : OnlySaves r s s') :
    Always (fun L => SameRefs s.log L ∧ Grows s.log L) s.log s'.log := by
  obtain ⟨K, e, f⟩ := h
  refine (always_of_ops e f).imp fun L _ _ hL => ?_
  obtain ⟨K', rfl, hK'⟩ := hL
  exact ⟨sameRefs_append (fun op hop => ⟨r, hK' op hop⟩) _, grows_append _ _⟩

/-! ### The steps -/

theorem objectRefName_notHash : isHash objectRefName = false := by decide
theorem legacyTreesName_notHash : isHash legacyTreesName = false := by decide
theorem legacyBlobsName_notHash : isHash legacyBlobsName = false := by decide

theorem Recorded.later {C : Cfg} {L L' : Log} {r : Realm} {x : Bool × Str} (h : Recorded C L r x)
    (hg : Grows L L') (hr : refOf L' r objectRefName = refOf L r objectRefName)
    (hc : CollisionFree C L') : Recorded C L' r x := by
  obtain ⟨es, h1, h2⟩ := h
  refine ⟨es, ?_, entryAt_found hg hc _ _ _ h2⟩
  unfold resolve at h1 ⊢
  rw [objectRefName_notHash] at h1 ⊢
  simp only [Bool.false_eq_true, if_false] at h1 ⊢
  rw [hr]
  split at h1
  · exact findObj_mono hg hc h1
  · cases h1

theorem liftR_run {α : Type} (g : G α) (s : RefState) :
    liftR g s = ((g s.repo).1, { s with repo := (g s.repo).2 }) := rfl

theorem mem_insertNew {α : Type} [DecidableEq α] {l : List α} {a b : α} :
    b ∈ insertNew l a ↔ b ∈ l ∨ b = a := by
  unfold insertNew
  split
  · rename_i h
    constructor
    · exact Or.inl
    · rintro (h' | rfl)
      · exact h'
      · exact h
  · simp

theorem nodup_insertNew {α : Type} [DecidableEq α] {l : List α} {a : α} (h : l.Nodup) :
    (insertNew l a).Nodup := by
  unfold insertNew
  split
  · exact h
  · rename_i ha
    rw [List.nodup_append]
    refine ⟨h, by simp, ?_⟩
    intro x hx y hy hxy
    rw [List.mem_singleton] at hy
    subst hy
    subst hxy
    exact ha hx

/-- What reading a legacy store does. -/
structure LegacyRead (C : Cfg) (r : Realm) (name : Str) (t added : Bool) (s s' : RefState) : Prop where
  log : s'.repo.log = s.repo.log
  checked : s'.checked = s.checked
  keeps : ∀ x ∈ s.cached, x ∈ s'.cached
  only : ∀ x ∈ s'.cached, x ∈ s.cached ∨ (x.1 = t ∧ InLegacy C s.repo.log r name x.2)
  all : added = true → ∀ h, InLegacy C s.repo.log r name h → (t, h) ∈ s'.cached
  faults : s.repo.faults = [] → s'.repo.faults = []
  nodup : s.cached.Nodup → s'.cached.Nodup

theorem cacheLines_ok (t : Bool) : ∀ (es : List TreeEntry) (s : RefState),
    (∀ e ∈ es, isHash e.hash = true) →
    ∃ us s', M.forEach (cacheLegacyLine t) (es.map fun e => specLine e (gitQuote e.name)) s = (.ok us, s') ∧
      s'.repo = s.repo ∧ s'.checked = s.checked ∧
      (∀ x, x ∈ s'.cached ↔ x ∈ s.cached ∨ ∃ e ∈ es, x = (t, e.hash)) ∧
      (s.cached.Nodup → s'.cached.Nodup) := by
  intro es
  induction es with
  | nil => intro s _; exact ⟨[], s, rfl, rfl, rfl, by simp, id⟩
  | cons e es ih =>
    intro s h
    have h1 : cacheLegacyLine t (specLine e (gitQuote e.name)) s =
        (.ok (), { s with cached := insertNew s.cached (t, e.hash) }) := by
      unfold cacheLegacyLine
      rw [splitLstreeLine_spec (h e (List.mem_cons_self ..))]
      rfl
    obtain ⟨us, s', h2, h3, h4, h5, h6⟩ := ih { s with cached := insertNew s.cached (t, e.hash) }
      fun x hx => h x (List.mem_cons_of_mem _ hx)
    refine ⟨() :: us, s', ?_, h3, h4, ?_, fun hn => h6 (nodup_insertNew hn)⟩
    · rw [List.map_cons, M.forEach_cons, M.bind_of_ok h1, M.bind_of_ok h2]
      rfl
    · intro x
      rw [h5]
      simp only [mem_insertNew, List.mem_cons]
      constructor
      · rintro ((h | rfl) | ⟨y, hy, rfl⟩)
        · exact Or.inl h
        · exact Or.inr ⟨e, Or.inl rfl, rfl⟩
        · exact Or.inr ⟨y, Or.inr hy, rfl⟩
      · rintro (h | ⟨y, rfl | hy, rfl⟩)
        · exact Or.inl (Or.inl h)
        · exact Or.inl (Or.inr rfl)
        · exact Or.inr ⟨y, hy, rfl⟩

theorem gitCmd_reading {α : Type} (f : Log → Except PyErr α) (s : Repo) :
    (gitCmd (fun L => ([], f L)) s).2.log = s.log ∧
    (s.faults = [] → (gitCmd (fun L => ([], f L)) s).2.faults = []) ∧
    ((gitCmd (fun L => ([], f L)) s).1 = .error .runtime ∨ (gitCmd (fun L => ([], f L)) s).1 = f s.log) := by
  unfold gitCmd
  split
  · rename_i k fs h; exact ⟨by simp, (fun hn => by rw [hn] at h; cases h), Or.inl rfl⟩
  · rename_i fs h; exact ⟨by simp, (fun hn => by rw [hn] at h; cases h), Or.inr rfl⟩
  · exact ⟨by simp, fun _ => rfl, Or.inr rfl⟩

theorem treeAt_cases (C : Cfg) (L : Log) (r : Realm) (loc : Str) :
    (∃ es, treeAt C L r loc = .ok es ∧ resolve C L r loc = some (.tree es)) ∨
    (treeAt C L r loc = .error .runtime ∧ ∀ es, resolve C L r loc ≠ some (.tree es)) := by
  unfold treeAt
  cases h : resolve C L r loc with
  | none => exact Or.inr ⟨rfl, by simp⟩
  | some o =>
    cases o with
    | tree es => exact Or.inl ⟨es, rfl, rfl⟩
    | blob b => exact Or.inr ⟨rfl, by simp⟩

theorem addLegacyFrom_ok {C : Cfg} {r : Realm} {s : RefState} (hw : WellTrees s.repo.log r) (name : Str)
    (t : Bool) : ∃ added s', addLegacyFrom C r name t s = (.ok added, s') ∧ LegacyRead C r name t added s s' ∧
      (s.repo.faults = [] → ∀ es, resolve C s.repo.log r name = some (.tree es) → added = true) := by
  unfold addLegacyFrom
  have hrun := liftR_run (gitLsTree C r name) s
  obtain ⟨g1, g2, g3⟩ := gitCmd_reading (fun L => (treeAt C L r name).bind fun es =>
    (.ok (splitlines (catTree es)) : Except PyErr (List Str))) s.repo
  have hdef : gitLsTree C r name = gitCmd (fun L => ([], (treeAt C L r name).bind fun es =>
    (.ok (splitlines (catTree es)) : Except PyErr (List Str)))) := rfl
  rw [hdef] at hrun ⊢
  cases hres : (gitCmd (fun L => ([], (treeAt C L r name).bind fun es =>
    (.ok (splitlines (catTree es)) : Except PyErr (List Str)))) s.repo) with
  | mk o repo =>
    rw [hres] at g1 g2 g3 hrun
    simp only at g1 g2 g3 hrun
    cases o with
    | error e =>
      have he : e = .runtime := by
        rcases g3 with h | h
        · injection h
        · rcases treeAt_cases C s.repo.log r name with ⟨es, h1, _⟩ | ⟨h1, _⟩
          · rw [h1] at h; cases h
          · rw [h1] at h; injection h
      subst he
      refine ⟨false, { s with repo := repo }, ?_, ?_, ?_⟩
      · unfold M.catchRuntime
        rw [M.bind_of_error hrun]
        rfl
      · exact ⟨g1, rfl, fun x hx => hx, fun x hx => Or.inl hx, (fun h => by cases h), g2, id⟩
      · intro hf es hr
        exfalso
        have h2 := gitCmd_works (fun L => (([] : List GitOp), (treeAt C L r name).bind fun es =>
          (.ok (splitlines (catTree es)) : Except PyErr (List Str)))) s.repo hf
        rw [hres] at h2
        injection h2 with h2 _
        simp only at h2
        unfold treeAt at h2
        rw [hr] at h2
        cases h2
    | ok lines =>
      rcases g3 with h | h
      · cases h
      rcases treeAt_cases C s.repo.log r name with ⟨es, h1, h2⟩ | ⟨h1, _⟩
      · rw [h1] at h
        injection h with h
        have hwt := hw es (resolve_is_stored h2)
        rw [splitlines_catTree hwt.hashes] at h
        obtain ⟨us, s', l1, l2, l3, l4, l5⟩ := cacheLines_ok t es { s with repo := repo } hwt.hashes
        refine ⟨true, s', ?_, ?_, fun _ _ _ => rfl⟩
        · unfold M.catchRuntime
          rw [M.bind_of_ok hrun, h, M.bind_of_ok l1]
          rfl
        · refine ⟨by rw [l2]; exact g1, l3, fun x hx => (l4 x).mpr (Or.inl hx), ?_, ?_, ?_, l5⟩
          · intro x hx
            rcases (l4 x).mp hx with h | ⟨e, he, rfl⟩
            · exact Or.inl h
            · exact Or.inr ⟨rfl, es, h2, e, he, rfl⟩
          · rintro _ y ⟨es', e1, e, e2, rfl⟩
            rw [h2] at e1
            cases e1
            exact (l4 _).mpr (Or.inr ⟨e, e2, rfl⟩)
          · intro hf; rw [l2]; exact g2 hf
      · rw [h1] at h; cases h

/-- What reading both legacy stores does. -/
structure LegacyBoth (C : Cfg) (r : Realm) (t b : Bool) (s s' : RefState) : Prop where
  log : s'.repo.log = s.repo.log
  keeps : ∀ x ∈ s.cached, x ∈ s'.cached
  only : ∀ x ∈ s'.cached, x ∈ s.cached ∨ (x.1 = true ∧ InLegacy C s.repo.log r legacyTreesName x.2) ∨
    (x.1 = false ∧ InLegacy C s.repo.log r legacyBlobsName x.2)
  trees : t = true → ∀ h, InLegacy C s.repo.log r legacyTreesName h → (true, h) ∈ s'.cached
  blobs : b = true → ∀ h, InLegacy C s.repo.log r legacyBlobsName h → (false, h) ∈ s'.cached
  faults : s.repo.faults = [] → s'.repo.faults = []
  nodup : s.cached.Nodup → s'.cached.Nodup
  first : r ∉ s.checked → s.repo.faults = [] →
    (∀ es, resolve C s.repo.log r legacyTreesName = some (.tree es) → t = true) ∧
    (∀ es, resolve C s.repo.log r legacyBlobsName = some (.tree es) → b = true)

theorem addLegacy_ok {C : Cfg} {r : Realm} {s : RefState} (hw : WellTrees s.repo.log r) :
    ∃ t b s', addLegacy C r s = (.ok (t, b), s') ∧ LegacyBoth C r t b s s' := by
  by_cases hc : r ∈ s.checked
  · refine ⟨false, false, s, ?_, rfl, fun x hx => hx, fun x hx => Or.inl hx, (fun h => by cases h),
      (fun h => by cases h), id, id, fun h => absurd hc h⟩
    unfold addLegacy
    rw [M.bind_of_ok (M.get_run s), if_pos hc]
    rfl
  · obtain ⟨t, s1, e1, l1, f1⟩ := addLegacyFrom_ok (C := C) (s := { s with checked := insertNew s.checked r }) hw
      legacyTreesName true
    obtain ⟨b, s2, e2, l2, f2⟩ := addLegacyFrom_ok (C := C) (s := s1) (r := r) (by rw [l1.log]; exact hw)
      legacyBlobsName false
    have hlog : s2.repo.log = s.repo.log := l2.log.trans l1.log
    refine ⟨t, b, s2, ?_, hlog, fun x hx => l2.keeps x (l1.keeps x hx), ?_, ?_, ?_,
      fun h => l2.faults (l1.faults h), fun h => l2.nodup (l1.nodup h), ?_⟩
    · unfold addLegacy
      rw [M.bind_of_ok (M.get_run s), if_neg hc]
      rw [M.bind_of_ok (M.modify_run _ s), M.bind_of_ok e1, M.bind_of_ok e2]
      rfl
    · intro x hx
      rcases l2.only x hx with h | h
      · rcases l1.only x h with h | h
        · exact Or.inl h
        · exact Or.inr (Or.inl h)
      · rw [l1.log] at h
        exact Or.inr (Or.inr h)
    · intro ht h hh
      exact l2.keeps _ (l1.all ht h hh)
    · intro hb h hh
      refine l2.all hb h ?_
      rw [l1.log]
      exact hh
    · intro _ hf
      refine ⟨f1 hf, ?_⟩
      have := f2 (l1.faults hf)
      rw [l1.log] at this
      exact this

/-- The next git command does not fail by itself. -/
def NextWorks (s : Repo) : Prop := ∀ k fs, s.faults ≠ .fail k :: fs

theorem getDir_cases {C : Cfg} {r : Realm} {loc : Str} {s : Repo} (hw : WellTrees s.log r) :
    (getDir C r loc s).2.log = s.log ∧
    ((∃ es, (getDir C r loc s).1 = .ok (es.map TreeEntry.raw) ∧ resolve C s.log r loc = some (.tree es) ∧
        WellTree es) ∨
      ((getDir C r loc s).1 = .error .runtime ∧
        (NextWorks s → ∀ es, resolve C s.log r loc ≠ some (.tree es)))) := by
  have hdef : getDir C r loc = gitCmd (fun L => ([], (treeAt C L r loc).bind fun es =>
    eachOk dirLine (splitlines (catTree es)))) := rfl
  rw [hdef]
  have h0 : (fun L => (treeAt C L r loc).bind fun es => eachOk dirLine (splitlines (catTree es))) s.log =
      .error .runtime ∧ (∀ es, resolve C s.log r loc ≠ some (.tree es)) ∨
      ∃ es, (fun L => (treeAt C L r loc).bind fun es => eachOk dirLine (splitlines (catTree es))) s.log =
        .ok (es.map TreeEntry.raw) ∧ resolve C s.log r loc = some (.tree es) ∧ WellTree es := by
    rcases treeAt_cases C s.log r loc with ⟨es, h1, h2⟩ | ⟨h1, h2⟩
    · have hwt := hw es (resolve_is_stored h2)
      refine Or.inr ⟨es, ?_, h2, hwt⟩
      simp only
      rw [h1]
      exact dirLines_ok hwt.hashes
    · refine Or.inl ⟨?_, h2⟩
      simp only
      rw [h1]
      rfl
  unfold gitCmd
  split
  · rename_i k fs h
    exact ⟨by simp, Or.inr ⟨rfl, fun hn => absurd h (hn k fs)⟩⟩
  · refine ⟨by simp, ?_⟩
    rcases h0 with ⟨h1, h2⟩ | ⟨es, h1, h2⟩
    · exact Or.inr ⟨h1, fun _ => h2⟩
    · exact Or.inl ⟨es, h1, h2⟩
  · refine ⟨by simp, ?_⟩
    rcases h0 with ⟨h1, h2⟩ | ⟨es, h1, h2⟩
    · exact Or.inr ⟨h1, fun _ => h2⟩
    · exact Or.inl ⟨es, h1, h2⟩

/-- The tree that the object references were added to: the one that was there, or an empty
one if there was none or it could not be read. -/
def OldStore (C : Cfg) (s : Repo) (r : Realm) (old : List TreeEntry) : Prop :=
  resolve C s.log r objectRefName = some (.tree old) ∨
    (old = [] ∧ (NextWorks s → ∀ es, resolve C s.log r objectRefName ≠ some (.tree es)))

/-- The changes of the locked part: objects are stored, then the reference may be set. -/
def StoreLog (C : Cfg) (r : Realm) (infos : List PathInfo) (s s' : RefState) : Prop :=
  ∃ mid, OnlySaves r s.repo mid ∧ (s'.repo.log = mid.log ∨
    ∃ old new, s'.repo.log = .setRef r objectRefName (C.hash (.tree new)) :: mid.log ∧
      OldStore C s.repo r old ∧ Stored mid.log r (.tree new) ∧ WellTrees mid.log r ∧
      Merged C mid.log r infos old new)

theorem gitUpdateRef_outcome {C : Cfg} {r : Realm} {name h : Str} {s : Repo} :
    (gitUpdateRef C r name h s).2.log = s.log ∨ (gitUpdateRef C r name h s).2.log = .setRef r name h :: s.log := by
  obtain ⟨k, hk⟩ : ∃ k, (gitUpdateRef C r name h s).2.log = ((match resolve C s.log r h with
    | some _ => ([GitOp.setRef r name h], (.ok () : Except PyErr Unit))
    | none => ([], .error .runtime)).1.take k).reverse ++ s.log := gitCmd_log _ s
  rw [hk]
  cases resolve C s.log r h with
  | none => left; simp
  | some o =>
    cases k with
    | zero => left; rfl
    | succ k => right; simp

theorem gitUpdateRef_sets {C : Cfg} {r : Realm} {name h : Str} {s s' : Repo}
    (hr : gitUpdateRef C r name h s = (.ok (), s')) : s'.log = .setRef r name h :: s.log := by
  obtain ⟨h1, h2⟩ := gitCmd_ok hr
  revert h1 h2
  cases resolve C s.log r h with
  | none => intro h1; cases h1
  | some o => intro _ h2; exact h2

theorem storeRefs_any {C : Cfg} {r : Realm} {infos : List PathInfo} {s s' : RefState}
    {o : Except PyErr Unit} (hw : WellTrees s.repo.log r) (hi : ∀ i ∈ infos, WellInfo i)
    (hr : storeRefs C r infos s = (o, s')) :
    s'.cached = s.cached ∧ s'.checked = s.checked ∧ StoreLog C r infos s s' ∧
      (o = .ok () → s'.repo.log ≠ [] ∧ ∃ mid old new, OnlySaves r s.repo mid ∧
        s'.repo.log = .setRef r objectRefName (C.hash (.tree new)) :: mid.log ∧
        OldStore C s.repo r old ∧ Stored mid.log r (.tree new) ∧ WellTrees mid.log r ∧
        Merged C mid.log r infos old new) := by
  obtain ⟨g1, g2⟩ := getDir_cases (C := C) (loc := objectRefName) hw
  -- reading
  have hread : ∃ old repo, M.catchRuntime (liftR (getDir C r objectRefName)) (pure []) s =
      (.ok (old.map TreeEntry.raw), { s with repo := repo }) ∧ repo.log = s.repo.log ∧
      OldStore C s.repo r old ∧ WellTree old := by
    unfold M.catchRuntime
    rw [liftR_run]
    rcases g2 with ⟨es, h1, h2, h3⟩ | ⟨h1, h2⟩
    · rw [h1]
      exact ⟨es, _, rfl, g1, Or.inl h2, h3⟩
    · rw [h1]
      exact ⟨[], _, rfl, g1, Or.inr ⟨rfl, h2⟩, WellTree.nil⟩
  obtain ⟨old, repo, e1, e2, e3, e4⟩ := hread
  unfold storeRefs at hr
  rw [M.bind_of_ok e1] at hr
  have hany := addPaths_any C r 1000 infos (old.map TreeEntry.raw) repo
  have hs0 : OnlySaves r s.repo repo := ⟨[], by rw [e2]; rfl, by simp⟩
  have hl := liftR_run (addPaths C 1000 r infos (old.map TreeEntry.raw)) { s with repo := repo }
  cases hp : addPaths C 1000 r infos (old.map TreeEntry.raw) repo with
  | mk x mid =>
    simp only at hl
    rw [hp] at hl hany
    simp only at hl hany
    have hsm := hs0.trans hany
    cases x with
    | error e =>
      rw [M.bind_of_error hl] at hr
      cases hr
      exact ⟨rfl, rfl, ⟨mid, hsm, Or.inl rfl⟩, (fun h => by cases h)⟩
    | ok h =>
      rw [M.bind_of_ok hl, liftR_run] at hr
      obtain ⟨g, w, new, rfl, st, m⟩ := addPaths_ok 1000 infos old repo h mid hi (by rw [e2]; exact hw) e4 hp
      simp only at hr
      cases hr
      refine ⟨rfl, rfl, ⟨mid, hsm, ?_⟩, ?_⟩
      · rcases gitUpdateRef_outcome (C := C) (r := r) (name := objectRefName) (h := C.hash (.tree new)) (s := mid)
          with hu | hu
        · exact Or.inl hu
        · exact Or.inr ⟨old, new, hu, e3, st, w, m⟩
      · intro ho
        have hu := gitUpdateRef_sets (C := C) (r := r) (name := objectRefName) (h := C.hash (.tree new)) (s := mid)
          (s' := (gitUpdateRef C r objectRefName (C.hash (.tree new)) mid).2) (by rw [← ho])
        exact ⟨by simp only; rw [hu]; simp, mid, old, new, hsm, hu, e3, st, w, m⟩

/-- Where the reference points to the new tree, it has the old entries and the new ones. -/
theorem recorded_iff {C : Cfg} {r : Realm} {xs : List (Bool × Str)} {mid L : Log} {old new : List TreeEntry}
    (hm : Merged C mid r (refInfos xs) old new) (hg : Grows mid L) (hc : CollisionFree C L)
    (hst : Stored mid r (.tree new)) (href : refOf L r objectRefName = some (C.hash (.tree new)))
    (x : Bool × Str) :
    Recorded C L r x ↔ x ∈ xs ∨ entryAt C L r old (chunks x.2) = some x := by
  obtain ⟨m1, m2, m3, m4⟩ := hm L hg hc
  have hres : resolve C L r objectRefName = some (.tree new) := by
    unfold resolve
    rw [objectRefName_notHash, href]
    exact findObj_of_stored hc (hg _ _ hst)
  have hrec : Recorded C L r x ↔ entryAt C L r new (chunks x.2) = some x := by
    constructor
    · rintro ⟨es, h1, h2⟩
      rw [hres] at h1
      cases h1
      exact h2
    · intro h
      exact ⟨new, hres, h⟩
  rw [hrec]
  have hin : ∀ y ∈ xs, (⟨chunks y.2, y.2, y.1⟩ : PathInfo) ∈ refInfos xs := fun y hy =>
    List.mem_map.mpr ⟨y, hy, rfl⟩
  by_cases hex : ∃ y ∈ xs, y.2 = x.2
  · obtain ⟨y, hy, hyx⟩ := hex
    have h1 := m1 _ (hin y hy)
    simp only at h1
    rw [hyx] at h1
    rw [h1]
    constructor
    · intro h
      injection h with h
      rw [← h]
      refine Or.inl ?_
      rw [← hyx]
      exact hy
    · rintro (h | h)
      · have h2 := m1 _ (hin x h)
        simp only at h2
        rw [h1] at h2
        rw [h2]
      · have h2 := m4.kinds _ (hin y hy) x.1 x.2 (by simp only; rw [hyx]; exact h)
        simp only at h2
        rw [← h2]
  · have hne : ∀ y ∈ xs, y.2 ≠ x.2 := fun y hy h => hex ⟨y, hy, h⟩
    rw [m3 (chunks x.2) ?_]
    · constructor
      · exact Or.inr
      · rintro (h | h)
        · exact absurd rfl (hne x h)
        · exact h
    · intro i hi
      obtain ⟨y, hy, rfl⟩ := List.mem_map.mp hi
      exact ⟨fun h => hne y hy (chunks_prefix h), fun h => hne y hy (chunks_prefix h).symm⟩

/-- The references of other names are untouched and nothing is lost. -/
def OthersSame (r : Realm) (name : Str) (a L : Log) : Prop :=
  Grows a L ∧ ∀ r' n, (r', n) ≠ (r, name) → refOf L r' n = refOf a r' n

theorem suffix_cons_cases {op : GitOp} {L M : Log} (h : L <:+ op :: M) : L = op :: M ∨ L <:+ M :=
  List.suffix_cons_iff.mp h

/-- What the locked part does at every moment. -/
theorem StoreLog.always {C : Cfg} {r : Realm} {xs : List (Bool × Str)} {s s' : RefState}
    (h : StoreLog C r (refInfos xs) s s') (hc : CollisionFree C s'.repo.log) :
    Always (fun L => OthersSame r objectRefName s.repo.log L ∧
      (NextWorks s.repo → ∀ x, Recorded C s.repo.log r x → Recorded C L r x)) s.repo.log s'.repo.log := by
  obtain ⟨mid, hs, hcase⟩ := h
  have hmid : Always (fun L => CollisionFree C L → OthersSame r objectRefName s.repo.log L ∧
      (NextWorks s.repo → ∀ x, Recorded C s.repo.log r x → Recorded C L r x)) s.repo.log mid.log := by
    refine hs.always.imp fun L _ _ hL hcL => ⟨⟨hL.2, fun r' n _ => hL.1 r' n⟩, fun _ x hx => ?_⟩
    exact hx.later hL.2 (hL.1 _ _) hcL
  rcases hcase with h | ⟨old, new, h1, h2, h3, h4, h5⟩
  · rw [h] at hc ⊢
    exact hmid.imp fun L _ hL hI => hI (hc.mono (grows_of_suffix hL))
  · rw [h1] at hc ⊢
    refine ⟨hmid.1.trans (List.suffix_cons _ _), ?_⟩
    intro L ha hL
    rcases suffix_cons_cases hL with rfl | hL'
    · have hg : Grows mid.log (.setRef r objectRefName (C.hash (.tree new)) :: mid.log) :=
        fun _ _ hx => List.mem_cons_of_mem _ hx
      refine ⟨⟨hs.grows.trans hg, ?_⟩, ?_⟩
      · intro r' n hne
        show (if r = r' ∧ objectRefName = n then _ else refOf mid.log r' n) = _
        rw [if_neg (fun hx => hne (by rw [hx.1, hx.2]))]
        exact hs.refs r' n
      · rintro hread x ⟨es, x1, x2⟩
        refine (recorded_iff h5 hg hc h3 (by unfold refOf; rw [if_pos ⟨rfl, rfl⟩]) x).mpr (Or.inr ?_)
        rcases h2 with h2 | ⟨_, h2⟩
        · rw [h2] at x1
          cases x1
          exact entryAt_found (hs.grows.trans hg) hc _ _ _ x2
        · exact absurd x1 (h2 hread es)
    · exact hmid.2 L ha hL' (hc.mono (grows_of_suffix hL))

/-- A successful run of the locked part. -/
theorem storeRefs_done {C : Cfg} {r : Realm} {xs : List (Bool × Str)} {s s' : RefState}
    (hw : WellTrees s.repo.log r) (hi : ∀ x ∈ xs, isHash x.2 = true)
    (hr : storeRefs C r (refInfos xs) s = (.ok (), s')) (hc : CollisionFree C s'.repo.log) :
    (∀ x ∈ xs, Recorded C s'.repo.log r x) ∧ WellTrees s'.repo.log r ∧
    ∀ x, Recorded C s'.repo.log r x → x ∈ xs ∨ ∃ es, resolve C s.repo.log r objectRefName = some (.tree es) ∧
      entryAt C s'.repo.log r es (chunks x.2) = some x := by
  have hwi : ∀ i ∈ refInfos xs, WellInfo i := by
    intro i hx
    obtain ⟨x, h1, rfl⟩ := List.mem_map.mp hx
    exact refInfo_well (hi x h1)
  obtain ⟨_, _, _, h⟩ := storeRefs_any hw hwi hr
  obtain ⟨_, mid, old, new, h1, h2, h3, h4, h5, h6⟩ := h rfl
  have hg : Grows mid.log s'.repo.log := by rw [h2]; exact fun _ _ hx => List.mem_cons_of_mem _ hx
  have hiff := fun x => recorded_iff h6 hg hc h4 (by rw [h2]; unfold refOf; rw [if_pos ⟨rfl, rfl⟩]) x
  refine ⟨fun x hx => (hiff x).mpr (Or.inl hx), ?_, ?_⟩
  · intro es hx
    rw [h2] at hx
    rcases List.mem_cons.mp hx with hx | hx
    · cases hx
    · exact h5 es hx
  · intro x hx
    rcases (hiff x).mp hx with h | h
    · exact Or.inl h
    · rcases h3 with h3 | ⟨rfl, _⟩
      · exact Or.inr ⟨old, h3, h⟩
      · rw [entryAt_nil] at h; cases h

/-- What the part for the cached set does. -/
structure CachedFlush (C : Cfg) (r : Realm) (s s' : RefState) (o : Except PyErr Unit) : Prop where
  always : CollisionFree C s'.repo.log →
    Always (fun L => OthersSame r objectRefName s.repo.log L ∧
      (NextWorks s.repo → ∀ x, Recorded C s.repo.log r x → Recorded C L r x)) s.repo.log s'.repo.log
  refs : Always (fun L => OthersSame r objectRefName s.repo.log L) s.repo.log s'.repo.log
  failed : ∀ e, o = .error e → s'.cached = s.cached
  done : o = .ok () → s'.cached = []
  recorded : o = .ok () → CollisionFree C s'.repo.log → ∀ x ∈ s.cached, Recorded C s'.repo.log r x
  exact : o = .ok () → CollisionFree C s'.repo.log → ∀ x, Recorded C s'.repo.log r x →
    x ∈ s.cached ∨ ∃ es, resolve C s.repo.log r objectRefName = some (.tree es) ∧
      entryAt C s'.repo.log r es (chunks x.2) = some x
  checked : s'.checked = s.checked

theorem OthersSame.refl (r : Realm) (name : Str) (L : Log) : OthersSame r name L L :=
  ⟨Grows.refl L, fun _ _ _ => rfl⟩

theorem StoreLog.refs {C : Cfg} {r : Realm} {infos : List PathInfo} {s s' : RefState}
    (h : StoreLog C r infos s s') :
    Always (fun L => OthersSame r objectRefName s.repo.log L) s.repo.log s'.repo.log := by
  obtain ⟨mid, hs, hcase⟩ := h
  have hmid : Always (fun L => OthersSame r objectRefName s.repo.log L) s.repo.log mid.log :=
    hs.always.imp fun L _ _ hL => ⟨hL.2, fun r' n _ => hL.1 r' n⟩
  rcases hcase with h | ⟨old, new, h1, _⟩
  · rw [h]; exact hmid
  · rw [h1]
    refine ⟨hmid.1.trans (List.suffix_cons _ _), ?_⟩
    intro L ha hL
    rcases suffix_cons_cases hL with rfl | hL'
    · refine ⟨hs.grows.trans (fun _ _ hx => List.mem_cons_of_mem _ hx), ?_⟩
      intro r' n hne
      show (if r = r' ∧ objectRefName = n then _ else refOf mid.log r' n) = _
      rw [if_neg (fun hx => hne (by rw [hx.1, hx.2]))]
      exact hs.refs r' n
    · exact hmid.2 L ha hL'

theorem flushCached_any {C : Cfg} {r : Realm} {s s' : RefState} {o : Except PyErr Unit}
    (hw : WellTrees s.repo.log r) (hi : ∀ x ∈ s.cached, isHash x.2 = true)
    (hr : flushCached C r s = (o, s')) : CachedFlush C r s s' o := by
  unfold flushCached at hr
  rw [M.bind_of_ok (M.get_run s)] at hr
  by_cases he : s.cached.isEmpty = true
  · rw [if_pos he] at hr
    cases hr
    have hnil : s.cached = [] := by simpa using he
    refine ⟨fun _ => Always.refl ⟨OthersSame.refl _ _ _, fun _ _ hx => hx⟩, Always.refl (OthersSame.refl _ _ _),
      (fun e h => by cases h), fun _ => hnil, ?_, ?_, rfl⟩
    · intro _ _ x hx; rw [hnil] at hx; cases hx
    · rintro _ _ x ⟨es, h1, h2⟩
      exact Or.inr ⟨es, h1, h2⟩
  · rw [if_neg he] at hr
    have hwi : ∀ i ∈ refInfos s.cached, WellInfo i := by
      intro i hx
      obtain ⟨x, h1, rfl⟩ := List.mem_map.mp hx
      exact refInfo_well (hi x h1)
    rw [eachOk_refInfo hi, M.bind_of_ok (M.ofExcept_ok _ s)] at hr
    cases hst : storeRefs C r (refInfos s.cached) s with
    | mk x s1 =>
      obtain ⟨a1, a2, a3, _⟩ := storeRefs_any hw hwi hst
      cases x with
      | error e =>
        rw [M.bind_of_error hst] at hr
        cases hr
        exact ⟨fun h2 => a3.always h2, a3.refs, fun _ _ => a1, (fun h => by cases h),
          (fun h => by cases h), (fun h => by cases h), a2⟩
      | ok u =>
        rw [M.bind_of_ok hst] at hr
        cases hr
        refine ⟨fun h2 => a3.always h2, a3.refs, (fun e h => by cases h), fun _ => rfl, ?_, ?_, a2⟩
        · intro _ hc
          exact (storeRefs_done hw hi hst hc).1
        · intro _ hc
          exact (storeRefs_done hw hi hst hc).2.2

theorem refOf_delRef_ne {L : Log} {r r' : Realm} {name n : Str} (h : (r', n) ≠ (r, name)) :
    refOf (.delRef r name :: L) r' n = refOf L r' n := by
  show (if r = r' ∧ name = n then _ else refOf L r' n) = _
  rw [if_neg (fun hx => h (by rw [hx.1, hx.2]))]

theorem dropLegacy_any {r : Realm} {name : Str} {added : Bool} {s s' : RefState} {o : Except PyErr Unit}
    (hr : dropLegacy r name added s = (o, s')) :
    s'.cached = s.cached ∧ s'.checked = s.checked ∧
      (s'.repo.log = s.repo.log ∨ (added = true ∧ s'.repo.log = .delRef r name :: s.repo.log)) := by
  unfold dropLegacy at hr
  cases added with
  | false => cases hr; exact ⟨rfl, rfl, Or.inl rfl⟩
  | true =>
    simp only [if_true] at hr
    rw [liftR_run] at hr
    cases hr
    refine ⟨rfl, rfl, ?_⟩
    obtain ⟨k, hk⟩ : ∃ k, (gitDeleteRef r name s.repo).2.log =
      (List.take k [GitOp.delRef r name]).reverse ++ s.repo.log := gitCmd_log _ s.repo
    simp only
    rw [hk]
    cases k with
    | zero => left; rfl
    | succ k => right; simp

/-- The changes of removing a legacy store, at every moment. -/
theorem dropLegacy_always {r : Realm} {name : Str} {added : Bool} {s s' : RefState} {o : Except PyErr Unit}
    (hr : dropLegacy r name added s = (o, s')) :
    Always (fun L => OthersSame r name s.repo.log L ∧ (added = false → L = s.repo.log)) s.repo.log s'.repo.log := by
  obtain ⟨_, _, h⟩ := dropLegacy_any hr
  rcases h with h | ⟨ha, h⟩
  · rw [h]; exact Always.refl ⟨OthersSame.refl _ _ _, fun _ => rfl⟩
  · rw [h]
    refine ⟨List.suffix_cons _ _, ?_⟩
    intro L h1 h2
    rcases suffix_cons_cases h2 with rfl | h3
    · exact ⟨⟨fun _ _ hx => List.mem_cons_of_mem _ hx, fun r' n hne => refOf_delRef_ne hne⟩,
        (fun hf => by rw [ha] at hf; cases hf)⟩
    · have : L = s.repo.log := (h1.eq_of_length_le h3.length_le).symm
      rw [this]
      exact ⟨OthersSame.refl _ _ _, fun _ => rfl⟩

theorem InLegacy.later {C : Cfg} {L L' : Log} {r : Realm} {name h : Str} (hi : InLegacy C L r name h)
    (hg : Grows L L') (hr : refOf L' r name = refOf L r name) (hc : CollisionFree C L') :
    InLegacy C L' r name h := by
  obtain ⟨es, h1, h2⟩ := hi
  refine ⟨es, ?_, h2⟩
  unfold resolve at h1 ⊢
  rw [hr]
  split
  · rename_i hh
    rw [if_pos hh] at h1
    exact findObj_mono hg hc h1
  · rename_i hh
    rw [if_neg hh] at h1
    split at h1
    · exact findObj_mono hg hc h1
    · cases h1

/-- The invariant of a flush at every moment: what was recorded stays recorded if the
store could be read, and what was in a legacy store is still there or recorded. -/
def Protects (C : Cfg) (r : Realm) (readable : Prop) (a L : Log) : Prop :=
  Grows a L ∧ (readable → ∀ x, Recorded C a r x → Recorded C L r x) ∧
    (∀ h, InLegacy C a r legacyTreesName h → InLegacy C L r legacyTreesName h ∨ Recorded C L r (true, h)) ∧
    (∀ h, InLegacy C a r legacyBlobsName h → InLegacy C L r legacyBlobsName h ∨ Recorded C L r (false, h))

/-- Reading a legacy store is one command. -/
theorem addLegacyFrom_faults (C : Cfg) (r : Realm) (name : Str) (t : Bool) (s : RefState) :
    (addLegacyFrom C r name t s).2.repo.faults = s.repo.faults.tail := by
  unfold addLegacyFrom M.catchRuntime
  have hl : (liftR (gitLsTree C r name) s).2.repo.faults = s.repo.faults.tail := by
    rw [liftR_run]
    show (gitCmd _ s.repo).2.faults = _
    unfold gitCmd
    split
    · rename_i k fs h; rw [h]; rfl
    · rename_i fs h; rw [h]; rfl
    · rename_i h; rw [h]; rfl
  have hk : ∀ ls s, (M.forEach (cacheLegacyLine t) ls s).2.repo = s.repo := by
    intro ls
    refine M.Keeps.forEach (R := fun a b : RefState => b.repo = a.repo) (fun _ => rfl) (fun a b c h1 h2 => h2.trans h1) ?_
    intro l _
    refine M.Keeps.bind (R := fun a b : RefState => b.repo = a.repo) (fun a b c h1 h2 => h2.trans h1)
      (M.Keeps.ofExcept (R := fun a b : RefState => b.repo = a.repo) (fun _ => rfl) _) fun x => ?_
    intro s
    rfl
  cases h1 : liftR (gitLsTree C r name) s with
  | mk o s1 =>
    rw [h1] at hl
    cases o with
    | error e =>
      rw [M.bind_of_error h1]
      cases e <;> exact hl
    | ok ls =>
      rw [M.bind_of_ok h1]
      have h2 := hk ls s1
      cases h3 : M.forEach (cacheLegacyLine t) ls s1 with
      | mk o2 s2 =>
        rw [h3] at h2
        simp only at h2 hl
        cases o2 with
        | error e =>
          rw [M.bind_of_error h3]
          cases e <;> (show s2.repo.faults = _; rw [h2]; exact hl)
        | ok u =>
          rw [M.bind_of_ok h3]
          show s2.repo.faults = _
          rw [h2]; exact hl

/-- The commands that a flush runs before it reads the object references. -/
theorem addLegacy_faults {C : Cfg} {r : Realm} {s : RefState} (hw : WellTrees s.repo.log r) :
    (addLegacy C r s).2.repo.faults = s.repo.faults.drop (if r ∈ s.checked then 0 else 2) := by
  by_cases hc : r ∈ s.checked
  · rw [if_pos hc]
    unfold addLegacy
    rw [M.bind_of_ok (M.get_run s), if_pos hc]
    rfl
  · rw [if_neg hc]
    obtain ⟨t, s1, e1, l1, _⟩ := addLegacyFrom_ok (C := C) (s := { s with checked := insertNew s.checked r }) hw
      legacyTreesName true
    obtain ⟨b, s2, e2, _, _⟩ := addLegacyFrom_ok (C := C) (s := s1) (r := r) (by rw [l1.log]; exact hw)
      legacyBlobsName false
    have k1 := addLegacyFrom_faults C r legacyTreesName true { s with checked := insertNew s.checked r }
    have k2 := addLegacyFrom_faults C r legacyBlobsName false s1
    rw [e1] at k1
    rw [e2] at k2
    unfold addLegacy
    rw [M.bind_of_ok (M.get_run s), if_neg hc]
    rw [M.bind_of_ok (M.modify_run _ s), M.bind_of_ok e1, M.bind_of_ok e2]
    show s2.repo.faults = _
    simp only at k1 k2
    rw [k2, k1]
    cases s.repo.faults with
    | nil => rfl
    | cons a l => cases l <;> rfl

/-- The command that reads the object references in a flush does not fail by itself. -/
def StoreReadable (r : Realm) (s : RefState) : Prop :=
  ∀ k, (s.repo.faults.drop (if r ∈ s.checked then 0 else 2)).head? ≠ some (.fail k)

theorem StoreReadable.next {C : Cfg} {r : Realm} {s : RefState} (hw : WellTrees s.repo.log r)
    (h : StoreReadable r s) : NextWorks (addLegacy C r s).2.repo := by
  intro k fs hf
  rw [addLegacy_faults hw] at hf
  exact h k (by rw [hf]; rfl)

/-- What a flush does, whatever its outcome is. -/
structure Flushed (C : Cfg) (r : Realm) (s s' : RefState) (o : Except PyErr Unit) : Prop where
  always : Always (fun L => Protects C r (StoreReadable r s) s.repo.log L) s.repo.log s'.repo.log
  kept : ∀ x ∈ s.cached, x ∈ s'.cached ∨ Recorded C s'.repo.log r x
  refs : ∀ r' n, (r', n) ≠ (r, objectRefName) → (r', n) ≠ (r, legacyTreesName) →
    (r', n) ≠ (r, legacyBlobsName) → refOf s'.repo.log r' n = refOf s.repo.log r' n
  done : o = .ok () → s'.cached = []

theorem flush_any {C : Cfg} {r : Realm} {s s' : RefState} {o : Except PyErr Unit}
    (hw : WellTrees s.repo.log r) (hi : ∀ x ∈ s.cached, isHash x.2 = true)
    (hc : CollisionFree C s'.repo.log)
    (hr : flush C r s = (o, s')) : Flushed C r s s' o := by
  obtain ⟨t, b, s1, e1, l1⟩ := addLegacy_ok (C := C) (r := r) hw
  have hnext : StoreReadable r s → NextWorks s1.repo := by
    intro h
    have := h.next (C := C) hw
    rw [e1] at this
    exact this
  unfold flush at hr
  rw [M.bind_of_ok e1] at hr
  simp only at hr
  have hw1 : WellTrees s1.repo.log r := by rw [l1.log]; exact hw
  have hleg : ∀ name h, InLegacy C s.repo.log r name h → isHash h = true := by
    rintro name h ⟨es, h1, e, h2, rfl⟩
    exact (hw es (resolve_is_stored h1)).hashes e h2
  have hi1 : ∀ x ∈ s1.cached, isHash x.2 = true := by
    intro x hx
    rcases l1.only x hx with h | ⟨_, h⟩ | ⟨_, h⟩
    · exact hi x h
    · exact hleg _ _ h
    · exact hleg _ _ h
  cases h2 : flushCached C r s1 with
  | mk o2 s2 =>
    have f2 := flushCached_any hw1 hi1 h2
    have key : ∀ L, s.repo.log <:+ L → OthersSame r objectRefName s1.repo.log L ∧
        (NextWorks s1.repo → ∀ x, Recorded C s1.repo.log r x → Recorded C L r x) → CollisionFree C L →
        Protects C r (StoreReadable r s) s.repo.log L := by
      intro L _ hL hcL
      have hg : Grows s.repo.log L := by have := hL.1.1; rw [l1.log] at this; exact this
      refine ⟨hg, ?_, ?_, ?_⟩
      · intro hn x hx; exact hL.2 (hnext hn) x (by rw [l1.log]; exact hx)
      · intro h hx
        refine Or.inl (hx.later hg ?_ hcL)
        have := hL.1.2 r legacyTreesName (fun he => by injection he with _ he; exact absurd he (by decide))
        rw [l1.log] at this
        exact this
      · intro h hx
        refine Or.inl (hx.later hg ?_ hcL)
        have := hL.1.2 r legacyBlobsName (fun he => by injection he with _ he; exact absurd he (by decide))
        rw [l1.log] at this
        exact this
    cases o2 with
    | error e =>
      rw [M.bind_of_error h2] at hr
      cases hr
      have hA := f2.always hc
      rw [l1.log] at hA
      refine ⟨hA.imp fun L h1 h3 hL => key L h1 (by rw [l1.log]; exact hL) (hc.mono (grows_of_suffix h3)), ?_, ?_,
        (fun h => by cases h)⟩
      · intro x hx
        left
        rw [f2.failed e rfl]
        exact l1.keeps x hx
      · intro r' n h1 _ _
        have := f2.refs.last.2 r' n h1
        rw [l1.log] at this
        exact this
    | ok u =>
      rw [M.bind_of_ok h2] at hr
      cases h3 : dropLegacy r legacyTreesName t s2 with
      | mk o3 s3 =>
        obtain ⟨d1, _, _⟩ := dropLegacy_any h3
        have D := dropLegacy_always h3
        -- the rest
        have hrest : ∃ o4, s'.cached = s3.cached ∧ (o = .ok () → o4 = Except.ok (ε := PyErr) ()) ∧
            Always (fun L => OthersSame r legacyBlobsName s3.repo.log L ∧ (b = false → L = s3.repo.log))
              s3.repo.log s'.repo.log := by
          cases o3 with
          | error e =>
            rw [M.bind_of_error h3] at hr
            cases hr
            exact ⟨.ok (), rfl, fun _ => rfl, Always.refl ⟨OthersSame.refl _ _ _, fun _ => rfl⟩⟩
          | ok u3 =>
            rw [M.bind_of_ok h3] at hr
            obtain ⟨b1, _, _⟩ := dropLegacy_any hr
            exact ⟨.ok (), b1, fun _ => rfl, dropLegacy_always hr⟩
        obtain ⟨_, r1, _, D2⟩ := hrest
        have hg2 : Grows s2.repo.log s'.repo.log := grows_of_suffix (D.1.trans D2.1)
        have hc2 : CollisionFree C s2.repo.log := hc.mono hg2
        have hc3 : CollisionFree C s3.repo.log := hc.mono (grows_of_suffix D2.1)
        have hA := f2.always hc2
        rw [l1.log] at hA
        have hP2 : Protects C r (StoreReadable r s) s.repo.log s2.repo.log :=
          key _ hA.1 (by have := hA.last; rw [l1.log]; exact this) hc2
        -- the entries of legacy stores that are removed are recorded
        have ht2 : t = true → ∀ h, InLegacy C s.repo.log r legacyTreesName h →
            Recorded C s2.repo.log r (true, h) :=
          fun ht h hx => f2.recorded rfl hc2 _ (l1.trees ht h hx)
        have hb2 : b = true → ∀ h, InLegacy C s.repo.log r legacyBlobsName h →
            Recorded C s2.repo.log r (false, h) :=
          fun hb h hx => f2.recorded rfl hc2 _ (l1.blobs hb h hx)
        have hrec3 : ∀ L, OthersSame r legacyTreesName s2.repo.log L → CollisionFree C L →
            ∀ x, Recorded C s2.repo.log r x → Recorded C L r x := by
          intro L hL hcL x hx
          exact hx.later hL.1 (hL.2 _ _ (fun he => by injection he with _ he; exact absurd he (by decide))) hcL
        have hrec4 : ∀ L, OthersSame r legacyBlobsName s3.repo.log L → CollisionFree C L →
            ∀ x, Recorded C s3.repo.log r x → Recorded C L r x := by
          intro L hL hcL x hx
          exact hx.later hL.1 (hL.2 _ _ (fun he => by injection he with _ he; exact absurd he (by decide))) hcL
        have A3 : Always (fun L => Protects C r (StoreReadable r s) s.repo.log L) s2.repo.log s3.repo.log := by
          refine D.imp fun L h4 h5 hL => ?_
          have hcL : CollisionFree C L := hc3.mono (grows_of_suffix h5)
          refine ⟨hP2.1.trans hL.1.1, fun hn x hx => hrec3 L hL.1 hcL x (hP2.2.1 hn x hx), ?_, ?_⟩
          · intro h hx
            cases ht : t with
            | true => exact Or.inr (hrec3 L hL.1 hcL _ (ht2 ht h hx))
            | false =>
              rw [hL.2 ht]
              exact hP2.2.2.1 h hx
          · intro h hx
            rcases hP2.2.2.2 h hx with hy | hy
            · exact Or.inl (hy.later hL.1.1
                (hL.1.2 _ _ (fun he => by injection he with _ he; exact absurd he (by decide))) hcL)
            · exact Or.inr (hrec3 L hL.1 hcL _ hy)
        have hP3 := A3.last
        have A4 : Always (fun L => Protects C r (StoreReadable r s) s.repo.log L) s3.repo.log s'.repo.log := by
          refine D2.imp fun L h4 h5 hL => ?_
          have hcL : CollisionFree C L := hc.mono (grows_of_suffix h5)
          refine ⟨hP3.1.trans hL.1.1, fun hn x hx => hrec4 L hL.1 hcL x (hP3.2.1 hn x hx), ?_, ?_⟩
          · intro h hx
            rcases hP3.2.2.1 h hx with hy | hy
            · exact Or.inl (hy.later hL.1.1
                (hL.1.2 _ _ (fun he => by injection he with _ he; exact absurd he (by decide))) hcL)
            · exact Or.inr (hrec4 L hL.1 hcL _ hy)
          · intro h hx
            cases hb : b with
            | true => exact Or.inr (hrec4 L hL.1 hcL _ (hrec3 _ D.last.1 hc3 _ (hb2 hb h hx)))
            | false =>
              rw [hL.2 hb]
              exact hP3.2.2.2 h hx
        have A2 : Always (fun L => Protects C r (StoreReadable r s) s.repo.log L) s.repo.log s2.repo.log :=
          hA.imp fun L h4 h5 hL => key L h4 (by rw [l1.log]; exact hL) (hc2.mono (grows_of_suffix h5))
        refine ⟨A2.trans (A3.trans A4), ?_, ?_, ?_⟩
        · intro x hx
          exact Or.inr (hrec4 _ D2.last.1 hc _ (hrec3 _ D.last.1 hc3 _
            (f2.recorded rfl hc2 x (l1.keeps x hx))))
        · intro r' n n1 n2 n3
          rw [D2.last.1.2 r' n n3, D.last.1.2 r' n n2, f2.refs.last.2 r' n n1, l1.log]
        · intro _
          rw [r1, d1]
          exact f2.done rfl

/-! ### When a flush succeeds -/

/-- The object-reference tree has directories, which are stored, down to the last level. -/
def StoreOk (C : Cfg) (L : Log) (r : Realm) : Prop :=
  ∀ es, resolve C L r objectRefName = some (.tree es) → ∀ p t d, p.length < 4 →
    entryAt C L r es p = some (t, d) → t = true ∧ ∃ es0, findObj C L r d = some (.tree es0)

theorem entryAt_through {C : Cfg} {L : Log} {r : Realm} : ∀ (q t : List Str) (es : List TreeEntry) (x : Bool × Str),
    q ≠ [] → t ≠ [] → entryAt C L r es (q ++ t) = some x →
    ∃ d es0, entryAt C L r es q = some (true, d) ∧ findObj C L r d = some (.tree es0) := by
  intro q
  induction q with
  | nil => intro t es x h; exact absurd rfl h
  | cons n q ih =>
    intro t es x _ ht h
    have hne : q ++ t ≠ [] := fun he => ht (List.append_eq_nil_iff.mp he).2
    cases hd : dget (byName es) n with
    | none => rw [List.cons_append, entryAt_none hd] at h; cases h
    | some y =>
      obtain ⟨b, d⟩ := y
      cases hqt : q ++ t with
      | nil => exact absurd hqt hne
      | cons m l =>
        rw [List.cons_append, hqt, entryAt, hd] at h
        cases b with
        | false => cases h
        | true =>
          simp only at h
          cases hf : findObj C L r d with
          | none => rw [hf] at h; cases h
          | some o =>
            cases o with
            | blob s => rw [hf] at h; cases h
            | tree es0 =>
              rw [hf] at h
              simp only at h
              cases q with
              | nil => exact ⟨d, es0, by rw [entryAt]; exact hd, hf⟩
              | cons a q =>
                rw [← hqt] at h
                obtain ⟨d', es', h1, h2⟩ := ih t es0 x (by simp) ht h
                exact ⟨d', es', by rw [entryAt_cons hd hf (by simp)]; exact h1, h2⟩

/-- Entries above the last level do not change when more is stored. -/
theorem StoreOk.later {C : Cfg} {L L' : Log} {r : Realm} (h : StoreOk C L r) {es : List TreeEntry}
    (he : resolve C L r objectRefName = some (.tree es)) (hg : Grows L L') (hc : CollisionFree C L')
    {p : List Str} (hp : p.length ≤ 4) : entryAt C L' r es p = entryAt C L r es p := by
  refine entryAt_later hg hc p es ?_
  intro a b e _ hb d hd
  refine (h es he a true d ?_ hd).2
  have : p.length = a.length + b.length := by rw [e, List.length_append]
  have : 0 < b.length := List.length_pos_iff.mpr hb
  omega

/-- The object references have one type for each hash. -/
def OneType (xs : List (Bool × Str)) : Prop := ∀ x ∈ xs, ∀ y ∈ xs, x.2 = y.2 → x = y

theorem pairwise_of_nodup {α β : Type} {f : α → β} {l : List α} (hn : l.Nodup)
    (h : ∀ x ∈ l, ∀ y ∈ l, f x = f y → x = y) : (l.map f).Nodup := by
  refine List.pairwise_map.mpr ?_
  refine List.Pairwise.imp_of_mem ?_ hn
  intro a b ha hb hab he
  exact hab (h a ha b hb he)

/-- The paths of object references can be added to a tree of object references. -/
theorem ready_refs {C : Cfg} {L : Log} {r : Realm} {xs : List (Bool × Str)} {old : List TreeEntry}
    (hn : xs.Nodup) (ho : OneType xs)
    (hinner : ∀ p t d, p.length < 4 → entryAt C L r old p = some (t, d) →
      t = true ∧ ∃ es0, findObj C L r d = some (.tree es0))
    (hty : ∀ x ∈ xs, ∀ t d, entryAt C L r old (chunks x.2) = some (t, d) → t = x.1) :
    Ready C L r (refInfos xs) old := by
  refine ⟨?_, ?_, ?_, ?_, ?_⟩
  · intro i hi
    obtain ⟨x, _, rfl⟩ := List.mem_map.mp hi
    simp [chunks]
  · unfold refInfos
    rw [List.map_map]
    refine pairwise_of_nodup hn ?_
    intro x hx y hy he
    exact ho x hx y hy (chunks_inj he)
  · intro i hi j hj hp
    obtain ⟨x, hx, rfl⟩ := List.mem_map.mp hi
    obtain ⟨y, hy, rfl⟩ := List.mem_map.mp hj
    simp only at hp ⊢
    rw [chunks_prefix hp]
  · intro i hi t h he
    obtain ⟨x, hx, rfl⟩ := List.mem_map.mp hi
    exact hty x hx t h he
  · intro i hi q t he hq ht b h hb
    obtain ⟨x, hx, rfl⟩ := List.mem_map.mp hi
    simp only at he
    have h4 : (chunks x.2).length = q.length + t.length := by rw [he, List.length_append]
    rw [chunks_length] at h4
    have : 0 < t.length := List.length_pos_iff.mpr ht
    exact hinner q b h (by omega) hb

theorem gitUpdateRef_works {C : Cfg} {r : Realm} {name h : Str} {s : Repo} (hf : s.faults = [])
    {o : GitObj} (ho : resolve C s.log r h = some o) :
    gitUpdateRef C r name h s = (.ok (), ⟨.setRef r name h :: s.log, []⟩) := by
  unfold gitUpdateRef
  rw [gitCmd_works _ _ hf, ho]
  rfl

theorem storeRefs_works {C : Cfg} {r : Realm} {xs : List (Bool × Str)} {s : RefState}
    (hw : WellTrees s.repo.log r) (hi : ∀ x ∈ xs, isHash x.2 = true) (hne : xs ≠ []) (hn : xs.Nodup)
    (ho : OneType xs) (hf : s.repo.faults = []) (hs : StoreOk C s.repo.log r)
    (hty : ∀ x ∈ xs, ∀ es t d, resolve C s.repo.log r objectRefName = some (.tree es) →
      entryAt C s.repo.log r es (chunks x.2) = some (t, d) → t = x.1)
    (hc : CollisionFree C (storeRefs C r (refInfos xs) s).2.repo.log) :
    ∃ s', storeRefs C r (refInfos xs) s = (.ok (), s') ∧ s'.repo.faults = [] := by
  have hwi : ∀ i ∈ refInfos xs, WellInfo i := by
    intro i hx
    obtain ⟨x, h1, rfl⟩ := List.mem_map.mp hx
    exact refInfo_well (hi x h1)
  have hread : ∃ old, M.catchRuntime (liftR (getDir C r objectRefName)) (pure []) s =
      (.ok (old.map TreeEntry.raw), s) ∧ WellTree old ∧ Ready C s.repo.log r (refInfos xs) old := by
    rcases treeAt_cases C s.repo.log r objectRefName with ⟨es, h1, h2⟩ | ⟨h1, h2⟩
    · have hwt := hw es (resolve_is_stored h2)
      refine ⟨es, ?_, hwt, ready_refs hn ho (hs es h2) fun x hx t d hd => hty x hx es t d h2 hd⟩
      unfold M.catchRuntime
      rw [liftR_run, getDir_works hf hwt h2]
    · refine ⟨[], ?_, WellTree.nil, ready_refs hn ho ?_ ?_⟩
      · have : getDir C r objectRefName s.repo = (.error .runtime, s.repo) := by
          unfold getDir
          rw [gitCmd_works _ _ hf, h1]
          obtain ⟨⟨log, faults⟩, cached, checked⟩ := s
          simp only at hf
          subst hf
          rfl
        unfold M.catchRuntime
        rw [liftR_run, this]
        rfl
      · intro p t d _ hd; rw [entryAt_nil] at hd; cases hd
      · intro x _ t d hd; rw [entryAt_nil] at hd; cases hd
  obtain ⟨old, e1, e2, e3⟩ := hread
  have hstep : storeRefs C r (refInfos xs) s = (liftR (addPaths C 1000 r (refInfos xs) (old.map TreeEntry.raw)) >>=
      fun h => liftR (gitUpdateRef C r objectRefName h)) s := by
    unfold storeRefs
    rw [M.bind_of_ok e1]
  rw [hstep] at hc ⊢
  have hl := liftR_run (addPaths C 1000 r (refInfos xs) (old.map TreeEntry.raw)) s
  have hca : CollisionFree C (addPaths C 1000 r (refInfos xs) (old.map TreeEntry.raw) s.repo).2.log := by
    cases hp : addPaths C 1000 r (refInfos xs) (old.map TreeEntry.raw) s.repo with
    | mk x mid =>
      rw [hp] at hl
      cases x with
      | error e => rw [M.bind_of_error hl] at hc; exact hc
      | ok h =>
        rw [M.bind_of_ok hl, liftR_run] at hc
        simp only at hc
        refine hc.mono ?_
        rcases gitUpdateRef_outcome (C := C) (r := r) (name := objectRefName) (h := h) (s := mid) with hu | hu
        · rw [hu]; exact Grows.refl _
        · rw [hu]; exact fun _ _ hx => List.mem_cons_of_mem _ hx
  obtain ⟨h, mid, hp, hf1⟩ := addPaths_works 1000 (refInfos xs) old s.repo
    (by
      intro i hx
      obtain ⟨x, h1, rfl⟩ := List.mem_map.mp hx
      simp only
      rw [chunks_length]
      omega)
    (Or.inl (by unfold refInfos; simpa using hne)) (by omega) hwi hw e2 hf hca e3
  rw [hp] at hl
  rw [M.bind_of_ok hl, liftR_run]
  obtain ⟨_, _, new, rfl, st, _⟩ := addPaths_ok 1000 (refInfos xs) old s.repo h mid hwi hw e2 hp
  have hres := findObj_isSome (C := C) st
  cases hfo : findObj C mid.log r (C.hash (.tree new)) with
  | none => rw [hfo] at hres; cases hres
  | some o =>
    rw [gitUpdateRef_works hf1 (by rw [resolve_hash (C.valid _)]; exact hfo)]
    exact ⟨_, rfl, rfl⟩

theorem dropLegacy_works {r : Realm} {name : Str} {added : Bool} {s : RefState} (hf : s.repo.faults = []) :
    ∃ s', dropLegacy r name added s = (.ok (), s') ∧ s'.repo.faults = [] := by
  unfold dropLegacy
  cases added with
  | false => exact ⟨s, rfl, hf⟩
  | true =>
    simp only [if_true]
    rw [liftR_run]
    unfold gitDeleteRef
    rw [gitCmd_works _ _ hf]
    exact ⟨_, rfl, rfl⟩

/-- What a flush records: the cached object references and the ones of the legacy stores. -/
def Pending (C : Cfg) (r : Realm) (s : RefState) (x : Bool × Str) : Prop :=
  x ∈ s.cached ∨ (x.1 = true ∧ InLegacy C s.repo.log r legacyTreesName x.2) ∨
    (x.1 = false ∧ InLegacy C s.repo.log r legacyBlobsName x.2)

theorem flush_works {C : Cfg} {r : Realm} {s : RefState}
    (hw : WellTrees s.repo.log r) (hi : ∀ x ∈ s.cached, isHash x.2 = true) (hn : s.cached.Nodup)
    (ho : ∀ x y, Pending C r s x → Pending C r s y → x.2 = y.2 → x = y)
    (hf : s.repo.faults = []) (hs : StoreOk C s.repo.log r)
    (hty : ∀ x, Pending C r s x → ∀ es t d, resolve C s.repo.log r objectRefName = some (.tree es) →
      entryAt C s.repo.log r es (chunks x.2) = some (t, d) → t = x.1)
    (hc : CollisionFree C (flush C r s).2.repo.log) :
    ∃ s', flush C r s = (.ok (), s') ∧ s'.repo.faults = [] := by
  obtain ⟨t, b, s1, e1, l1⟩ := addLegacy_ok (C := C) (r := r) hw
  have hstep : flush C r s = (flushCached C r >>= fun _ => dropLegacy r legacyTreesName t >>= fun _ =>
      dropLegacy r legacyBlobsName b) s1 := by
    unfold flush
    rw [M.bind_of_ok e1]
  rw [hstep] at hc ⊢
  have hw1 : WellTrees s1.repo.log r := by rw [l1.log]; exact hw
  have hf1 := l1.faults hf
  have hpend : ∀ x ∈ s1.cached, Pending C r s x := l1.only
  have hi1 : ∀ x ∈ s1.cached, isHash x.2 = true := by
    intro x hx
    have hleg : ∀ name h, InLegacy C s.repo.log r name h → isHash h = true := by
      rintro name h ⟨es, h1, e, h2, rfl⟩
      exact (hw es (resolve_is_stored h1)).hashes e h2
    rcases l1.only x hx with h | ⟨_, h⟩ | ⟨_, h⟩
    · exact hi x h
    · exact hleg _ _ h
    · exact hleg _ _ h
  have hgrow : Grows (flushCached C r s1).2.repo.log ((flushCached C r >>= fun _ =>
      dropLegacy r legacyTreesName t >>= fun _ => dropLegacy r legacyBlobsName b) s1).2.repo.log := by
    cases h2 : flushCached C r s1 with
    | mk o s2 =>
      cases o with
      | error e => rw [M.bind_of_error h2]; exact Grows.refl _
      | ok u =>
        rw [M.bind_of_ok h2]
        cases h3 : dropLegacy r legacyTreesName t s2 with
        | mk o3 s3 =>
          have g1 := grows_of_suffix (dropLegacy_always h3).1
          cases o3 with
          | error e => rw [M.bind_of_error h3]; exact g1
          | ok u =>
            rw [M.bind_of_ok h3]
            cases h4 : dropLegacy r legacyBlobsName b s3 with
            | mk o4 s4 => exact g1.trans (grows_of_suffix (dropLegacy_always h4).1)
  have hc2 := hc.mono hgrow
  have hflush : ∃ s2, flushCached C r s1 = (.ok (), s2) ∧ s2.repo.faults = [] := by
    have hun : flushCached C r s1 = (if s1.cached.isEmpty then pure () else do
        let infos ← M.ofExcept (eachOk refInfo s1.cached)
        storeRefs C r infos
        M.modify fun s => { s with cached := [] }) s1 := by
      unfold flushCached
      rw [M.bind_of_ok (M.get_run s1)]
    rw [hun] at hc2 ⊢
    by_cases he : s1.cached.isEmpty = true
    · rw [if_pos he]
      exact ⟨s1, rfl, hf1⟩
    · rw [if_neg he] at hc2 ⊢
      rw [eachOk_refInfo hi1, M.bind_of_ok (M.ofExcept_ok _ s1)] at hc2 ⊢
      have hcs : CollisionFree C (storeRefs C r (refInfos s1.cached) s1).2.repo.log := by
        cases hst : storeRefs C r (refInfos s1.cached) s1 with
        | mk o s2 =>
          cases o with
          | error e => rw [M.bind_of_error hst] at hc2; exact hc2
          | ok u => rw [M.bind_of_ok hst] at hc2; exact hc2
      obtain ⟨s2, h1, h2⟩ := storeRefs_works hw1 hi1 (by simpa using he) (l1.nodup hn)
        (fun x hx y hy => ho x y (hpend x hx) (hpend y hy)) hf1 (by rw [l1.log]; exact hs)
        (by
          intro x hx es t d
          rw [l1.log]
          exact hty x (hpend x hx) es t d) hcs
      rw [M.bind_of_ok h1]
      exact ⟨_, rfl, h2⟩
  obtain ⟨s2, h2, hf2⟩ := hflush
  rw [M.bind_of_ok h2]
  obtain ⟨s3, h3, hf3⟩ := dropLegacy_works (r := r) (name := legacyTreesName) (added := t) hf2
  rw [M.bind_of_ok h3]
  exact dropLegacy_works hf3

/-! ### After a successful flush -/

theorem entryAt_congr {C : Cfg} {L L' : Log} {r : Realm} (h : ∀ x, findObj C L r x = findObj C L' r x) :
    ∀ (p : List Str) (es : List TreeEntry), entryAt C L r es p = entryAt C L' r es p := by
  intro p
  induction p with
  | nil => intro es; rfl
  | cons n p ih =>
    intro es
    cases p with
    | nil => rfl
    | cons m p =>
      cases hd : dget (byName es) n with
      | none => rw [entryAt_none hd, entryAt_none hd]
      | some y =>
        obtain ⟨b, d⟩ := y
        cases b with
        | false => rw [entryAt, entryAt, hd]
        | true =>
          rw [entryAt, entryAt, hd]
          simp only
          rw [h d]
          cases findObj C L' r d with
          | none => rfl
          | some o =>
            cases o with
            | blob s => rfl
            | tree es0 => exact ih es0

theorem resolve_delRef {C : Cfg} {L : Log} {r : Realm} {name loc : Str} (h : name ≠ loc) :
    resolve C (.delRef r name :: L) r loc = resolve C L r loc := by
  unfold resolve
  rw [refOf_delRef_ne (fun he => h (by injection he with _ he; exact he.symm))]
  rfl

/-- Removing a legacy store does not change the object-reference tree. -/
theorem store_delRef {C : Cfg} {L : Log} {r : Realm} {name : Str} (h : name ≠ objectRefName) :
    (StoreOk C (.delRef r name :: L) r ↔ StoreOk C L r) ∧
    ∀ x, Recorded C (.delRef r name :: L) r x ↔ Recorded C L r x := by
  have hf : ∀ x, findObj C (.delRef r name :: L) r x = findObj C L r x := fun x => rfl
  have he := fun es p => entryAt_congr hf p es
  constructor
  · unfold StoreOk
    simp only [resolve_delRef h, he, hf]
  · intro x
    unfold Recorded
    simp only [resolve_delRef h, he]

theorem storeRefs_shape {C : Cfg} {r : Realm} {xs : List (Bool × Str)} {s s' : RefState}
    (hw : WellTrees s.repo.log r) (hi : ∀ x ∈ xs, isHash x.2 = true) (hs : StoreOk C s.repo.log r)
    (hr : storeRefs C r (refInfos xs) s = (.ok (), s')) (hc : CollisionFree C s'.repo.log) :
    StoreOk C s'.repo.log r ∧
    ∀ x, Recorded C s'.repo.log r x → x ∈ xs ∨ Recorded C s.repo.log r x := by
  have hwi : ∀ i ∈ refInfos xs, WellInfo i := by
    intro i hx
    obtain ⟨x, h1, rfl⟩ := List.mem_map.mp hx
    exact refInfo_well (hi x h1)
  obtain ⟨_, _, _, h⟩ := storeRefs_any hw hwi hr
  obtain ⟨_, mid, old, new, h1, h2, h3, h4, h5, h6⟩ := h rfl
  have hg : Grows mid.log s'.repo.log := by rw [h2]; exact fun _ _ hx => List.mem_cons_of_mem _ hx
  have hgs : Grows s.repo.log s'.repo.log := h1.grows.trans hg
  obtain ⟨m1, m2, m3, m4⟩ := h6 _ hg hc
  have href : refOf s'.repo.log r objectRefName = some (C.hash (.tree new)) := by
    rw [h2]; unfold refOf; rw [if_pos ⟨rfl, rfl⟩]
  have hres : resolve C s'.repo.log r objectRefName = some (.tree new) := by
    unfold resolve
    rw [objectRefName_notHash, href]
    exact findObj_of_stored hc (hg _ _ h4)
  constructor
  · intro es he p t d hp hent
    rw [hres] at he
    cases he
    by_cases hpre : ∃ i ∈ refInfos xs, p <+: i.elements
    · obtain ⟨i, hi1, q, hq⟩ := hpre
      obtain ⟨x, hx, rfl⟩ := List.mem_map.mp hi1
      simp only at hq
      have hqn : q ≠ [] := by
        rintro rfl
        rw [List.append_nil] at hq
        rw [hq, chunks_length] at hp
        omega
      have hpn : p ≠ [] := by rintro rfl; cases hent
      have := m1 _ hi1
      simp only at this
      rw [← hq] at this
      obtain ⟨d', es0, k1, k2⟩ := entryAt_through p q new _ hpn hqn this
      rw [hent] at k1
      cases k1
      exact ⟨rfl, es0, k2⟩
    · have hout : ∀ i ∈ refInfos xs, ¬ i.elements <+: p ∧ ¬ p <+: i.elements := by
        intro i hi1
        refine ⟨fun hx => ?_, fun hx => hpre ⟨i, hi1, hx⟩⟩
        have := hx.length_le
        obtain ⟨x, _, rfl⟩ := List.mem_map.mp hi1
        simp only at this
        rw [chunks_length] at this
        omega
      rw [m3 p hout] at hent
      rcases h3 with h3 | ⟨rfl, _⟩
      · rw [hs.later h3 hgs hc (by omega)] at hent
        obtain ⟨k1, es0, k2⟩ := hs old h3 p t d hp hent
        exact ⟨k1, es0, findObj_mono hgs hc k2⟩
      · rw [entryAt_nil] at hent; cases hent
  · intro x hx
    rcases (storeRefs_done hw hi hr hc).2.2 x hx with h | ⟨es, k1, k2⟩
    · exact Or.inl h
    · rw [hs.later k1 hgs hc (by rw [chunks_length]; omega)] at k2
      exact Or.inr ⟨es, k1, k2⟩

theorem flush_done {C : Cfg} {r : Realm} {s s' : RefState} (hw : WellTrees s.repo.log r)
    (hi : ∀ x ∈ s.cached, isHash x.2 = true) (hs : StoreOk C s.repo.log r)
    (hc : CollisionFree C s'.repo.log) (hr : flush C r s = (.ok (), s')) :
    StoreOk C s'.repo.log r ∧ WellTrees s'.repo.log r ∧ s'.cached = [] ∧
    (∀ x ∈ s.cached, Recorded C s'.repo.log r x) ∧
    (∀ x, Recorded C s'.repo.log r x → Pending C r s x ∨ Recorded C s.repo.log r x) := by
  obtain ⟨t, b, s1, e1, l1⟩ := addLegacy_ok (C := C) (r := r) hw
  unfold flush at hr
  rw [M.bind_of_ok e1] at hr
  simp only at hr
  obtain ⟨u2, s2, h2, hr⟩ := M.bind_ok hr
  obtain ⟨u3, s3, h3, h4⟩ := M.bind_ok hr
  have hw1 : WellTrees s1.repo.log r := by rw [l1.log]; exact hw
  have hleg : ∀ name h, InLegacy C s.repo.log r name h → isHash h = true := by
    rintro name h ⟨es, h1, e, h2, rfl⟩
    exact (hw es (resolve_is_stored h1)).hashes e h2
  have hi1 : ∀ x ∈ s1.cached, isHash x.2 = true := by
    intro x hx
    rcases l1.only x hx with h | ⟨_, h⟩ | ⟨_, h⟩
    · exact hi x h
    · exact hleg _ _ h
    · exact hleg _ _ h
  have f2 := flushCached_any hw1 hi1 h2
  have hback : ∀ {name : Str} {added : Bool} {a c : RefState} {o : Except PyErr Unit}, name ≠ objectRefName →
      dropLegacy r name added a = (o, c) →
      ((StoreOk C a.repo.log r → StoreOk C c.repo.log r) ∧
        (∀ x, Recorded C c.repo.log r x ↔ Recorded C a.repo.log r x) ∧
        (WellTrees a.repo.log r → WellTrees c.repo.log r) ∧ c.cached = a.cached) := by
    intro name added a c o hne hd
    obtain ⟨k1, _, k2⟩ := dropLegacy_any hd
    rcases k2 with k2 | ⟨_, k2⟩
    · rw [k2]; exact ⟨id, fun _ => Iff.rfl, id, k1⟩
    · rw [k2]
      obtain ⟨q1, q2⟩ := store_delRef (C := C) (L := a.repo.log) (r := r) hne
      refine ⟨q1.mpr, q2, ?_, k1⟩
      intro hw es hst
      rcases List.mem_cons.mp hst with h | h
      · cases h
      · exact hw es h
  obtain ⟨p1, p2, p3, p4⟩ := hback (by decide) h3
  obtain ⟨q1, q2, q3, q4⟩ := hback (by decide) h4
  have hc2 : CollisionFree C s2.repo.log :=
    hc.mono (grows_of_suffix ((dropLegacy_always h3).1.trans (dropLegacy_always h4).1))
  have hmid : StoreOk C s2.repo.log r ∧ WellTrees s2.repo.log r ∧
      ∀ x, Recorded C s2.repo.log r x → x ∈ s1.cached ∨ Recorded C s1.repo.log r x := by
    unfold flushCached at h2
    rw [M.bind_of_ok (M.get_run s1)] at h2
    have hs1 : StoreOk C s1.repo.log r := by rw [l1.log]; exact hs
    by_cases he : s1.cached.isEmpty = true
    · rw [if_pos he] at h2
      cases h2
      exact ⟨hs1, hw1, fun x hx => Or.inr hx⟩
    · rw [if_neg he, eachOk_refInfo hi1, M.bind_of_ok (M.ofExcept_ok _ s1)] at h2
      obtain ⟨u, s1', k1, k2⟩ := M.bind_ok h2
      cases k2
      obtain ⟨a1, a2⟩ := storeRefs_shape hw1 hi1 hs1 k1 hc2
      exact ⟨a1, (storeRefs_done hw1 hi1 k1 hc2).2.1, a2⟩
  refine ⟨q1 (p1 hmid.1), q3 (p3 hmid.2.1), by rw [q4, p4]; exact f2.done rfl, ?_, ?_⟩
  · intro x hx
    exact (q2 x).mpr ((p2 x).mpr (f2.recorded rfl hc2 x (l1.keeps x hx)))
  · intro x hx
    rcases hmid.2.2 x ((p2 x).mp ((q2 x).mp hx)) with h | h
    · exact Or.inl (l1.only x h)
    · rw [l1.log] at h; exact Or.inr h

/-- The first flush of a process, if it is not disturbed, records what the legacy stores have
and removes their references. -/
theorem flush_converts {C : Cfg} {r : Realm} {s s' : RefState} (hw : WellTrees s.repo.log r)
    (hi : ∀ x ∈ s.cached, isHash x.2 = true) (hf : s.repo.faults = []) (hk : r ∉ s.checked)
    (hc : CollisionFree C s'.repo.log) (hr : flush C r s = (.ok (), s')) :
    (∀ h, InLegacy C s.repo.log r legacyTreesName h → Recorded C s'.repo.log r (true, h)) ∧
    (∀ h, InLegacy C s.repo.log r legacyBlobsName h → Recorded C s'.repo.log r (false, h)) ∧
    (∀ es, resolve C s.repo.log r legacyTreesName = some (.tree es) →
      refOf s'.repo.log r legacyTreesName = none) ∧
    (∀ es, resolve C s.repo.log r legacyBlobsName = some (.tree es) →
      refOf s'.repo.log r legacyBlobsName = none) := by
  obtain ⟨t, b, s1, e1, l1⟩ := addLegacy_ok (C := C) (r := r) hw
  unfold flush at hr
  rw [M.bind_of_ok e1] at hr
  simp only at hr
  obtain ⟨u2, s2, h2, hr⟩ := M.bind_ok hr
  obtain ⟨u3, s3, h3, h4⟩ := M.bind_ok hr
  have hw1 : WellTrees s1.repo.log r := by rw [l1.log]; exact hw
  have hleg : ∀ name h, InLegacy C s.repo.log r name h → isHash h = true := by
    rintro name h ⟨es, h1, e, h2, rfl⟩
    exact (hw es (resolve_is_stored h1)).hashes e h2
  have hi1 : ∀ x ∈ s1.cached, isHash x.2 = true := by
    intro x hx
    rcases l1.only x hx with h | ⟨_, h⟩ | ⟨_, h⟩
    · exact hi x h
    · exact hleg _ _ h
    · exact hleg _ _ h
  have f2 := flushCached_any hw1 hi1 h2
  have hc2 : CollisionFree C s2.repo.log :=
    hc.mono (grows_of_suffix ((dropLegacy_always h3).1.trans (dropLegacy_always h4).1))
  have hrec : ∀ x, Recorded C s2.repo.log r x → Recorded C s'.repo.log r x := by
    intro x hx
    have D := (dropLegacy_always h3).last.1
    have D2 := (dropLegacy_always h4).last.1
    have := hx.later D.1 (D.2 _ _ (fun he => by injection he with _ he; exact absurd he (by decide)))
      (hc.mono (grows_of_suffix (dropLegacy_always h4).1))
    exact this.later D2.1 (D2.2 _ _ (fun he => by injection he with _ he; exact absurd he (by decide))) hc
  obtain ⟨g1, g2⟩ := l1.first hk hf
  have hgone : ∀ {name : Str} {added : Bool} {a c : RefState}, dropLegacy r name added a = (.ok (), c) →
      added = true → refOf c.repo.log r name = none := by
    intro name added a c hd ha
    subst ha
    unfold dropLegacy at hd
    simp only [if_true] at hd
    rw [liftR_run] at hd
    have hx : gitDeleteRef r name a.repo = (.ok (), c.repo) := by
      have h1 := congrArg (fun z => z.1) hd
      have h2 := congrArg (fun z => z.2.repo) hd
      simp only at h1 h2
      rw [← h1, ← h2]
    obtain ⟨_, k2⟩ := gitCmd_ok hx
    rw [k2]
    show (if r = r ∧ name = name then none else refOf _ r name) = none
    rw [if_pos ⟨rfl, rfl⟩]
  refine ⟨?_, ?_, ?_, ?_⟩
  · intro h hh
    obtain ⟨es, k1, k2⟩ := hh
    exact hrec _ (f2.recorded rfl hc2 _ (l1.trees (g1 es k1) h ⟨es, k1, k2⟩))
  · intro h hh
    obtain ⟨es, k1, k2⟩ := hh
    exact hrec _ (f2.recorded rfl hc2 _ (l1.blobs (g2 es k1) h ⟨es, k1, k2⟩))
  · intro es hes
    have := hgone h3 (g1 es hes)
    rw [(dropLegacy_always h4).last.1.2 _ _ (fun he => by injection he with _ he; exact absurd he (by decide))]
    exact this
  · intro es hes
    exact hgone h4 (g2 es hes)

end MM
