/-
Several processes flush object references to one repository at the same time
(`flush_object_references`, objectreference.py 92-133, with `locked_backend`, utils.py
40-47).  The code is written here once more, as a program whose git commands are separate
steps; `flushP_mirrors` shows that without other processes it does what `flush` does.
-/
import Verif.ObjRef
import Verif.Lock

namespace MM

/-- A program: the git commands, and the calls that lock and unlock the repository, are its
steps.  `reads` marks the command that reads the tree of object references.  A git command
makes the changes `ops` and goes on with `next`, or fails after some of the changes and
goes on with `failed`. -/
inductive Prog (α : Type) : Type
  | done (a : α)
  | git (reads : Bool) (ops : Log → List GitOp) (next : Log → Prog α) (failed : Prog α)
  | lock (got failed : Prog α)
  | unlock (next failed : Prog α)

namespace Prog
variable {α β γ : Type}

/-- One program after another -/
def bind : Prog α → (α → Prog β) → Prog β
  | .done a, f => f a
  | .git t ops next failed, f => .git t ops (fun L => (next L).bind f) (failed.bind f)
  | .lock got failed, f => .lock (got.bind f) (failed.bind f)
  | .unlock next failed, f => .unlock (next.bind f) (failed.bind f)

/-- The program without other processes; locking and unlocking work. -/
def run : Prog α → Repo → α × Repo
  | .done a, s => (a, s)
  | .git _ ops next failed, s => match s.faults with
    | .fail k :: fs => failed.run ⟨((ops s.log).take k).reverse ++ s.log, fs⟩
    | .none :: fs => (next s.log).run ⟨(ops s.log).reverse ++ s.log, fs⟩
    | [] => (next s.log).run ⟨(ops s.log).reverse ++ s.log, []⟩
  | .lock got _, s => got.run s
  | .unlock next _, s => next.run s

theorem bind_assoc (p : Prog α) (f : α → Prog β) (g : β → Prog γ) :
    (p.bind f).bind g = p.bind fun a => (f a).bind g := by
  induction p with
  | done a => rfl
  | git t ops next failed ih1 ih2 => simp only [bind, ih1, ih2]
  | lock got failed ih1 ih2 => simp only [bind, ih1, ih2]
  | unlock next failed ih1 ih2 => simp only [bind, ih1, ih2]

theorem run_bind (p : Prog α) (f : α → Prog β) : ∀ s, (p.bind f).run s = (f (p.run s).1).run (p.run s).2 := by
  induction p with
  | done a => intro s; rfl
  | git t ops next failed ih1 ih2 =>
    intro s
    obtain ⟨L, fs⟩ := s
    cases fs with
    | nil => simp only [bind, run, ih1]
    | cons x fs =>
      cases x with
      | none => simp only [bind, run, ih1]
      | fail k => simp only [bind, run, ih2]
  | lock got failed ih1 ih2 => intro s; simp only [bind, run, ih1]
  | unlock next failed ih1 ih2 => intro s; simp only [bind, run, ih1]

end Prog

/-- The two global sets of objectreference.py: the recorded object references and the
repositories whose legacy stores were checked. -/
abbrev RefSets := List (Bool × Str) × List Realm

/-- Programs that use the two sets and raise exceptions. -/
def P (α : Type) : Type := RefSets → Prog (Except PyErr α × RefSets)

namespace P
variable {α β : Type}

def pure (a : α) : P α := fun s => .done (.ok a, s)

def bind (x : P α) (f : α → P β) : P β := fun s =>
  (x s).bind fun a => match a with
    | (.ok a, s') => f a s'
    | (.error e, s') => .done (.error e, s')

instance : Monad P where
  pure := P.pure
  bind := P.bind

/-- Code without git commands -/
def only (x : M RefSets α) : P α := fun s => .done (x s)

/-- A git command -/
def git (cmd : Log → List GitOp × Except PyErr α) (reads : Bool := false) : P α := fun s =>
  .git reads (fun L => (cmd L).1) (fun L => .done ((cmd L).2, s)) (.done (.error .runtime, s))

/-- `try: x  except RuntimeError: y` -/
def catchRuntime (x y : P α) : P α := fun s =>
  (x s).bind fun a => match a with
    | (.error .runtime, s') => y s'
    | a => .done a

/-- `with locked_backend(realm): x` (utils.py 40-47) -/
def locked (x : P α) : P α := fun s =>
  .lock ((x s).bind fun a => .unlock (.done a) (.done (.error .assertion, a.2))) (.done (.error .os, s))

end P

/-! ### The code -/

/-- `cached_object_references.add` -/
def cacheRefS (x : Bool × Str) : M RefSets Unit := M.modify fun s => (insertNew s.1 x, s.2)

/-- The loop in `add_legacy_store_entries_from` (objectreference.py 48-55) -/
def cacheLegacyLineS (isTree : Bool) (l : Str) : M RefSets Unit := do
  let (_, _, h, _) ← M.ofExcept (splitLstreeLine l)
  cacheRefS (isTree, h)

/-- `add_legacy_store_entries_from` (objectreference.py 40-58) -/
def addLegacyFromP (C : Cfg) (r : Realm) (name : Str) (isTree : Bool) : P Bool :=
  P.catchRuntime
    (do
      let lines ← P.git fun L => ([], do
        let es ← treeAt C L r name
        .ok (splitlines (catTree es)))
      let _ ← P.only (M.forEach (cacheLegacyLineS isTree) lines)
      P.pure true)
    (P.pure false)

/-- `add_legacy_store_entries` (objectreference.py 61-80) -/
def addLegacyP (C : Cfg) (r : Realm) : P (Bool × Bool) := do
  let s ← P.only M.get
  if r ∈ s.2 then P.pure (false, false)
  else do
    P.only (M.modify fun s => (s.1, insertNew s.2 r))
    let t ← addLegacyFromP C r legacyTreesName true
    let b ← addLegacyFromP C r legacyBlobsName false
    P.pure (t, b)

/-- `_get_dir` (treeupdater.py 136-147) -/
def getDirP (C : Cfg) (r : Realm) (loc : Str) (reads : Bool := false) : P (List TreeEntry) :=
  P.git (fun L => ([], do
    let es ← treeAt C L r loc
    eachOk dirLine (splitlines (catTree es)))) reads

/-- `_write_dir` (treeupdater.py 150-153) -/
def writeDirP (C : Cfg) (r : Realm) (es : List TreeEntry) : P Str :=
  P.git fun _ => match mktree (rawSpec es) with
    | some es' => ([.save r (.tree es')], .ok (C.hash (.tree es')))
    | none => ([], .error .runtime)

/-- The entries of the directory with a name (treeupdater.py 212-219) -/
def subDirP (C : Cfg) (r : Realm) (table : List (Str × TreeEntry)) (n : Str) : P (List TreeEntry) :=
  match dget table n with
  | some e => if e.isTree then getDirP C r e.hash else P.only (M.raise .value)
  | none => P.pure []

/-- The loop over the directories (treeupdater.py 211-229) -/
def addDirsP (C : Cfg) (rec : List PathInfo → List TreeEntry → P Str) (r : Realm)
    (table : List (Str × TreeEntry)) :
    List (Str × List PathInfo) → List (Str × TreeEntry) → P (List (Str × TreeEntry))
  | [], acc => P.pure acc
  | (n, subs) :: ds, acc => do
    let es ← subDirP C r table n
    let h ← rec subs es
    addDirsP C rec r table ds (dset acc n ⟨true, h, n⟩)

/-- `add_paths` (treeupdater.py 156-231) -/
def addPathsP (C : Cfg) : Nat → Realm → List PathInfo → List TreeEntry → P Str
  | 0, _, _, _ => P.only (M.raise .recursion)
  | n + 1, r, infos, root =>
    let table := fromItems (root.map fun e => (e.name, e))
    if infos.any fun i => i.elements.isEmpty then P.only (M.raise .index)
    else if validInfos infos then do
      let acc ← P.only (M.ofExcept (addLeaves table (infos.filter PathInfo.isLeaf) table))
      let acc ← addDirsP C (addPathsP C n r) r table (dirInfos infos) acc
      writeDirP C r (acc.map Prod.snd)
    else P.only (M.raise .value)

/-- `git_update_ref` (gitbackend/subprocess.py) -/
def updateRefP (C : Cfg) (r : Realm) (name h : Str) : P Unit :=
  P.git fun L => match resolve C L r h with
    | some _ => ([.setRef r name h], .ok ())
    | none => ([], .error .runtime)

/-- The locked part after reading the tree (objectreference.py 125-126) -/
def restP (C : Cfg) (r : Realm) (infos : List PathInfo) (root : List TreeEntry) : P Unit := do
  let h ← addPathsP C 1000 r infos root
  updateRefP C r objectRefName h

/-- The locked part of `flush_object_references` (objectreference.py 120-126) -/
def storeRefsP (C : Cfg) (r : Realm) (infos : List PathInfo) : P Unit := do
  let root ← P.catchRuntime (getDirP C r objectRefName true) (P.pure [])
  restP C r infos root

/-- `flush_object_references` (objectreference.py 105-128), the part for the cached set -/
def flushCachedP (C : Cfg) (r : Realm) : P Unit := do
  let s ← P.only M.get
  if s.1.isEmpty then P.pure ()
  else do
    let infos ← P.only (M.ofExcept (eachOk refInfo s.1))
    P.locked (storeRefsP C r infos)
    P.only (M.modify fun s => ([], s.2))

/-- `remove_legacy_store_reference` (objectreference.py 83-89, 130-133) -/
def dropLegacyP (r : Realm) (name : Str) (added : Bool) : P Unit :=
  if added then P.git fun _ => ([.delRef r name], .ok ()) else P.pure ()

/-- `flush_object_references` (objectreference.py 92-133) -/
def flushP (C : Cfg) (r : Realm) : P Unit := do
  let (t, b) ← addLegacyP C r
  flushCachedP C r
  dropLegacyP r legacyTreesName t
  dropLegacyP r legacyBlobsName b

/-! ### Without other processes -/

/-- The program does the same as the function. -/
def Mirrors {α : Type} (x : P α) (y : M RefState α) : Prop :=
  ∀ repo c k, (x (c, k)).run repo =
    (((y ⟨repo, c, k⟩).1, ((y ⟨repo, c, k⟩).2.cached, (y ⟨repo, c, k⟩).2.checked)), (y ⟨repo, c, k⟩).2.repo)

theorem Mirrors.pure {α : Type} (a : α) : Mirrors (P.pure a) (Pure.pure a) := fun _ _ _ => rfl
theorem Mirrors.pure' {α : Type} (a : α) : Mirrors (Pure.pure a) (Pure.pure a) := fun _ _ _ => rfl

theorem Mirrors.bind {α β : Type} {x : P α} {y : M RefState α} {f : α → P β} {g : α → M RefState β}
    (h : Mirrors x y) (hf : ∀ a, Mirrors (f a) (g a)) : Mirrors (x >>= f) (y >>= g) := by
  intro repo c k
  show (P.bind x f (c, k)).run repo = _
  unfold P.bind
  rw [Prog.run_bind, h repo c k, M.bind_run]
  cases hy : y ⟨repo, c, k⟩ with
  | mk o s' =>
    cases o with
    | ok a => exact hf a s'.repo s'.cached s'.checked
    | error e => rfl

theorem Mirrors.only {α : Type} {x : M RefSets α} {y : M RefState α}
    (h : ∀ repo c k, y ⟨repo, c, k⟩ = ((x (c, k)).1, ⟨repo, (x (c, k)).2.1, (x (c, k)).2.2⟩)) :
    Mirrors (P.only x) y := by
  intro repo c k
  rw [h]
  rfl

theorem Mirrors.git {α : Type} (cmd : Log → List GitOp × Except PyErr α) (b : Bool) :
    Mirrors (P.git cmd b) (liftR (gitCmd cmd)) := by
  intro repo c k
  obtain ⟨L, fs⟩ := repo
  cases fs with
  | nil => rfl
  | cons x fs => cases x <;> rfl

theorem Mirrors.catch {α : Type} {x y : P α} {x' y' : M RefState α} (h1 : Mirrors x x') (h2 : Mirrors y y') :
    Mirrors (P.catchRuntime x y) (M.catchRuntime x' y') := by
  intro repo c k
  unfold P.catchRuntime M.catchRuntime
  rw [Prog.run_bind, h1 repo c k]
  cases hy : x' ⟨repo, c, k⟩ with
  | mk o s' =>
    cases o with
    | ok a => rfl
    | error e =>
      cases e
      case runtime => exact h2 s'.repo s'.cached s'.checked
      all_goals rfl

theorem Mirrors.locked {α : Type} {x : P α} {y : M RefState α} (h : Mirrors x y) : Mirrors (P.locked x) y := by
  intro repo c k
  show (((x (c, k)).bind _).run repo) = _
  rw [Prog.run_bind, h repo c k]
  rfl

theorem liftR_bind {α β : Type} (x : G α) (f : α → G β) :
    liftR (x >>= f) = (liftR x >>= fun a => liftR (f a)) := by
  funext s
  cases hx : x s.repo with
  | mk o s' =>
    have hl : liftR x s = (o, { s with repo := s' }) := by unfold liftR; rw [hx]
    cases o with
    | ok a =>
      rw [M.bind_of_ok hl]
      unfold liftR
      rw [M.bind_of_ok hx]
    | error e =>
      rw [M.bind_of_error hl]
      unfold liftR
      rw [M.bind_of_error hx]

theorem liftR_pure {α : Type} (a : α) : liftR (Pure.pure a : G α) = Pure.pure a := rfl

theorem mirrors_raise {α : Type} (e : PyErr) : Mirrors (P.only (M.raise e : M RefSets α)) (liftR (M.raise e)) :=
  Mirrors.only fun _ _ _ => rfl

theorem mirrors_ofExcept {α : Type} (x : Except PyErr α) : Mirrors (P.only (M.ofExcept x)) (liftR (M.ofExcept x)) := by
  cases x <;> exact Mirrors.only fun _ _ _ => rfl

theorem mirrors_ofExcept' {α : Type} (x : Except PyErr α) : Mirrors (P.only (M.ofExcept x)) (M.ofExcept x) := by
  cases x <;> exact Mirrors.only fun _ _ _ => rfl

theorem mirrors_subDir (C : Cfg) (r : Realm) (table : List (Str × TreeEntry)) (n : Str) :
    Mirrors (subDirP C r table n) (liftR (subDir C r table n)) := by
  unfold subDirP subDir
  cases dget table n with
  | none => exact Mirrors.pure []
  | some e =>
    simp only
    by_cases h : e.isTree = true
    · rw [if_pos h, if_pos h]; exact Mirrors.git _ _
    · rw [if_neg h, if_neg h]; exact mirrors_raise _

theorem mirrors_addDirs {C : Cfg} {rec : List PathInfo → List TreeEntry → P Str}
    {rec' : List PathInfo → List TreeEntry → G Str} (r : Realm) (table : List (Str × TreeEntry))
    (h : ∀ a b, Mirrors (rec a b) (liftR (rec' a b))) : ∀ ds acc,
    Mirrors (addDirsP C rec r table ds acc) (liftR (addDirs C rec' r table ds acc)) := by
  intro ds
  induction ds with
  | nil => intro acc; exact Mirrors.pure acc
  | cons x ds ih =>
    intro acc
    obtain ⟨n, subs⟩ := x
    unfold addDirsP addDirs
    rw [liftR_bind]
    refine Mirrors.bind (mirrors_subDir C r table n) fun es => ?_
    rw [liftR_bind]
    exact Mirrors.bind (h _ _) fun _ => ih _

theorem mirrors_addPaths (C : Cfg) (r : Realm) : ∀ (n : Nat) (infos : List PathInfo) (root : List TreeEntry),
    Mirrors (addPathsP C n r infos root) (liftR (addPaths C n r infos root)) := by
  intro n
  induction n with
  | zero => intro infos root; exact mirrors_raise _
  | succ n ih =>
    intro infos root
    unfold addPathsP addPaths
    simp only
    by_cases h1 : (infos.any fun i => i.elements.isEmpty) = true
    · rw [if_pos h1, if_pos h1]; exact mirrors_raise _
    · rw [if_neg h1, if_neg h1]
      by_cases h2 : validInfos infos = true
      · rw [if_pos h2, if_pos h2, liftR_bind]
        refine Mirrors.bind (mirrors_ofExcept _) fun acc => ?_
        rw [liftR_bind]
        exact Mirrors.bind (mirrors_addDirs r _ ih _ _) fun acc => Mirrors.git _ _
      · rw [if_neg h2, if_neg h2]; exact mirrors_raise _

/-- The locked part after reading -/
def restRefs (C : Cfg) (r : Realm) (infos : List PathInfo) (root : List TreeEntry) : M RefState Unit := do
  let h ← liftR (addPaths C 1000 r infos root)
  liftR (gitUpdateRef C r objectRefName h)

theorem mirrors_rest (C : Cfg) (r : Realm) (infos : List PathInfo) (root : List TreeEntry) :
    Mirrors (restP C r infos root) (restRefs C r infos root) :=
  Mirrors.bind (mirrors_addPaths C r 1000 infos root) fun _ => Mirrors.git _ _

theorem mirrors_storeRefs (C : Cfg) (r : Realm) (infos : List PathInfo) :
    Mirrors (storeRefsP C r infos) (storeRefs C r infos) :=
  Mirrors.bind (Mirrors.catch (Mirrors.git _ _) (Mirrors.pure _)) fun _ => mirrors_rest C r infos _

theorem mirrors_lines (t : Bool) : ∀ (ls : List Str) (repo : Repo) (c : List (Bool × Str)) (k : List Realm),
    M.forEach (cacheLegacyLine t) ls ⟨repo, c, k⟩ = ((M.forEach (cacheLegacyLineS t) ls (c, k)).1,
      ⟨repo, (M.forEach (cacheLegacyLineS t) ls (c, k)).2.1, (M.forEach (cacheLegacyLineS t) ls (c, k)).2.2⟩) := by
  intro ls
  induction ls with
  | nil => intro repo c k; rfl
  | cons l ls ih =>
    intro repo c k
    rw [M.forEach_cons, M.forEach_cons]
    cases hl : splitLstreeLine l with
    | error e =>
      have e1 : cacheLegacyLine t l ⟨repo, c, k⟩ = (.error e, ⟨repo, c, k⟩) := by
        unfold cacheLegacyLine; rw [hl]; rfl
      have e2 : cacheLegacyLineS t l (c, k) = (.error e, (c, k)) := by
        unfold cacheLegacyLineS; rw [hl]; rfl
      rw [M.bind_of_error e1, M.bind_of_error e2]
    | ok x =>
      obtain ⟨a, b, h, d⟩ := x
      have e1 : cacheLegacyLine t l ⟨repo, c, k⟩ = (.ok (), ⟨repo, insertNew c (t, h), k⟩) := by
        unfold cacheLegacyLine; rw [hl]; rfl
      have e2 : cacheLegacyLineS t l (c, k) = (.ok (), (insertNew c (t, h), k)) := by
        unfold cacheLegacyLineS; rw [hl]; rfl
      rw [M.bind_of_ok e1, M.bind_of_ok e2]
      have hi := ih repo (insertNew c (t, h)) k
      cases hx : M.forEach (cacheLegacyLineS t) ls (insertNew c (t, h), k) with
      | mk o s' =>
        rw [hx] at hi
        cases o with
        | ok bs => rw [M.bind_of_ok hi, M.bind_of_ok hx]; rfl
        | error e => rw [M.bind_of_error hi, M.bind_of_error hx]

theorem mirrors_addLegacyFrom (C : Cfg) (r : Realm) (name : Str) (t : Bool) :
    Mirrors (addLegacyFromP C r name t) (addLegacyFrom C r name t) := by
  unfold addLegacyFromP addLegacyFrom
  refine Mirrors.catch ?_ (Mirrors.pure _)
  refine Mirrors.bind (Mirrors.git _ _) fun ls => ?_
  exact Mirrors.bind (Mirrors.only (mirrors_lines t ls)) fun _ => Mirrors.pure _

theorem mirrors_addLegacy (C : Cfg) (r : Realm) : Mirrors (addLegacyP C r) (addLegacy C r) := by
  intro repo c k
  have h1 : addLegacyP C r (c, k) = (if r ∈ k then P.pure (false, false)
      else do
        P.only (M.modify fun s => (s.1, insertNew s.2 r))
        let t ← addLegacyFromP C r legacyTreesName true
        let b ← addLegacyFromP C r legacyBlobsName false
        P.pure (t, b)) (c, k) := rfl
  have h2 : addLegacy C r ⟨repo, c, k⟩ = (if r ∈ k then pure (false, false)
      else do
        M.modify fun s : RefState => { s with checked := insertNew s.checked r }
        let t ← addLegacyFrom C r legacyTreesName true
        let b ← addLegacyFrom C r legacyBlobsName false
        pure (t, b)) ⟨repo, c, k⟩ := rfl
  rw [h1, h2]
  by_cases h : r ∈ k
  · rw [if_pos h, if_pos h]; rfl
  · rw [if_neg h, if_neg h]
    refine Mirrors.bind (Mirrors.only fun _ _ _ => rfl) (fun _ => ?_) repo c k
    refine Mirrors.bind (mirrors_addLegacyFrom _ _ _ _) fun t => ?_
    exact Mirrors.bind (mirrors_addLegacyFrom _ _ _ _) fun b => Mirrors.pure _

theorem mirrors_flushCached (C : Cfg) (r : Realm) : Mirrors (flushCachedP C r) (flushCached C r) := by
  intro repo c k
  have h1 : flushCachedP C r (c, k) = (if c.isEmpty then P.pure ()
      else do
        let infos ← P.only (M.ofExcept (eachOk refInfo c))
        P.locked (storeRefsP C r infos)
        P.only (M.modify fun s => ([], s.2))) (c, k) := rfl
  have h2 : flushCached C r ⟨repo, c, k⟩ = (if c.isEmpty then pure ()
      else do
        let infos ← M.ofExcept (eachOk refInfo c)
        storeRefs C r infos
        M.modify fun s : RefState => { s with cached := [] }) ⟨repo, c, k⟩ := rfl
  rw [h1, h2]
  by_cases h : c.isEmpty = true
  · rw [if_pos h, if_pos h]; rfl
  · rw [if_neg h, if_neg h]
    refine Mirrors.bind (mirrors_ofExcept' _) (fun infos => ?_) repo c k
    exact Mirrors.bind (mirrors_storeRefs C r infos).locked fun _ => Mirrors.only fun _ _ _ => rfl

theorem mirrors_dropLegacy (r : Realm) (name : Str) (added : Bool) :
    Mirrors (dropLegacyP r name added) (dropLegacy r name added) := by
  cases added
  · exact Mirrors.pure ()
  · exact Mirrors.git _ _

/-- Without other processes, the program is the function `flush`. -/
theorem flushP_mirrors (C : Cfg) (r : Realm) : Mirrors (flushP C r) (flush C r) := by
  refine Mirrors.bind (mirrors_addLegacy C r) fun tb => ?_
  refine Mirrors.bind (mirrors_flushCached C r) fun _ => ?_
  exact Mirrors.bind (mirrors_dropLegacy _ _ _) fun _ => mirrors_dropLegacy _ _ _

end MM
