/-
A git repository as the list of the changes made to it, and the git commands of
`gitbackend/subprocess.py`.
-/
import Verif.Monad
import Verif.Names
import Verif.Reference

namespace MM

/-- A repository is named by its directory. -/
abbrev Realm := Str

/-- A git object.  The content of a blob is the text it decodes to.  Commits and
tags are not used by the code. -/
inductive GitObj
  | blob (s : Str)
  | tree (es : List TreeEntry)
  deriving DecidableEq, Repr

/-- A change of a repository: an object is stored, a named reference is set or
deleted. -/
inductive GitOp
  | save (r : Realm) (o : GitObj)
  | setRef (r : Realm) (name hash : Str)
  | delRef (r : Realm) (name : Str)
  deriving DecidableEq, Repr

/-- All changes of all repositories, newest first.  The state after a crash is
a suffix of this list. -/
abbrev Log := List GitOp

/-- What the model leaves open: the hash function of git, the text of floats, the
limit of the blob cache (`GitBlobCache.__init__`, 2000 in the code), and what the
process finds on its standard input. -/
structure Cfg where
  hash : GitObj → Str
  valid : ∀ o, isHash (hash o) = true
  floats : FloatText
  maxsize : Nat
  stdin : Str

/-- An object is stored. -/
def Stored (L : Log) (r : Realm) (o : GitObj) : Prop := GitOp.save r o ∈ L

/-- Different stored objects have different hashes. -/
def CollisionFree (C : Cfg) (L : Log) : Prop :=
  ∀ r o o', Stored L r o → Stored L r o' → C.hash o = C.hash o' → o = o'

/-- The object with a hash. -/
def findObj (C : Cfg) : Log → Realm → Str → Option GitObj
  | [], _, _ => none
  | .save r' o :: L, r, h => if r' = r ∧ C.hash o = h then some o else findObj C L r h
  | .setRef .. :: L, r, h => findObj C L r h
  | .delRef .. :: L, r, h => findObj C L r h

/-- The hash that a named reference points to. -/
def refOf : Log → Realm → Str → Option Str
  | [], _, _ => none
  | .save .. :: L, r, n => refOf L r n
  | .setRef r' n' h :: L, r, n => if r' = r ∧ n' = n then some h else refOf L r n
  | .delRef r' n' :: L, r, n => if r' = r ∧ n' = n then none else refOf L r n

/-- The object that a command line argument of git names: a hash or a named
reference.  Abbreviated hashes and other revision syntax are not modelled. -/
def resolve (C : Cfg) (L : Log) (r : Realm) (loc : Str) : Option GitObj :=
  if isHash loc then findObj C L r loc
  else match refOf L r loc with
    | some h => findObj C L r h
    | none => none

/-- The outcome of a git command: it works, or it fails (also for reasons outside
the model: disk full, killed, not a repository) after the first `k` of its
changes took effect. -/
inductive Fault
  | none
  | fail (k : Nat)
  deriving DecidableEq, Repr

/-- Repositories, and the outcomes of the commands to come (`none` at the end). -/
structure Repo where
  log : Log
  faults : List Fault
  deriving Repr

/-- Code that runs git commands. -/
abbrev G := M Repo

/-- Run one git command (`execute`, `checked_execute`, subprocess.py 18-50) that
makes the changes `ops` and gives `res`.  A failing command is a `RuntimeError`. -/
def gitCmd {α : Type} (cmd : Log → List GitOp × Except PyErr α) : G α := fun s =>
  match s.faults with
  | .fail k :: fs => (.error .runtime, ⟨((cmd s.log).1.take k).reverse ++ s.log, fs⟩)
  | .none :: fs => ((cmd s.log).2, ⟨(cmd s.log).1.reverse ++ s.log, fs⟩)
  | [] => ((cmd s.log).2, ⟨(cmd s.log).1.reverse ++ s.log, []⟩)

/-- What `git show` prints for an object, after `git_text_result`
(subprocess.py 67-69, 84-87).  Showing a tree is an error here; git prints a
listing. -/
def textAt (C : Cfg) (L : Log) (r : Realm) (loc : Str) : Except PyErr Str :=
  match resolve C L r loc with
  | some (.blob s) => .ok (gitText s)
  | some (.tree _) => .error .runtime
  | none => .error .runtime

/-- `git_load_str` (subprocess.py 84-87).  For a remote repository the object is
first fetched into a local cache, see `LocalCache`; here it is read directly. -/
def gitLoadStr (C : Cfg) (r : Realm) (loc : Str) : G Str := gitCmd fun L => ([], textAt C L r loc)

/-- `git_load_json` (subprocess.py 90-92); a syntax error is a `ValueError`. -/
def jsonAt (C : Cfg) (L : Log) (r : Realm) (loc : Str) : Except PyErr Json :=
  match textAt C L r loc with
  | .error e => .error e
  | .ok s => match loads C.floats s with
    | some j => .ok j
    | none => .error .value

/-- `git_load_json` (subprocess.py 90-92) -/
def gitLoadJson (C : Cfg) (r : Realm) (loc : Str) : G Json := gitCmd fun L => ([], jsonAt C L r loc)

/-- The entries of a tree as `git cat-file -p` and `git ls-tree` print them
(subprocess.py 106-116).  The output of `git cat-file -p` for a blob is not a
list of tree entries, which is a `ValueError` in the code that splits the lines;
here it is a `RuntimeError`. -/
def treeAt (C : Cfg) (L : Log) (r : Realm) (loc : Str) : Except PyErr (List TreeEntry) :=
  match resolve C L r loc with
  | some (.tree es) => .ok es
  | some (.blob _) => .error .runtime
  | none => .error .runtime

/-- `git_save_str` (subprocess.py 130-132) with a string. -/
def gitSaveStr (C : Cfg) (r : Realm) (s : Str) : G Str :=
  gitCmd fun _ => ([.save r (.blob s)], .ok (C.hash (.blob s)))

/-- `git_save_json` (subprocess.py 145-146) -/
def gitSaveJson (C : Cfg) (r : Realm) (j : Json) : G Str := gitSaveStr C r (dumps C.floats j)

/-- `git_save_file_list` (subprocess.py 135-142): one command stores many blobs. -/
def gitSaveBlobs (C : Cfg) (r : Realm) (bs : List Str) : G (List Str) :=
  gitCmd fun _ => (bs.map fun s => .save r (.blob s), .ok (bs.map fun s => C.hash (.blob s)))

/-- `git_save_tree_node`, `git_save_tree` (subprocess.py 149-169): the entries are
printed as text and read by `git mktree`. -/
def gitSaveTree (C : Cfg) (r : Realm) (es : List TreeEntry) : G Str :=
  gitCmd fun _ => match mktree (treeSpec es) with
    | some es' => ([.save r (.tree es')], .ok (C.hash (.tree es')))
    | none => ([], .error .runtime)

/-- `git_update_ref` (subprocess.py 172-177): fails if the object does not exist. -/
def gitUpdateRef (C : Cfg) (r : Realm) (name hash : Str) : G Unit :=
  gitCmd fun L => match resolve C L r hash with
    | some _ => ([.setRef r name hash], .ok ())
    | none => ([], .error .runtime)

/-- `git_delete_ref` (subprocess.py 180-185) -/
def gitDeleteRef (r : Realm) (name : Str) : G Unit :=
  gitCmd fun _ => ([.delRef r name], .ok ())

/-! ### Lemmas -/

theorem gitCmd_ok {α : Type} {cmd : Log → List GitOp × Except PyErr α} {s s' : Repo} {a : α}
    (h : gitCmd cmd s = (.ok a, s')) :
    (cmd s.log).2 = .ok a ∧ s'.log = (cmd s.log).1.reverse ++ s.log := by
  unfold gitCmd at h
  revert h
  split
  · simp
  · intro h; injection h with h1 h2; subst h2; exact ⟨h1, rfl⟩
  · intro h; injection h with h1 h2; subst h2; exact ⟨h1, rfl⟩

/-- Whatever the outcome, a command adds a part of its changes to the log. -/
theorem gitCmd_log {α : Type} (cmd : Log → List GitOp × Except PyErr α) (s : Repo) :
    ∃ k, (gitCmd cmd s).2.log = ((cmd s.log).1.take k).reverse ++ s.log := by
  unfold gitCmd
  split
  · rename_i k fs e; exact ⟨k, rfl⟩
  · exact ⟨(cmd s.log).1.length, by simp⟩
  · exact ⟨(cmd s.log).1.length, by simp⟩

theorem findObj_stored {C : Cfg} {L : Log} {r : Realm} {h : Str} {o : GitObj}
    (hf : findObj C L r h = some o) : Stored L r o ∧ C.hash o = h := by
  induction L with
  | nil => simp [findObj] at hf
  | cons op L ih =>
    cases op with
    | save r' o' =>
      unfold findObj at hf
      split at hf
      · rename_i hc; cases hf; obtain ⟨rfl, hc⟩ := hc; exact ⟨List.mem_cons_self .., hc⟩
      · exact ⟨List.mem_cons_of_mem _ (ih hf).1, (ih hf).2⟩
    | setRef r' n' h' => exact ⟨List.mem_cons_of_mem _ (ih hf).1, (ih hf).2⟩
    | delRef r' n' => exact ⟨List.mem_cons_of_mem _ (ih hf).1, (ih hf).2⟩

theorem findObj_isSome {C : Cfg} {L : Log} {r : Realm} {o : GitObj} (h : Stored L r o) :
    (findObj C L r (C.hash o)).isSome = true := by
  induction L with
  | nil => simp [Stored] at h
  | cons op L ih =>
    unfold Stored at h
    rcases List.mem_cons.mp h with h | h
    · subst h; simp [findObj]
    · have := ih h
      cases op with
      | save r' o' => unfold findObj; split; rfl; exact this
      | setRef r' n' h' => exact this
      | delRef r' n' => exact this

theorem findObj_of_stored {C : Cfg} {L : Log} (hc : CollisionFree C L) {r : Realm} {o : GitObj}
    (h : Stored L r o) : findObj C L r (C.hash o) = some o := by
  have h1 := findObj_isSome (C := C) h
  cases hf : findObj C L r (C.hash o) with
  | none => rw [hf] at h1; simp at h1
  | some o' =>
    obtain ⟨hs, hh⟩ := findObj_stored hf
    rw [hc r o' o hs h hh]

/-- Everything stored stays stored. -/
def Grows (L L' : Log) : Prop := ∀ r o, Stored L r o → Stored L' r o

theorem Grows.refl (L : Log) : Grows L L := fun _ _ h => h

theorem Grows.trans {L L' L'' : Log} (h : Grows L L') (h' : Grows L' L'') : Grows L L'' :=
  fun r o x => h' r o (h r o x)

theorem CollisionFree.mono {C : Cfg} {L L' : Log} (h : CollisionFree C L') (hg : Grows L L') :
    CollisionFree C L := fun r o o' h1 h2 => h r o o' (hg r o h1) (hg r o' h2)

theorem findObj_mono {C : Cfg} {L L' : Log} (hg : Grows L L') (hc : CollisionFree C L') {r : Realm}
    {h : Str} {o : GitObj} (hf : findObj C L r h = some o) : findObj C L' r h = some o := by
  obtain ⟨hs, rfl⟩ := findObj_stored hf
  exact findObj_of_stored hc (hg r o hs)

/-- The named references are the same. -/
def SameRefs (L L' : Log) : Prop := ∀ r n, refOf L' r n = refOf L r n

theorem SameRefs.refl (L : Log) : SameRefs L L := fun _ _ => rfl

theorem SameRefs.trans {L L' L'' : Log} (h : SameRefs L L') (h' : SameRefs L' L'') :
    SameRefs L L'' := fun r n => (h' r n).trans (h r n)

theorem resolve_mono {C : Cfg} {L L' : Log} (hg : Grows L L') (hr : SameRefs L L')
    (hc : CollisionFree C L') {r : Realm} {loc : Str} {o : GitObj}
    (hf : resolve C L r loc = some o) : resolve C L' r loc = some o := by
  unfold resolve at hf ⊢
  rw [hr r loc]
  split
  · rename_i hh; rw [if_pos hh] at hf; exact findObj_mono hg hc hf
  · rename_i hh
    rw [if_neg hh] at hf
    split at hf
    · exact findObj_mono hg hc hf
    · cases hf

theorem resolve_hash {C : Cfg} {L : Log} {r : Realm} {loc : Str} (h : isHash loc = true) :
    resolve C L r loc = findObj C L r loc := by unfold resolve; rw [if_pos h]

theorem resolve_stored {C : Cfg} {L : Log} (hc : CollisionFree C L) {r : Realm} {o : GitObj}
    (h : Stored L r o) : resolve C L r (C.hash o) = some o := by
  rw [resolve_hash (C.valid o)]; exact findObj_of_stored hc h

theorem stored_append {L K : Log} {r : Realm} {o : GitObj} (h : Stored L r o) :
    Stored (K ++ L) r o := List.mem_append_right _ h

theorem grows_append (K L : Log) : Grows L (K ++ L) := fun _ _ h => stored_append h

/-- Only objects are stored by the changes. -/
def SavesOnly (ops : List GitOp) : Prop := ∀ op ∈ ops, ∃ r o, op = .save r o

theorem refOf_append_saves {ops : List GitOp} (h : SavesOnly ops) (L : Log) (r : Realm) (n : Str) :
    refOf (ops ++ L) r n = refOf L r n := by
  induction ops with
  | nil => rfl
  | cons op ops ih =>
    obtain ⟨r', o, rfl⟩ := h op (List.mem_cons_self ..)
    simp only [List.cons_append, refOf]
    exact ih fun x hx => h x (List.mem_cons_of_mem _ hx)

theorem sameRefs_append {ops : List GitOp} (h : SavesOnly ops) (L : Log) :
    SameRefs L (ops ++ L) := fun r n => refOf_append_saves h L r n

end MM
