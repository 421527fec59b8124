/-
The objects of a Python process: what they hold and how they are kept in memory.
-/
import Verif.Git
import Verif.Metadata
import Verif.Uuid
import Verif.Path

namespace MM

/-- The class of the leaves of a tree (`MTreeNode.leaf_class`, mtreenode.py 27). -/
inductive Leaf
  | text | metadata | mrr
  deriving DecidableEq, Repr

/-- The classes of mappable objects.  `FileTree` and `DatasetTree` are wrappers
around an `MTreeNode` that hold nothing of their own (mtreeproxy.py 20-49); they
are identified with that node. -/
inductive Kind
  | text | metadata | mtree (leaf : Leaf) | mrr | vlist | tvl | uuidset
  deriving DecidableEq, Repr

/-- The class of the leaves as a class of objects. -/
def Leaf.kind : Leaf → Kind
  | .text => .text
  | .metadata => .metadata
  | .mrr => .mrr

/-- `type(obj).__name__` -/
def Kind.name : Kind → Str
  | .text => c!"Text"
  | .metadata => c!"Metadata"
  | .mtree _ => c!"MTreeNode"
  | .mrr => c!"MetadataRootRecord"
  | .vlist => c!"VersionList"
  | .tvl => c!"TreeVersionList"
  | .uuidset => c!"UUIDSet"

/-- `isinstance(obj, MTreeNode)` -/
def Kind.isMtree : Kind → Bool
  | .mtree _ => true
  | _ => false

/-- Where a sub-object is held: under a name in a tree node, as dataset-level
metadata or file tree of a root record, under a version and a prefix path in a
version list, or under a dataset id in a UUID set. -/
inductive Key
  | name (n : Str)
  | dlm
  | ft
  | ver (v : Str) (p : PPath)
  | uuid (u : Uuid)
  deriving DecidableEq, Repr

/-- What an object holds besides its sub-objects: `Text.content` (text.py 25),
`Metadata.instance_sets` (metadata.py 236), `leaf_class` of a tree node, and
`dataset_identifier` and `dataset_version` of a root record
(metadatarootrecord.py 30-31). -/
inductive Data
  | text (s : Option Str)
  | metadata (m : Sets)
  | mtree (leaf : Leaf)
  | mrr (id : Option Uuid) (version : Option Str)
  | vlist
  | tvl
  | uuidset

/-- The class of the object. -/
def Data.kind : Data → Kind
  | .text _ => .text
  | .metadata _ => .metadata
  | .mtree l => .mtree l
  | .mrr _ _ => .mrr
  | .vlist => .vlist
  | .tvl => .tvl
  | .uuidset => .uuidset

/-- What a new, empty object holds. -/
def Data.empty : Kind → Data
  | .text => .text none
  | .metadata => .metadata []
  | .mtree l => .mtree l
  | .mrr => .mrr none none
  | .vlist => .vlist
  | .tvl => .tvl
  | .uuidset => .uuidset

/-- What is left after `purge_impl`: root records keep their identifier and
version (metadatarootrecord.py 47-53). -/
def Data.purged : Data → Data
  | .text _ => .text none
  | .metadata _ => .metadata []
  | d => d

/-- The content of an object, with sub-objects of type `κ`: `child_nodes`
(mtreenode.py 29), `dataset_level_metadata` and `_file_tree`
(metadatarootrecord.py 32-33), `version_set` (versionlist.py 59-60), or `uuid_set`
(uuidset.py 24), as one dictionary.  The string next to a sub-object is the time
stamp of a version record and empty otherwise.  The nested dictionaries of a
version list are kept as one list in the order of iteration, see `vset`; the
prefix path of a version record is the key it is stored under. -/
structure Body (κ : Type) where
  data : Data
  kids : List (Key × (Str × κ))

namespace Body
variable {κ μ : Type}

/-- Change the sub-objects. -/
def map (f : κ → μ) (b : Body κ) : Body μ :=
  ⟨b.data, b.kids.map fun e => (e.1, e.2.1, f e.2.2)⟩

/-- The sub-objects, `modifiable_sub_objects_impl` of the classes. -/
def subs (b : Body κ) : List κ := b.kids.map fun e => e.2.2

/-- The content of an empty object. -/
def empty (k : Kind) : Body κ := ⟨Data.empty k, []⟩

/-- What is left after `purge_impl`. -/
def purged (b : Body κ) : Body κ := ⟨b.data.purged, []⟩

end Body

/-- `version_set[v][p] = x` (versionlist.py 169-174) on the flattened dictionary: an
existing entry keeps its place, a new path goes behind the last path of the same
version, a new version goes to the end. -/
def vset {α : Type} (l : List (Key × α)) (v : Str) (p : PPath) (x : α) : List (Key × α) :=
  let sameVer : Key × α → Bool := fun e => match e.1 with
    | .ver v' _ => v' = v
    | _ => false
  if (dget l (.ver v p)).isSome then dset l (.ver v p) x
  else
    let behind := (l.reverse.takeWhile fun e => !sameVer e).reverse
    if behind.length = l.length then l ++ [(.ver v p, x)]
    else l.take (l.length - behind.length) ++ (.ver v p, x) :: behind

/-- Objects are named by numbers, so that sharing is visible. -/
abbrev ObjId := Nat

/-- A mappable object (modifiableobject.py 24-27, mappableobject.py 33-68).
`savedOn` stands for a set: only membership and emptiness are used. -/
structure Obj where
  mapped : Bool
  realm : Option Realm
  ref : Option Ref
  savedOn : List Realm
  body : Body ObjId

namespace Obj

/-- The class of the object. -/
def kind (o : Obj) : Kind := o.body.data.kind

/-- An object constructed without a reference: it is mapped and not saved. -/
def new (b : Body ObjId) : Obj := ⟨true, none, none, [], b⟩

end Obj

/-- A sub-object that is not loaded: its class and its reference. -/
structure Link where
  kind : Kind
  ref : Ref
  deriving DecidableEq

/-- An object constructed with a realm and a reference (mappableobject.py 33-68):
it is not mapped, and saved on the realm unless the reference is a none
reference.  `ModifiableObject.__init__` ignores an empty realm. -/
def Link.obj (r : Realm) (l : Link) : Obj :=
  ⟨false, some r, some l.ref, if l.ref.isNone || r.isEmpty then [] else [r], Body.empty l.kind⟩

/-- The objects in memory. -/
abbrev Heap := ObjId → Obj

/-- The state of a process: its objects, the repositories, the blob caches
(`MetadataGitMapper.metadata_caches`, metadatamapper.py 17) with their pending
blobs, and the recorded object references (`cached_object_references`,
objectreference.py 16; `true` stands for a tree). -/
structure World where
  heap : Heap
  next : ObjId
  repo : Repo
  caches : List (Realm × List Str)
  refs : List (Bool × Str)

/-- Code that works on objects and repositories. -/
abbrev W := M World

/-- Run git commands. -/
def liftG {α : Type} (g : G α) : W α := fun w =>
  match g w.repo with
  | (r, s) => (r, { w with repo := s })

/-- Replace an object. -/
def Heap.set (h : Heap) (i : ObjId) (o : Obj) : Heap := fun j => if j = i then o else h j

/-- Look at an object. -/
def getObj (i : ObjId) : W Obj := fun w => (.ok (w.heap i), w)

/-- Change an object. -/
def setObj (i : ObjId) (o : Obj) : W Unit := fun w => (.ok (), { w with heap := w.heap.set i o })

/-- Change an attribute of an object. -/
def updObj (i : ObjId) (f : Obj → Obj) : W Unit := fun w =>
  (.ok (), { w with heap := w.heap.set i (f (w.heap i)) })

/-- Create an object. -/
def alloc (o : Obj) : W ObjId := fun w =>
  (.ok w.next, { w with heap := w.heap.set w.next o, next := w.next + 1 })

/-- Create unloaded objects for all sub-objects. -/
def allocKids (r : Realm) : List (Key × (Str × Link)) → W (List (Key × (Str × ObjId)))
  | [] => pure []
  | (k, t, l) :: ks => do
    let i ← alloc (l.obj r)
    let is ← allocKids r ks
    pure ((k, t, i) :: is)

@[simp] theorem Body.map_data {κ μ : Type} (f : κ → μ) (b : Body κ) : (b.map f).data = b.data := rfl

theorem Body.map_kids {κ μ : Type} (f : κ → μ) (b : Body κ) :
    (b.map f).kids = b.kids.map fun e => (e.1, e.2.1, f e.2.2) := rfl

theorem dget_map_slot {κ μ : Type} (f : κ → μ) (l : List (Key × (Str × κ))) (k : Key) :
    dget (l.map fun e => (e.1, e.2.1, f e.2.2)) k = (dget l k).map fun e => (e.1, f e.2) := by
  induction l with
  | nil => rfl
  | cons e l ih =>
    obtain ⟨k', t, c⟩ := e
    simp only [List.map_cons, dget_cons]
    split
    · rfl
    · exact ih

theorem Body.dget_map {κ μ : Type} (f : κ → μ) (b : Body κ) (k : Key) :
    dget (b.map f).kids k = (dget b.kids k).map fun e => (e.1, f e.2) := dget_map_slot f b.kids k

@[simp] theorem Heap.set_self (h : Heap) (i : ObjId) (o : Obj) : (h.set i o) i = o := by
  simp [Heap.set]

theorem Heap.set_ne {h : Heap} {i j : ObjId} {o : Obj} (hn : j ≠ i) : (h.set i o) j = h j := by
  simp [Heap.set, hn]

@[simp] theorem Data.kind_empty (k : Kind) : (Data.empty k).kind = k := by cases k <;> rfl

@[simp] theorem Data.kind_purged (d : Data) : d.purged.kind = d.kind := by cases d <;> rfl

@[simp] theorem getObj_run (i : ObjId) (w : World) : getObj i w = (.ok (w.heap i), w) := rfl

@[simp] theorem setObj_run (i : ObjId) (o : Obj) (w : World) :
    setObj i o w = (.ok (), { w with heap := w.heap.set i o }) := rfl

@[simp] theorem updObj_run (i : ObjId) (f : Obj → Obj) (w : World) :
    updObj i f w = (.ok (), { w with heap := w.heap.set i (f (w.heap i)) }) := rfl

theorem liftG_ok {α : Type} {g : G α} {w w' : World} {a : α} (h : liftG g w = (.ok a, w')) :
    ∃ s, g w.repo = (.ok a, s) ∧ w' = { w with repo := s } := by
  unfold liftG at h
  cases hg : g w.repo with
  | mk r s =>
    rw [hg] at h
    injection h with h1 h2
    exact ⟨s, by rw [h1], h2.symm⟩

end MM
