/-
The functions of `common.py`: finding or creating the root record of a dataset, starting
from the two top-level objects of a repository.
-/
import Verif.Classes

namespace MM

/-- The reference at the place where the tree version list of a repository is published
(common.py 26-29, 60-63; gitmapper/__init__.py 3-6, mapper/__init__.py 19-28). -/
def tvlLink : Link := ⟨.tvl, ⟨c!"TreeVersionList", some tvlRefName⟩⟩

/-- The same for the UUID set (common.py 32-39, 65-70). -/
def uuidSetLink : Link := ⟨.uuidset, ⟨c!"UUIDSet", some uuidSetRefName⟩⟩

/-- `get_top_level_metadata_objects` (common.py 42-75) for the mapper family `git`: both
objects are read, or none is returned.  The `RuntimeError` may come from the second object,
after the first one was read. -/
def topLevel (C : Cfg) (r : Realm) : W (Option (ObjId × ObjId)) := do
  let t ← alloc (tvlLink.obj r)
  let u ← alloc (uuidSetLink.obj r)
  M.catchRuntime (do
    readIn C t
    readIn C u
    pure (some (t, u))) (pure none)

/-- `auto_create is False`; the parameter may be `None`. -/
def noCreate (auto : Option Bool) : Bool := auto = some false

/-- The version list of a dataset id (common.py 186-192 for the root dataset, 245-251 for the
dataset itself); nothing is returned if there is none and none may be created. -/
def listFor (C : Cfg) (auto : Option Bool) (us : ObjId) (u : Uuid) : W (Option ObjId) := do
  let l ← uuids C us
  if u ∈ l then do
    let x ← getVersionList C us u
    pure (some x)
  else if noCreate auto then pure none
  else do
    let x ← alloc (Obj.new (Body.empty .vlist))
    setVersionList us u x
    pure (some x)

/-- The dataset tree of a version (common.py 194-206 for a sub-dataset, 231-243 for a root
dataset).  `set_dataset_tree` (versionlist.py 244-257) is `set_versioned_element` after
loading and touching the list.  `now` is the text of the current time. -/
def treeFor (C : Cfg) (auto : Option Bool) (now : Str) (tvl : ObjId) (v : Str) (p : PPath) :
    W (Option ObjId) := do
  let l ← versionsAndPaths C tvl
  if (v, p) ∈ l then do
    let e ← getVersioned C tvl v p
    pure (some e.2.2)
  else if noCreate auto then pure none
  else do
    let x ← alloc (Obj.new (Body.empty (.mtree .mrr)))
    setVersioned C tvl v now p x
    pure (some x)

/-- The root record at a path of a dataset tree (common.py 208-218 for the root dataset,
253-264 for the dataset itself).  Root records have no `in`.  When `in` has found something,
`get_metadata_root_record` finds it, too, so that the `None` it may return is not handled
here. -/
def recordFor (C : Cfg) (auto : Option Bool) (dt : ObjId) (path : List Str) (id : Uuid) (v : Str) :
    W (Option ObjId) := do
  let o ← getObj dt
  if !o.kind.isMtree then M.raise .type
  else do
    let b ← hasDataset C dt path
    if b then getRootRecord C dt path
    else if noCreate auto then pure none
    else do
      let m ← alloc (Obj.new (Body.empty .metadata))
      let f ← alloc (Obj.new (Body.empty (.mtree .metadata)))
      let x ← alloc (Obj.new ⟨.mrr (some id) (some v), mrrKids (some m) (some f)⟩)
      addDataset C dt path x
      pure (some x)

/-- Enter the record in the version list of its dataset id, unless there is an entry for this
version and path (common.py 220-225 for the root dataset, 266-271 for the dataset itself).
This is done for every value of `auto_create`. -/
def entryFor (C : Cfg) (vl : ObjId) (v now : Str) (p : PPath) (x : ObjId) : W Unit := do
  let l ← versionsAndPaths C vl
  if (v, p) ∈ l then pure () else setVersioned C vl v now p x

/-- What is done for the root dataset of a sub-dataset (common.py 185-227); returns the dataset
tree. -/
def rootPart (C : Cfg) (auto : Option Bool) (now : Str) (tvl us : ObjId) (root : Uuid) (rv : Str)
    (pre : PPath) : W (Option ObjId) := do
  let vl? ← listFor C auto us root
  match vl? with
  | none => pure none
  | some vl => do
    let dt? ← treeFor C auto now tvl rv pre
    match dt? with
    | none => pure none
    | some dt => do
      let m? ← recordFor C auto dt [] root rv
      match m? with
      | none => pure none
      | some m => do
        entryFor C vl rv now pre m
        pure (some dt)

/-- What is done for the dataset itself, in its dataset tree (common.py 245-273). -/
def ownPart (C : Cfg) (auto : Option Bool) (now : Str) (us dt : ObjId) (id : Uuid) (v : Str) (pre : PPath)
    (path : List Str) : W (Option ObjId) := do
  let vl? ← listFor C auto us id
  match vl? with
  | none => pure none
  | some vl => do
    let m? ← recordFor C auto dt path id v
    match m? with
    | none => pure none
    | some m => do
      entryFor C vl v now pre m
      pure (some m)

/-- `get_metadata_root_record_from_top_nodes` (common.py 144-273); `path` holds the components
of `dataset_tree_path`.  The times of the entries made in one call are the same here. -/
def rootRecord (C : Cfg) (auto : Option Bool) (now : Str) (tvl us : ObjId) (id : Uuid) (v : Str) (pre : PPath)
    (path : List Str) (root : Option Uuid) (rv : Option Str) : W (Option ObjId) :=
  if path = [] then do
    let dt? ← treeFor C auto now tvl v pre
    match dt? with
    | none => pure none
    | some dt => ownPart C auto now us dt id v pre path
  else match root, rv with
    | some root, some rv => do
      let dt? ← rootPart C auto now tvl us root rv pre
      match dt? with
      | none => pure none
      | some dt => ownPart C auto now us dt id v (metadataPath [[]]) path
    | _, _ => M.raise .assertion

/-- `get_top_nodes_and_metadata_root_record` (common.py 78-141).  `sub` holds
`sub_dataset_id` and `sub_dataset_version`; a sub-dataset id without a version is not
covered. -/
def topRecord (C : Cfg) (auto : Option Bool) (now : Str) (r : Realm) (id : Uuid) (v : Str) (pre : PPath)
    (path : List Str) (sub : Option (Uuid × Str)) : W (Option (ObjId × ObjId) × Option ObjId) := do
  let top ← topLevel C r
  let top ← match top with
    | some tu => pure (some tu)
    | none =>
      if auto = some true then do
        let t ← alloc (Obj.new (Body.empty .tvl))
        let u ← alloc (Obj.new (Body.empty .uuidset))
        pure (some (t, u))
      else pure none
  match top with
  | none => pure (none, none)
  | some (t, u) => do
    let m ← match sub with
      | some (sid, sv) => rootRecord C auto now t u sid sv pre path (some id) (some v)
      | none => rootRecord C auto now t u id v pre path none none
    pure (some (t, u), m)

end MM
