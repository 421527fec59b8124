/-
The methods of the classes of mappable objects: `mtreenode.py`, `mtreeproxy.py`,
`filetree.py`, `datasettree.py`, `metadatarootrecord.py`, `versionlist.py`,
`uuidset.py`, `text.py`, and the methods of `Metadata` in `metadata.py` that load or
touch the object.

Paths are given as lists of components: `MetadataPath("/".join(path.parts[1:]))` has
the components after the first one (C01).  The recursion of methods over a path is
not limited here; recursion over the objects is.
-/
import Verif.Mapper

namespace MM

/-- `try: x  except AttributeError: y` -/
def M.catchAttribute {σ α : Type} (x : M σ α) (y : M σ α) : M σ α := fun s =>
  match x s with
  | (.error .attribute, s') => y s'
  | r => r

/-- `self.touch()` and an assignment to what the object holds. -/
def change (i : ObjId) (b : Body ObjId) : W Unit := do
  touch i
  updObj i fun o => { o with body := b }

/-- `with ensure_mapped(obj): x` (mappableobject.py 16-25): an object that was read for
this purpose is purged at the end, also after an exception. -/
def withMapped {α : Type} (C : Cfg) (n : Nat) (i : ObjId) (x : W α) : W α := do
  let needsPurge ← ensureMapped C i
  if needsPurge then M.finally_ x (purge n i) else x

/-! ### Tree nodes -/

/-- `get_child` (mtreenode.py 68-73) -/
def getChild (C : Cfg) (i : ObjId) (name : Str) : W (Option ObjId) := do
  let _ ← ensureMapped C i
  let o ← getObj i
  pure ((dget o.body.kids (.name name)).map Prod.snd)

/-- `add_child` (mtreenode.py 75-105) for one child. -/
def addChild (C : Cfg) (i : ObjId) (name : Str) (child : ObjId) : W Unit := do
  M.assert (name ≠ c!".")
  M.assert (!name.contains '/')
  let _ ← ensureMapped C i
  let o ← getObj i
  match dget o.body.kids (.name name) with
  | some _ => M.raise .value
  | none => change i ⟨o.body.data, o.body.kids ++ [(.name name, [], child)]⟩

/-- `add_child_at` (mtreenode.py 107-142).  An intermediate node is created and added
before the rest of the path is handled. -/
def addChildAt (C : Cfg) (child : ObjId) : List Str → ObjId → W Unit
  | [], _ => M.raise .assertion
  | [name], i => do
    let existing ← getChild C i name
    match existing with
    | some e => do
      let o ← getObj e
      if o.kind.isMtree then M.raise .value else addChild C i name child
    | none => addChild C i name child
  | name :: path, i => do
    let existing ← getChild C i name
    match existing with
    | some e => do
      let o ← getObj e
      if o.kind.isMtree then addChildAt C child path e else M.raise .value
    | none => do
      let o ← getObj i
      let e ← alloc (Obj.new (Body.empty o.kind))
      addChild C i name e
      addChildAt C child path e

/-- `remove_child` (mtreenode.py 144-149): the object is touched before the child is
looked for. -/
def removeChild (C : Cfg) (i : ObjId) (name : Str) : W Unit := do
  let _ ← ensureMapped C i
  touch i
  let o ← getObj i
  match dget o.body.kids (.name name) with
  | none => M.raise .key
  | some _ => updObj i fun o => { o with body := ⟨o.body.data, ddel o.body.kids (.name name)⟩ }

/-- `get_object_at_path` (mtreenode.py 158-171) -/
def getObjectAt (C : Cfg) : List Str → ObjId → W (Option ObjId)
  | [], i => pure (some i)
  | name :: path, i => do
    let o ← getObj i
    if o.kind.isMtree then do
      let c ← getChild C i name
      match c with
      | none => pure none
      | some j => getObjectAt C path j
    else pure none

/-- `remove_child_at` (mtreenode.py 151-156): `None` and leaves have no method
`remove_child`. -/
def removeChildAt (C : Cfg) (path : List Str) (i : ObjId) : W Unit := do
  let c ← getObjectAt C path.dropLast i
  match c with
  | none => M.raise .attribute
  | some j => do
    let o ← getObj j
    if o.kind.isMtree then
      match path.getLast? with
      | none => M.raise .index
      | some name => removeChild C j name
    else M.raise .attribute

/-- The part of `get_paths_recursive` for one child (mtreenode.py 179-187); `rec` lists
the child's own elements. -/
def kidPaths (rec : ObjId → W (List (PPath × ObjId))) (e : Key × (Str × ObjId)) :
    W (List (PPath × ObjId)) := do
  let c ← getObj e.2.2
  if c.kind.isMtree then do
    let l ← rec e.2.2
    pure (l.map fun x => ((metadataPath [e.1.entryName]).join x.1, x.2))
  else pure [(metadataPath [e.1.entryName], e.2.2)]

/-- The loop of `get_paths_recursive` (mtreenode.py 178-187) -/
def listKids (rec : ObjId → W (List (PPath × ObjId))) (i : ObjId) : W (List (PPath × ObjId)) := do
  let o ← getObj i
  let ls ← M.forEach (kidPaths rec) o.body.kids
  pure ls.flatten

/-- `get_paths_recursive` (mtreenode.py 173-187), run to its end.  The code yields the
elements one by one; the caller may do other things in between, which is not covered. -/
def getPaths (C : Cfg) (showNodes : Bool) : Nat → ObjId → W (List (PPath × ObjId))
  | 0, _ => M.raise .recursion
  | n + 1, i => do
    let l ← withMapped C n i (listKids (getPaths C showNodes n) i)
    pure (if showNodes then (metadataPath [[]], i) :: l else l)

/-! ### File trees and metadata -/

/-- `add_extractor_run` of `Metadata` (metadata.py 266-289); the time stamp is given. -/
def addExtractorRun (C : Cfg) (i : ObjId) (extractor : Str) (run : Instance) : W Unit := do
  let _ ← ensureMapped C i
  let o ← getObj i
  match o.body.data with
  | .metadata m => change i ⟨.metadata (m.addRun extractor run), o.body.kids⟩
  | _ => M.raise .attribute

/-- `extractors` and `extractor_runs` (metadata.py 252-260): what the object holds. -/
def getSets (C : Cfg) (i : ObjId) : W Sets := do
  let _ ← ensureMapped C i
  let o ← getObj i
  match o.body.data with
  | .metadata m => pure m
  | _ => M.raise .attribute

/-- `get_metadata` of a file tree (filetree.py 36-47) -/
def getMetadata (C : Cfg) (i : ObjId) (path : List Str) : W (Option ObjId) := do
  let c ← getObjectAt C path i
  match c with
  | none => pure none
  | some j => do
    let o ← getObj j
    M.assert (o.kind = .metadata)
    let _ ← ensureMapped C j
    pure (some j)

/-- `unget_metadata` (filetree.py 49-54) -/
def ungetMetadata (C : Cfg) (n : Nat) (j : ObjId) (dest : Option Realm) : W Unit := do
  let o ← getObj j
  M.assert (o.kind = .metadata)
  let _ ← writeOut C n dest false j
  purge n j

/-- `add_extractor_run` of a file tree (filetree.py 56-78): `get_metadata` returns
`None` for a path without metadata. -/
def addExtractorRunAt (C : Cfg) (i : ObjId) (path : List Str) (extractor : Str) (run : Instance) :
    W Unit := do
  let m ← M.catchAttribute (getMetadata C i path) do
    let j ← alloc (Obj.new (Body.empty .metadata))
    addChildAt C j path i
    pure (some j)
  match m with
  | none => M.raise .attribute
  | some j => addExtractorRun C j extractor run

/-! ### Dataset trees -/

/-- `datalad_root_record_name` (datasettree.py 15) -/
def rootRecordName : Str := c!".datalad_metadata_root_record"

/-- `path in dataset_tree` (datasettree.py 30-31) -/
def hasDataset (C : Cfg) (i : ObjId) (path : List Str) : W Bool := do
  let c ← getObjectAt C (path ++ [rootRecordName]) i
  pure c.isSome

/-- `add_dataset` (datasettree.py 33-38) -/
def addDataset (C : Cfg) (i : ObjId) (path : List Str) (mrr : ObjId) : W Unit :=
  addChildAt C mrr (path ++ [rootRecordName]) i

/-- `get_metadata_root_record` (datasettree.py 40-52) -/
def getRootRecord (C : Cfg) (i : ObjId) (path : List Str) : W (Option ObjId) := do
  let c ← getObjectAt C (path ++ [rootRecordName]) i
  match c with
  | none => pure none
  | some j => do
    let o ← getObj j
    M.assert (o.kind = .mrr)
    let _ ← ensureMapped C j
    pure (some j)

/-- One element of `dataset_paths`; `path.parts[-1]` of an empty path is an
`IndexError`. -/
def datasetPath (e : PPath × ObjId) : Except PyErr (List (PPath × ObjId)) :=
  match e.1.parts.getLast? with
  | none => .error .index
  | some l => .ok (if l = rootRecordName then [(metadataPath [joinWith '/' e.1.parts.dropLast], e.2)] else [])

/-- `dataset_paths` (datasettree.py 54-64) -/
def datasetPaths (C : Cfg) (n : Nat) (i : ObjId) : W (List (PPath × ObjId)) := do
  let l ← getPaths C false n i
  let ls ← M.ofExcept (eachOk datasetPath l)
  pure ls.flatten

/-- `add_subtree` and `delete_subtree` (datasettree.py 66-74) -/
def addSubtree (C : Cfg) (i : ObjId) (subtree : ObjId) (path : List Str) : W Unit :=
  addChildAt C subtree path i

def deleteSubtree (C : Cfg) (i : ObjId) (path : List Str) : W Unit := removeChildAt C path i

/-! ### Root records -/

/-- Set or remove the sub-object of a root record under a key, keeping the order of
`modifiable_sub_objects_impl` (metadatarootrecord.py 40-45). -/
def mrrSet (kids : List (Key × (Str × ObjId))) (k : Key) (x : ObjId) : List (Key × (Str × ObjId)) :=
  mrrKids (if k = .dlm then some x else (dget kids .dlm).map Prod.snd)
    (if k = .ft then some x else (dget kids .ft).map Prod.snd)

/-- `set_file_tree` (metadatarootrecord.py 55-58) -/
def setFileTree (C : Cfg) (i ft : ObjId) : W Unit := do
  let _ ← ensureMapped C i
  let o ← getObj i
  change i ⟨o.body.data, mrrSet o.body.kids .ft ft⟩

/-- `get_file_tree` (metadatarootrecord.py 60-64) -/
def getFileTree (C : Cfg) (i : ObjId) : W (Option ObjId) := do
  let _ ← ensureMapped C i
  let o ← getObj i
  match dget o.body.kids .ft with
  | none => pure none
  | some e => do
    readIn C e.2
    pure (some e.2)

/-- `set_dataset_level_metadata` (metadatarootrecord.py 68-71) -/
def setDlm (C : Cfg) (i m : ObjId) : W Unit := do
  let _ ← ensureMapped C i
  let o ← getObj i
  change i ⟨o.body.data, mrrSet o.body.kids .dlm m⟩

/-- `get_dataset_level_metadata` (metadatarootrecord.py 73-75) -/
def getDlm (C : Cfg) (i : ObjId) : W ObjId := do
  let _ ← ensureMapped C i
  let o ← getObj i
  match dget o.body.kids .dlm with
  | none => M.raise .attribute
  | some e => do
    readIn C e.2
    pure e.2

/-! ### Version lists -/

/-- `set_versioned_element` (versionlist.py 161-178) -/
def setVersioned (C : Cfg) (i : ObjId) (v stamp : Str) (p : PPath) (x : ObjId) : W Unit := do
  let _ ← ensureMapped C i
  let o ← getObj i
  change i ⟨o.body.data, vset o.body.kids v p (stamp, x)⟩

/-- `get_versioned_element` (versionlist.py 108-125) -/
def getVersioned (C : Cfg) (i : ObjId) (v : Str) (p : PPath) : W (Str × PPath × ObjId) := do
  let _ ← ensureMapped C i
  let o ← getObj i
  match dget o.body.kids (.ver v p) with
  | none => M.raise .key
  | some e => do
    readIn C e.2
    pure (e.1, p, e.2)

/-- The version and prefix path of an entry -/
def Key.verPath : Key → Option (Str × PPath)
  | .ver v p => some (v, p)
  | _ => none

/-- `versions_and_prefix_paths` (versionlist.py 102-106) -/
def versionsAndPaths (C : Cfg) (i : ObjId) : W (List (Str × PPath)) := do
  let _ ← ensureMapped C i
  let o ← getObj i
  pure (o.body.kids.filterMap fun e => e.1.verPath)

/-- `versions` (versionlist.py 96-100), run to its end: one element for each entry. -/
def versions (C : Cfg) (i : ObjId) : W (List Str) := do
  let l ← versionsAndPaths C i
  pure (l.map Prod.fst)

/-- `versioned_elements` (versionlist.py 143-159), run to its end: the elements are not
loaded. -/
def versionedElements (C : Cfg) (i : ObjId) : W (List (Str × Str × PPath × ObjId)) := do
  let _ ← ensureMapped C i
  let o ← getObj i
  pure (o.body.kids.filterMap fun e => e.1.verPath.map fun x => (x.1, e.2.1, x.2, e.2.2))

/-- `get_versioned_elements` (versionlist.py 127-141), run to its end. -/
def getVersionedAll (C : Cfg) (i : ObjId) (v : Str) : W (List (Str × PPath × ObjId)) := do
  let _ ← ensureMapped C i
  let o ← getObj i
  let es := o.body.kids.filterMap fun e => match e.1 with
    | .ver v' p => if v' = v then some (e.2.1, p, e.2.2) else none
    | _ => none
  if es = [] then M.raise .key
  else M.forEach (fun e => do
    readIn C e.2.2
    pure e) es

/-- `unget_versioned_element` (versionlist.py 180-192); `wr` is `write_out` of the
element. -/
def ungetVersioned (C : Cfg) (n : Nat) (i : ObjId) (v : Str) (p : PPath) (dest : Option Realm) : W Unit := do
  let o ← getObj i
  match dget o.body.kids (.ver v p) with
  | none => M.raise .key
  | some e => do
    let _ ← writeElement (writeOut C n dest false) e.2
    purge n e.2

/-! ### UUID sets -/

/-- `uuids` (uuidset.py 35-37) -/
def uuids (C : Cfg) (i : ObjId) : W (List Uuid) := do
  let _ ← ensureMapped C i
  let o ← getObj i
  pure (o.body.kids.filterMap fun e => match e.1 with
    | .uuid u => some u
    | _ => none)

/-- `set_version_list` (uuidset.py 39-48): the set is not loaded first. -/
def setVersionList (i : ObjId) (u : Uuid) (x : ObjId) : W Unit := do
  touch i
  updObj i fun o => { o with body := ⟨o.body.data, dset o.body.kids (.uuid u) ([], x)⟩ }

/-- `get_version_list` (uuidset.py 50-56) -/
def getVersionList (C : Cfg) (i : ObjId) (u : Uuid) : W ObjId := do
  let _ ← ensureMapped C i
  let o ← getObj i
  match dget o.body.kids (.uuid u) with
  | none => M.raise .key
  | some e => do
    readIn C e.2
    pure e.2

/-- `unget_version_list` (uuidset.py 58-64) -/
def ungetVersionList (C : Cfg) (n : Nat) (i : ObjId) (u : Uuid) : W Unit := do
  let o ← getObj i
  match dget o.body.kids (.uuid u) with
  | none => M.raise .key
  | some e => do
    let _ ← writeOut C n none false e.2
    purge n e.2

/-! ### Copies -/

/-- `copied.write_out(new_destination)`, `copied.purge()` -/
def settle (C : Cfg) (n : Nat) (dest : Option Realm) (c : ObjId) : W ObjId := do
  let _ ← writeOut C n dest false c
  purge n c
  pure c

/-- `x.deepcopy(...) if x is not None else None` -/
def copyOpt (cp : ObjId → W ObjId) : Option (Str × ObjId) → W (Option ObjId)
  | none => pure none
  | some e => do
    let c ← cp e.2
    pure (some c)

/-- `deepcopy_impl` of the classes (mtreenode.py 45-60, metadatarootrecord.py 77-106,
versionlist.py 194-215 and 271-293, uuidset.py 66-79, text.py 39-46,
metadata.py 320-330).  `cp` copies a sub-object.  The copy of a text is empty and is not
purged.  `copy.deepcopy` of the instance sets gives an equal value. -/
def copyImpl (C : Cfg) (cp : ObjId → W ObjId) (n : Nat) (dest : Option Realm) (pre : PPath)
    (b : Body ObjId) : W ObjId :=
  match b.data with
  | .text _ => do
    let c ← alloc (Obj.new (Body.empty .text))
    let _ ← writeOut C n dest false c
    pure c
  | .metadata m => do
    let c ← alloc (Obj.new ⟨.metadata m, []⟩)
    settle C n dest c
  | .mtree leaf => do
    let c ← alloc (Obj.new ⟨.mtree leaf, []⟩)
    let _ ← M.forEach (fun e => do
      let k ← cp e.2.2
      addChild C c e.1.entryName k) b.kids
    settle C n dest c
  | .mrr id v => do
    let dlm ← copyOpt cp (dget b.kids .dlm)
    let ft ← copyOpt cp (dget b.kids .ft)
    let c ← alloc (Obj.new ⟨.mrr id v, mrrKids dlm ft⟩)
    settle C n dest c
  | .vlist => do
    let c ← alloc (Obj.new ⟨.vlist, []⟩)
    let _ ← M.forEach (fun e => copyRecord C cp pre c e) b.kids
    settle C n dest c
  | .tvl => do
    let c ← alloc (Obj.new ⟨.tvl, []⟩)
    let _ ← M.forEach (fun e => copyRecord C cp pre c e) b.kids
    settle C n dest c
  | .uuidset => do
    let c ← alloc (Obj.new ⟨.uuidset, []⟩)
    let _ ← M.forEach (fun e => do
      let k ← cp e.2.2
      updObj c fun o => { o with body := ⟨o.body.data, dset o.body.kids e.1 ([], k)⟩ }) b.kids
    settle C n dest c
where
  /-- One version record (versionlist.py 204-211, 281-289) -/
  copyRecord (C : Cfg) (cp : ObjId → W ObjId) (pre : PPath) (c : ObjId) (e : Key × (Str × ObjId)) :
      W Unit := do
    let k ← cp e.2.2
    match e.1 with
    | .ver v p => setVersioned C c v e.2.1 (pre.join p) k
    | _ => pure ()

/-- `deepcopy` (mappableobject.py 222-231, mtreeproxy.py 93-100).  Sub-objects are
copied without a path prefix. -/
def deepcopy (C : Cfg) : Nat → Option Realm → PPath → ObjId → W ObjId
  | 0, _, _, _ => M.raise .recursion
  | n + 1, dest, pre, i => withMapped C n i do
    let o ← getObj i
    copyImpl C (deepcopy C n dest (metadataPath [[]])) n dest pre o.body

end MM
