/-
Reading, writing and purging of objects: `mappableobject.py`,
`modifiableobject.py`, `mtreeproxy.py`, and the mappers in `mapper/gitmapper`.
-/
import Verif.Heap

namespace MM

/-! ### Reading from a repository -/

/-- `git ls-tree` lines split as in uuidsetmapper.py 29-34: names stay as git
prints them. -/
def rawTreeLine (l : Str) : Except PyErr TreeEntry := do
  let (_, ty, hash, name) ← splitLstreeLine l
  pure ⟨ty = c!"tree", hash, name⟩

/-- The entries of a stored tree as git prints them. -/
def rawTree (es : List TreeEntry) : Except PyErr (List TreeEntry) :=
  eachOk rawTreeLine (splitlines (catTree es))

/-- A child read by mtreenodemapper.py 30-48. -/
def childOf (leaf : Leaf) (e : TreeEntry) : Key × (Str × Link) :=
  (.name e.name, [],
    if e.isTree then ⟨.mtree leaf, ⟨c!"MTreeNode", some e.hash⟩⟩
    else ⟨leaf.kind, ⟨leaf.kind.name, some e.hash⟩⟩)

/-- Later entries of the same key replace earlier ones, as in a dictionary. -/
def fromItems {α β : Type} [DecidableEq α] (l : List (α × β)) : List (α × β) :=
  l.foldl (fun acc e => dset acc e.1 e.2) []

/-- `json_object[key]` that has to be a string; anything else is a `TypeError`
(`MetadataPath(5)`) or an `AssertionError` (time stamps) in Python, a `TypeError`
here. -/
def strItem (j : Json) (k : Str) : Except PyErr Str := do
  match ← j.item k with
  | .str s => .ok s
  | _ => .error .type

/-- The element of a version record: a dataset tree or a root record, depending on
the class name in the reference (versionlistmapper.py 36-48). -/
def vrecLink (ref : Ref) : Except PyErr Link :=
  if ref.cls = c!"DatasetTree" ∨ ref.cls = c!"MTreeNode" then .ok ⟨.mtree .mrr, ref⟩
  else if ref.cls = c!"MetadataRootRecord" then .ok ⟨.mrr, ref⟩
  else .error .value

/-- One element of the list in versionlistmapper.py 33-53. -/
def vrecFromJson (j : Json) : Except PyErr (Str × PPath × Str × Link) := do
  let rj ← j.item c!"dataset_tree"
  let ref ← Ref.fromJson rj
  let link ← vrecLink ref
  let v ← strItem j c!"primary_data_version"
  let p ← strItem j c!"path"
  let t ← strItem j c!"time_stamp"
  .ok (v, metadataPath [p], t, link)

/-- `_get_version_records` (versionlistmapper.py 18-53) after the JSON is loaded. -/
def vrecsFromJson (j : Json) : Except PyErr (List (Key × (Str × Link))) := do
  let js ← j.iter
  let rs ← eachOk vrecFromJson js
  .ok (rs.foldl (fun acc e => vset acc e.1 e.2.1 e.2.2) [])

/-- A sub-object reference of a root record (metadatarootrecordmapper.py 38-50): none
references give `None`. -/
def mrrLink (k : Kind) (j : Json) : Except PyErr (Option Link) := do
  let ref ← Ref.fromJson j
  .ok (if ref.isNone then none else some ⟨k, ref⟩)

/-- The dataset version: `MetadataRootRecord.__init__` asserts a string or `None`. -/
def versionFromJson : Json → Except PyErr (Option Str)
  | .str s => .ok (some s)
  | .null => .ok none
  | _ => .error .assertion

/-- Sub-objects of a root record in the order of metadatarootrecord.py 40-45. -/
def mrrKids {κ : Type} (dlm ft : Option κ) : List (Key × (Str × κ)) :=
  (match dlm with | some d => [(.dlm, [], d)] | none => []) ++
  (match ft with | some f => [(.ft, [], f)] | none => [])

/-- `map_in_impl` of the root record mapper (metadatarootrecordmapper.py 36-60) after
the JSON is loaded.  The identifier must be a string. -/
def mrrFromJson (j : Json) : Except PyErr (Body Link) := do
  let dj ← j.item c!"dataset_level_metadata"
  let dlm ← mrrLink .metadata dj
  let fj ← j.item c!"file_tree"
  let ft ← mrrLink (.mtree .metadata) fj
  let ij ← strItem j c!"dataset_identifier"
  let id ← Uuid.parse ij
  let vj ← j.item c!"dataset_version"
  let v ← versionFromJson vj
  .ok ⟨.mrr (some id) v, mrrKids dlm ft⟩

/-- The children of a UUID set (uuidsetmapper.py 28-34). -/
def uuidEntry (e : TreeEntry) : Except PyErr (Key × (Str × Link)) := do
  let u ← Uuid.parse e.name
  .ok (.uuid u, [], ⟨.vlist, ⟨c!"VersionList", some e.hash⟩⟩)

/-- `map_in_impl` of the mapper of a class, for a state of the repositories
(textmapper.py 12-23, metadatamapper.py 36-50, mtreenodemapper.py 14-48,
metadatarootrecordmapper.py 24-60, versionlistmapper.py 18-63,
uuidsetmapper.py 16-35).  An error in the middle leaves nothing behind here; the
code may leave a part of the sub-objects in the unloaded object, where the next
successful read replaces it. -/
def decode (C : Cfg) (L : Log) (r : Realm) (k : Kind) (loc : Str) : Except PyErr (Body Link) :=
  match k with
  | .text => do
    let s ← textAt C L r loc
    .ok ⟨.text (some s), []⟩
  | .metadata => do
    let s ← textAt C L r loc
    let ref ← Ref.fromText C.floats s
    match ref.loc with
    | none => .error .type
    | some loc' =>
      let s' ← textAt C L r loc'
      let m ← Sets.fromText C.floats s'
      .ok ⟨.metadata m, []⟩
  | .mtree leaf => do
    let es ← treeAt C L r loc
    let es' ← readTree es
    .ok ⟨.mtree leaf, fromItems (es'.map (childOf leaf))⟩
  | .mrr => do
    let j ← jsonAt C L r loc
    mrrFromJson j
  | .vlist => do
    let j ← jsonAt C L r loc
    let ks ← vrecsFromJson j
    .ok ⟨.vlist, ks⟩
  | .tvl => do
    let j ← jsonAt C L r loc
    let ks ← vrecsFromJson j
    .ok ⟨.tvl, ks⟩
  | .uuidset => do
    let es ← treeAt C L r loc
    let es' ← rawTree es
    let ks ← eachOk uuidEntry es'
    .ok ⟨.uuidset, fromItems ks⟩

/-- The same as git commands: metadata takes two, the others one. -/
def decodeG (C : Cfg) (r : Realm) (k : Kind) (loc : Str) : G (Body Link) :=
  match k with
  | .metadata => do
    let s ← gitLoadStr C r loc
    let ref ← M.ofExcept (Ref.fromText C.floats s)
    match ref.loc with
    | none => M.raise .type
    | some loc' =>
      let s' ← gitLoadStr C r loc'
      let m ← M.ofExcept (Sets.fromText C.floats s')
      pure ⟨.metadata m, []⟩
  | k => gitCmd fun L => ([], decode C L r k loc)

/-- Class names that `Mapper.map_in` accepts (mapper.py 31-55): the class itself, and
for tree nodes the two old names. -/
def Kind.accepts (k : Kind) (cls : Str) : Bool :=
  cls = k.name || (k.isMtree && (cls = c!"FileTree" || cls = c!"DatasetTree"))

/-- What reading an object with this reference gives, for a state of the
repositories.  None references stand for empty objects (mappableobject.py 98-104);
for root records `purge_impl` then fails, because there is no dataset-level
metadata. -/
def fetch (C : Cfg) (L : Log) (r : Realm) (k : Kind) (ref : Ref) : Except PyErr (Body Link) :=
  if ref.isNone then
    if ref.cls = k.name then
      if k = .mrr then .error .attribute else .ok (Body.empty k)
    else .error .assertion
  else if k.accepts ref.cls then
    match ref.loc with
    | none => .error .type
    | some loc => decode C L r k loc
  else .error .assertion

/-- `read_in` (mappableobject.py 87-131) with `Mapper.map_in` (mapper.py 26-55).
For a none reference the object becomes empty and stays unmapped.  The old class
names are replaced in the reference of the object.  A root record is initialised
again by its mapper, which resets `saved_on` (metadatarootrecordmapper.py 52-60). -/
def readIn (C : Cfg) (i : ObjId) : W Unit := do
  let o ← getObj i
  if o.mapped then pure ()
  else match o.realm, o.ref with
    | some r, some ref =>
      if ref.isNone then do
        M.assert (ref.cls = o.kind.name)
        if o.kind = .mrr ∧ dget o.body.kids .dlm = none then M.raise .attribute
        else setObj i { o with body := o.body.purged }
      else if r ∉ o.savedOn then M.raise .runtime
      else do
        M.assert (o.kind.accepts ref.cls)
        match ref.loc with
        | none => M.raise .type
        | some loc => do
          let b ← liftG (decodeG C r o.kind loc)
          let ks ← allocKids r b.kids
          setObj i { mapped := true
                     realm := some r
                     ref := some ⟨o.kind.name, some loc⟩
                     savedOn := if o.kind = .mrr then [r] else o.savedOn
                     body := ⟨b.data, ks⟩ }
    | _, _ => M.raise .assertion

/-- `ensure_mapped` (mappableobject.py 214-220); the result tells whether the object
was read. -/
def ensureMapped (C : Cfg) (i : ObjId) : W Bool := do
  let o ← getObj i
  if o.mapped then pure false
  else do
    readIn C i
    updObj i fun o => { o with mapped := true }
    pure true

/-! ### Saved or not -/

/-- `all(map(f, l))`: stops at the first `False`. -/
def allOk {α : Type} (f : α → Except PyErr Bool) : List α → Except PyErr Bool
  | [] => .ok true
  | a :: l => match f a with
    | .ok true => allOk f l
    | .ok false => .ok false
    | .error e => .error e

/-- `is_saved_on` (modifiableobject.py 38-50) and `modifiable_sub_objects`
(mappableobject.py 70-85).  The first argument plays the role of the recursion
limit of Python. -/
def isSavedOn : Nat → Heap → Realm → ObjId → Except PyErr Bool
  | 0, _, _, _ => .error .recursion
  | n + 1, h, r, i =>
    if r ∉ (h i).savedOn then .ok false
    else if (h i).mapped then allOk (isSavedOn n h r) (h i).body.subs
    else .ok true

/-- `touch` with `set_unsaved` (modifiableobject.py 29-30, 35-36) -/
def touch (i : ObjId) : W Unit := updObj i fun o => { o with savedOn := [] }

/-! ### Purging -/

/-- `purge` (mappableobject.py 204-212) with `purge_impl` of the classes
(mtreenode.py 40-43, metadatarootrecord.py 47-53, versionlist.py 65-69,
uuidset.py 30-33, text.py 36-37, metadata.py 246-247). -/
def purge : Nat → ObjId → W Unit
  | 0, _ => M.raise .recursion
  | n + 1, i => do
    let o ← getObj i
    if o.mapped then
      if o.savedOn = [] then M.raise .value
      else if o.kind = .mrr ∧ dget o.body.kids .dlm = none then M.raise .attribute
      else do
        let _ ← M.forEach (purge n) o.body.subs
        updObj i fun o => { o with mapped := false, body := o.body.purged }
    else pure ()

/-! ### Writing to a repository -/

/-- `add_object_reference` (objectreference.py 30-37) -/
def addRef (isTree : Bool) (hash : Option Str) : W Unit := fun w =>
  match hash with
  | none => (.error .type, w)
  | some h =>
    if h = noneLocation ∨ (isTree, h) ∈ w.refs then (.ok (), w)
    else (.ok (), { w with refs := w.refs ++ [(isTree, h)] })

/-- `GitBlobCache.flush` (gitblobcache.py 58-91): the pending blobs are stored by one
command; if it fails, they stay pending.  Git computes the same hashes as
`hash_blob`, so the assertions hold. -/
def flushCache (C : Cfg) (r : Realm) : W Unit := do
  let w ← M.get
  match dget w.caches r with
  | none => pure ()
  | some bs => do
    let _ ← liftG (gitSaveBlobs C r bs)
    M.modify fun w => { w with caches := dset w.caches r [] }

/-- `cache_blob` (gitblobcache.py 45-56) -/
def cacheBlob (C : Cfg) (r : Realm) (s : Str) : W Str := do
  let w ← M.get
  if ((dget w.caches r).getD []).length = C.maxsize then flushCache C r
  M.modify fun w => { w with caches := dset w.caches r ((dget w.caches r).getD [] ++ [s]) }
  pure (C.hash (.blob s))

/-- `cache_realm` (metadatamapper.py 22-26) -/
def cacheRealm (r : Realm) : W Unit := fun w =>
  match dget w.caches r with
  | some _ => (.error .runtime, w)
  | none => (.ok (), { w with caches := w.caches ++ [(r, [])] })

/-- `flush_realm` (metadatamapper.py 28-34) -/
def flushRealm (C : Cfg) (r : Realm) : W Unit := do
  let w ← M.get
  match dget w.caches r with
  | none => M.raise .runtime
  | some _ => do
    flushCache C r
    M.modify fun w => { w with caches := ddel w.caches r }

/-- Store a blob now or put it in the cache of the realm, if there is one
(metadatamapper.py 52-118). -/
def saveBlob (C : Cfg) (r : Realm) (s : Str) : W Str := do
  let w ← M.get
  match dget w.caches r with
  | none => liftG (gitSaveStr C r s)
  | some _ => cacheBlob C r s

/-- `map_out_impl` of the metadata mapper (metadatamapper.py 52-118): the metadata
and, as a second blob, a reference to it. -/
def saveMetadata (C : Cfg) (r : Realm) (m : Sets) : W Ref := do
  let h ← saveBlob C r (m.toText C.floats)
  addRef false (some h)
  let h' ← saveBlob C r (Ref.toText C.floats ⟨c!"Metadata", some h⟩)
  pure ⟨c!"Metadata", some h'⟩

/-- `str(x)` for an optional value -/
def pyStrOpt {α : Type} (f : α → Str) : Option α → Str
  | some a => f a
  | none => c!"None"

/-- The JSON of a root record (metadatarootrecordmapper.py 90-94) -/
def mrrJson (id : Option Uuid) (version : Option Str) (dlm ft : Ref) : Json :=
  .obj [(c!"dataset_identifier", .str (pyStrOpt Uuid.str id)),
        (c!"dataset_version", .str (pyStrOpt (fun s => s) version)),
        (c!"dataset_level_metadata", dlm.toJson),
        (c!"file_tree", ft.toJson)]

/-- The JSON of a version record (versionlistmapper.py 74-83) -/
def vrecJson (k : Key) (stamp : Str) (ref : Ref) : Json :=
  match k with
  | .ver v p => .obj [(c!"primary_data_version", .str v), (c!"time_stamp", .str stamp),
      (c!"path", .str p.str), (c!"dataset_tree", ref.toJson)]
  | _ => .null

/-- The name under which a sub-object appears in a git tree (mtreenodemapper.py
63-72, uuidsetmapper.py 44-52). -/
def Key.entryName : Key → Str
  | .name n => n
  | .uuid u => u.str
  | _ => []

/-- `f"{location}"` in a tree specification -/
def locText (ref : Ref) : Str := ref.loc.getD c!"None"

/-- `write_out` of a `DatasetTree` (mtreeproxy.py 60-85), given `write_out` of the
tree node. -/
def proxyWrite (wr : W Ref) : W Ref := do
  let ref ← wr
  if ref.isNone then pure ref
  else do
    addRef true ref.loc
    pure ref

/-- `write_out` of a `FileTree` (mtreeproxy.py 60-85): the realm is cached while the
tree is written.  There is no clean-up if an exception is raised. -/
def fileTreeWrite (C : Cfg) (cache : Option Realm) (wr : W Ref) : W Ref :=
  match cache with
  | none => M.raise .assertion
  | some r => do
    cacheRealm r
    let ref ← wr
    flushRealm C r
    if ref.isNone then pure ref
    else do
      addRef true ref.loc
      pure ref

/-- Write an element of a version list: a `DatasetTree` or a root record. -/
def writeElement (wr : ObjId → W Ref) (i : ObjId) : W Ref := do
  let o ← getObj i
  if o.kind.isMtree then proxyWrite (wr i) else wr i

/-- `map_out_impl` of the version list mapper (versionlistmapper.py 65-86). -/
def writeVersionList (C : Cfg) (wr : ObjId → W Ref) (r : Realm) (kids : List (Key × (Str × ObjId))) :
    W Str := do
  let js ← M.forEach (fun e => do
    let ref ← writeElement wr e.2.2
    pure (vrecJson e.1 e.2.1 ref)) kids
  liftG (gitSaveJson C r (.arr js))

/-- `GitReference.TREE_VERSION_LIST` and `UUID_SET` (objectreference.py 19-24) -/
def tvlRefName : Str := c!"refs/datalad/dataset-tree-version-list"
def uuidSetRefName : Str := c!"refs/datalad/dataset-uuid-set"

/-- The file tree of a root record (metadatarootrecordmapper.py 69-81) -/
def writeFtPart (C : Cfg) (r : Realm) (wr : ObjId → W Ref) : Option (Str × ObjId) → W Ref
  | none => pure (Ref.noneRef c!"FileTree")
  | some e => do
    let ref ← fileTreeWrite C (some r) (wr e.2)
    if ref.isNone then pure ref
    else do
      addRef true ref.loc
      pure ref

/-- The dataset-level metadata of a root record (metadatarootrecordmapper.py 83-88) -/
def writeDlmPart (wr : ObjId → W Ref) : Option (Str × ObjId) → W Ref
  | none => pure (Ref.noneRef c!"Metadata")
  | some e => do
    let ref ← wr e.2
    addRef false ref.loc
    pure ref

/-- `map_out_impl` of the mapper of a class (textmapper.py 26-36,
metadatamapper.py 52-118, mtreenodemapper.py 50-75, metadatarootrecordmapper.py
62-98, versionlistmapper.py 65-114, uuidsetmapper.py 37-56).  `wr force k` is
`k.write_out(realm, "git", force)`.  A text without content makes git read the
standard input of the process.  The reference of a child of a tree node is the one
its `write_out` returned; the code reads it from the child later.  The entries of a
UUID set go through a set, but `git mktree` sorts them. -/
def mapOut (C : Cfg) (wr : Bool → ObjId → W Ref) (r : Realm) (force : Bool) (b : Body ObjId) :
    W Ref :=
  match b.data with
  | .text s => do
    let h ← liftG (gitSaveStr C r (s.getD C.stdin))
    pure ⟨c!"Text", some h⟩
  | .metadata m => saveMetadata C r m
  | .mtree _ =>
    if b.kids = [] then pure (Ref.noneRef c!"MTreeNode")
    else do
      let es ← M.forEach (fun e => do
        let ref ← wr false e.2.2
        let o ← getObj e.2.2
        pure (⟨o.kind.isMtree, locText ref, e.1.entryName⟩ : TreeEntry)) b.kids
      let h ← liftG (gitSaveTree C r es)
      pure ⟨c!"MTreeNode", some h⟩
  | .mrr id version => do
    let ft ← writeFtPart C r (wr force) (dget b.kids .ft)
    let dlm ← writeDlmPart (wr force) (dget b.kids .dlm)
    let h ← liftG (gitSaveJson C r (mrrJson id version dlm ft))
    pure ⟨c!"MetadataRootRecord", some h⟩
  | .vlist => do
    let h ← writeVersionList C (wr false) r b.kids
    pure ⟨c!"VersionList", some h⟩
  | .tvl => do
    let h ← writeVersionList C (wr false) r b.kids
    liftG (gitUpdateRef C r tvlRefName h)
    pure ⟨c!"VersionList", some h⟩
  | .uuidset => do
    let es ← M.forEach (fun e => do
      let ref ← wr false e.2.2
      pure (⟨false, locText ref, e.1.entryName⟩ : TreeEntry)) b.kids
    let h ← liftG (gitSaveTree C r es)
    liftG (gitUpdateRef C r uuidSetRefName h)
    pure ⟨c!"UUIDSet", some h⟩

/-- `a or b` for optional strings: `None` and `""` count as false. -/
def pyOr (a b : Option Str) : Option Str :=
  match a with
  | some (c :: s) => some (c :: s)
  | _ => b

/-- The destination (mappableobject.py 157-161) -/
def destOf (dest realm : Option Realm) : Option Realm :=
  match realm with
  | some (_ :: _) => pyOr dest realm
  | _ => dest

/-- `write_out` (mappableobject.py 133-202).  The first argument plays the role of
the recursion limit of Python. -/
def writeOut (C : Cfg) : Nat → Option Realm → Bool → ObjId → W Ref
  | 0, _, _, _ => M.raise .recursion
  | n + 1, dest, force, i => do
    let o ← getObj i
    if o.mapped then
      match destOf dest o.realm with
      | none => M.raise .assertion
      | some r =>
        if Ref.isRemote r then M.raise .runtime
        else do
          updObj i fun o => { o with realm := some r }
          let w ← M.get
          let saved ← M.ofExcept (isSavedOn (n + 1) w.heap r i)
          if saved && !force then
            match o.ref with
            | some ref => pure ref
            | none => M.raise .attribute
          else do
            let ref ← mapOut C (writeOut C n (some r)) r force o.body
            updObj i fun o => { o with ref := some ref, savedOn := r :: o.savedOn }
            pure ref
    else match o.realm, o.ref with
      | some _, some ref => match dest with
        | some r => if r ∈ o.savedOn then pure ref else M.raise .runtime
        | none => M.raise .runtime
      | _, _ => M.raise .assertion

/-- `DatasetTree.write_out` (mtreeproxy.py 60-85) -/
def writeDatasetTree (C : Cfg) (n : Nat) (dest : Option Realm) (force : Bool) (i : ObjId) : W Ref :=
  proxyWrite (writeOut C n dest force i)

/-- `FileTree.write_out` (mtreeproxy.py 60-85) -/
def writeFileTree (C : Cfg) (n : Nat) (dest : Option Realm) (force : Bool) (i : ObjId) : W Ref := do
  let o ← getObj i
  fileTreeWrite C (pyOr dest o.realm) (writeOut C n dest force i)

end MM
