/-
Questions that objects answer from what they have in memory, and membership of paths in trees:
`versionlist.py` 62-63, `metadata.py` 238-239 and 291-301, `mtreeproxy.py` 50-51,
`mtreenode.py` 31-32 and 62-66.
-/
import Verif.Classes

namespace MM

/-- `len(version_list)` (versionlist.py 62-63): the list is not loaded.  The code adds the lengths of the inner
dictionaries, here it is one list. -/
def vlen (i : ObjId) : W Nat := do
  let o ← getObj i
  pure o.body.kids.length

/-- `Metadata.__eq__` (metadata.py 238-239) of two objects: none of them is loaded.  An object compared with
itself is equal, because Python takes identical values for equal.  Anything that is not metadata has no
`instance_sets`. -/
def metadataEq (i j : ObjId) : W Bool := do
  let a ← getObj i
  let b ← getObj j
  match a.body.data, b.body.data with
  | .metadata m, .metadata m' => if i = j then pure true else M.ofExcept (m.eq m')
  | _, _ => M.raise .attribute

/-- `Metadata.to_json` (metadata.py 291-301): the object is not loaded. -/
def metadataJson (C : Cfg) (i : ObjId) : W Str := do
  let o ← getObj i
  match o.body.data with
  | .metadata m => pure (m.toText C.floats)
  | _ => M.raise .attribute

/-- `path in tree` for a file tree (mtreeproxy.py 50-51); dataset trees have their own, see `hasDataset`. -/
def treeContains (C : Cfg) (i : ObjId) (path : List Str) : W Bool := do
  let c ← getObjectAt C path i
  pure c.isSome

/-- `path in node` and `node.contains_child(path)` for a tree node (mtreenode.py 31-32, 62-66): the text of the
path is looked up as the name of a child (`get_child`, mtreenode.py 68-73). -/
def nodeContains (C : Cfg) (i : ObjId) (path : PPath) : W Bool := do
  let c ← getChild C i path.str
  pure c.isSome

end MM
