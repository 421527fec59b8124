/-
`check_serialized_version` (`__init__.py`) and `mapper/reference.py`.
-/
import Verif.JsonText

namespace MM

/-- `version_string` (`__init__.py` 14-16) -/
def versionString : Str := c!"2.0"

namespace Json

/-- `j[k]` for a string `k`: `KeyError` for a dictionary without the key, and
`TypeError` for anything that is not a dictionary. -/
def item (j : Json) (k : Str) : Except PyErr Json :=
  match j with
  | .obj l => match dget l k with
    | some v => .ok v
    | none => .error .key
  | _ => .error .type

/-- `j.items()`, an `AttributeError` for anything that is not a dictionary. -/
def items : Json → Except PyErr (List (Str × Json))
  | .obj l => .ok l
  | _ => .error .attribute

/-- `for x in j`: lists give their elements, dictionaries their keys, strings
their characters. -/
def iter : Json → Except PyErr (List Json)
  | .arr l => .ok l
  | .obj l => .ok (l.map (fun p => .str p.1))
  | .str s => .ok (s.map (fun c => .str [c]))
  | _ => .error .type

end Json

/-- `check_serialized_version` (`__init__.py` 19-26) -/
def checkVersion (j : Json) : Except PyErr Unit := do
  let a ← j.item c!"@"
  let _ ← a.item c!"type"
  let v ← a.item c!"version"
  if v.pyEq (.str versionString) then .ok () else .error .value

/-- `assert obj["@"]["type"] == name` -/
def assertType (j : Json) (name : Str) : Except PyErr Unit := do
  let a ← j.item c!"@"
  let t ← a.item c!"type"
  if t.pyEq (.str name) then .ok () else .error .assertion

/-- The value of the key `"@"` in every serialised object. -/
def tag (name : Str) : Str × Json :=
  (c!"@", .obj [(c!"type", .str name), (c!"version", .str versionString)])

/-- `none_class_name` and `none_location` (reference.py 13-14) -/
def noneLocation : Str := c!"*None*"

/-- `Reference` (reference.py 17-27).  The class name is a string, as the type
annotation says. -/
structure Ref where
  cls : Str
  loc : Option Str
  deriving DecidableEq, Repr

namespace Ref

/-- `is_none_reference` (reference.py 46-47) -/
def isNone (r : Ref) : Bool := r.loc == some noneLocation

/-- `get_none_reference` (reference.py 77-79) -/
def noneRef (cls : Str) : Ref := ⟨cls, some noneLocation⟩

/-- A location as JSON -/
def locJson : Option Str → Json
  | some s => .str s
  | none => .null

/-- `to_json_obj` (reference.py 52-60) -/
def toJson (r : Ref) : Json :=
  .obj [tag c!"Reference", (c!"class_name", .str r.cls), (c!"location", locJson r.loc)]

/-- `from_json_obj` (reference.py 66-75).  Reading `class_name` as anything but a
string, which Python would accept, is an error here. -/
def fromJson (j : Json) : Except PyErr Ref := do
  assertType j c!"Reference"
  checkVersion j
  let c ← j.item c!"class_name"
  let l ← j.item c!"location"
  match c, l with
  | .str c, .str l => .ok ⟨c, some l⟩
  | .str c, .null => .ok ⟨c, none⟩
  | .str _, _ => .error .assertion
  | _, _ => .error .type

/-- `to_json_str` (reference.py 49-50) -/
def toText (T : FloatText) (r : Ref) : Str := dumps T r.toJson

/-- `from_json_str` (reference.py 62-64); a syntax error is a `ValueError`. -/
def fromText (T : FloatText) (s : Str) : Except PyErr Ref :=
  match loads T s with
  | some j => fromJson j
  | none => .error .value

/-- `is_remote` (reference.py 81-91) -/
def isRemote (realm : Str) : Bool :=
  [c!"git@", c!"git:", c!"http:", c!"https:", c!"ssh:"].any (startsWith realm)

/-- `is_local` (reference.py 93-95) -/
def isLocal (realm : Str) : Bool := !isRemote realm

end Ref

theorem checkVersion_ok {j : Json} (h : checkVersion j = .ok ()) :
    ∃ a v, j.item c!"@" = .ok a ∧ a.item c!"version" = .ok v ∧
      v.pyEq (.str versionString) = true := by
  unfold checkVersion at h
  cases ha : j.item c!"@" with
  | error e => simp [ha, bind, Except.bind] at h
  | ok a =>
    cases ht : a.item c!"type" with
    | error e => simp [ha, ht, bind, Except.bind] at h
    | ok t =>
      cases hv : a.item c!"version" with
      | error e => simp [ha, ht, hv, bind, Except.bind] at h
      | ok v =>
        refine ⟨a, v, rfl, hv, ?_⟩
        simp only [ha, ht, hv, bind, Except.bind] at h
        split at h
        · assumption
        · cases h

theorem pyEq_str_self (s : Str) : Json.pyEq (.str s) (.str s) = true := by simp [Json.pyEq]

theorem assertType_tag (name : Str) (l : List (Str × Json)) :
    assertType (.obj (tag name :: l)) name = .ok () := by
  simp [assertType, Json.item, tag, dget, bind, Except.bind, pyEq_str_self]

theorem checkVersion_tag (name : Str) (l : List (Str × Json)) :
    checkVersion (.obj (tag name :: l)) = .ok () := by
  simp [checkVersion, Json.item, tag, dget, bind, Except.bind, pyEq_str_self]

theorem wf_tag (name : Str) : (tag name).2.WF := by
  simp [tag, Json.WF, Json.WFObj, dkeys]

theorem Ref.wf_toJson (r : Ref) : r.toJson.WF := by
  obtain ⟨c, l⟩ := r
  cases l <;> simp [Ref.toJson, Json.WF, Json.WFObj, dkeys, tag, Ref.locJson]

theorem Ref.fromJson_toJson (r : Ref) : Ref.fromJson r.toJson = .ok r := by
  obtain ⟨c, l⟩ := r
  unfold Ref.fromJson Ref.toJson
  simp only [assertType_tag, checkVersion_tag, bind, Except.bind]
  cases l <;> simp [Json.item, tag, dget, Ref.locJson]

end MM
