/-
Model of `metadata.py`: extractor configurations, metadata instances, instance
sets and the body of `Metadata` objects.
-/
import Verif.Reference

namespace MM

/-- A list comprehension whose element expression may raise. -/
def traverse {α β : Type} (f : α → Except PyErr β) : List α → Except PyErr (List β)
  | [] => .ok []
  | a :: l => match f a with
    | .error e => .error e
    | .ok b => match traverse f l with
      | .error e => .error e
      | .ok bs => .ok (b :: bs)

/-- `ExtractorConfiguration` (metadata.py 27-37).  `version` is a string when the
caller follows the type annotation; it may be any JSON value after reading. -/
structure Config where
  version : Json
  parameter : List (Str × Json)

namespace Config

/-- `ExtractorConfiguration.__eq__` (metadata.py 51-55).  `ParameterDict` is a `dict`. -/
def eq (a b : Config) : Bool :=
  a.version.pyEq b.version && (Json.obj a.parameter).pyEq (.obj b.parameter)

/-- `to_json_obj` (metadata.py 38-46) -/
def toJson (c : Config) : Json :=
  .obj [tag c!"ExtractorConfiguration", (c!"version", c.version), (c!"parameter", .obj c.parameter)]

/-- `from_json_obj` (metadata.py 60-67).  `ParameterDict(x)` is modelled for
dictionaries only; other values, some of which Python accepts, are a `TypeError`. -/
def fromJson (j : Json) : Except PyErr Config :=
  match assertType j c!"ExtractorConfiguration" with
  | .error e => .error e
  | .ok () => match checkVersion j with
    | .error e => .error e
    | .ok () => match j.item c!"version" with
      | .error e => .error e
      | .ok v => match j.item c!"parameter" with
        | .error e => .error e
        | .ok (.obj p) => .ok ⟨v, p⟩
        | .ok _ => .error .type

end Config

/-- `MetadataInstance` (metadata.py 75-93) -/
structure Instance where
  timeStamp : Json
  author : Json
  email : Json
  config : Config
  content : Json

namespace Instance

/-- `MetadataInstance.__eq__` (metadata.py 111-118) -/
def eq (a b : Instance) : Bool :=
  a.timeStamp.pyEq b.timeStamp && a.author.pyEq b.author && a.email.pyEq b.email &&
    a.config.eq b.config && a.content.pyEq b.content

/-- `to_json_obj` (metadata.py 95-106) -/
def toJson (i : Instance) : Json :=
  .obj [tag c!"MetadataInstance", (c!"time_stamp", i.timeStamp), (c!"author", i.author),
    (c!"author_email", i.email), (c!"configuration", i.config.toJson),
    (c!"metadata_content", i.content)]

/-- `from_json_obj` (metadata.py 120-130) -/
def fromJson (j : Json) : Except PyErr Instance :=
  match assertType j c!"MetadataInstance" with
  | .error e => .error e
  | .ok () => match checkVersion j with
    | .error e => .error e
    | .ok () => match j.item c!"time_stamp" with
      | .error e => .error e
      | .ok t => match j.item c!"author" with
        | .error e => .error e
        | .ok a => match j.item c!"author_email" with
          | .error e => .error e
          | .ok m => match j.item c!"configuration" with
            | .error e => .error e
            | .ok c => match Config.fromJson c with
              | .error e => .error e
              | .ok c => match j.item c!"metadata_content" with
                | .error e => .error e
                | .ok d => .ok ⟨t, a, m, c, d⟩

end Instance

/-- The sign accepted by `int(s)` -/
def intSign : Str → Bool × Str
  | '-' :: r => (true, r)
  | '+' :: r => (false, r)
  | r => (false, r)

/-- `int(s)` for decimal digits with an optional sign.  White space, underscores
and non-ASCII digits, which Python also accepts, are an error here. -/
def pyInt (s : Str) : Except PyErr Int :=
  let (neg, ds) := intSign s
  if ds ≠ [] ∧ ds.all Char.isDigit then
    .ok (if neg then - (Nat.ofDigitChars 10 ds 0 : Int) else (Nat.ofDigitChars 10 ds 0 : Int))
  else .error .value

/-- `MetadataInstanceSet` (metadata.py 137-150): `parameter_set` and `_instances`. -/
structure InstanceSet where
  params : List Config
  instances : List (Int × Instance)

namespace InstanceSet

/-- `MetadataInstanceSet()` -/
def empty : InstanceSet := ⟨[], []⟩

/-- `l.index(c)`, where list membership and `index` use `==` -/
def indexOf? (l : List Config) (c : Config) : Option Nat :=
  match l with
  | [] => none
  | d :: l => if d.eq c then some 0 else (indexOf? l c).map (· + 1)

/-- `add_metadata_instance` (metadata.py 155-159) -/
def add (s : InstanceSet) (i : Instance) : InstanceSet :=
  match indexOf? s.params i.config with
  | some n => { s with instances := dset s.instances (n : Int) i }
  | none => ⟨s.params ++ [i.config], dset s.instances (s.params.length : Int) i⟩

/-- `configurations` (metadata.py 165-167) -/
def configurations (s : InstanceSet) : List Config := s.params

/-- `get_instance_for_configuration_index` (metadata.py 169-170) -/
def getByIndex (s : InstanceSet) (n : Int) : Except PyErr Instance :=
  match dget s.instances n with
  | some i => .ok i
  | none => .error .key

/-- `get_instance_for_configuration` (metadata.py 172-173); `list.index` raises
`ValueError` for an absent element. -/
def getByConfig (s : InstanceSet) (c : Config) : Except PyErr Instance :=
  match indexOf? s.params c with
  | some n => getByIndex s n
  | none => .error .value

/-- `to_json_obj` (metadata.py 175-189).  The integer keys become strings when
`json.dumps` writes them; they are strings here already. -/
def toJson (s : InstanceSet) : Json :=
  .obj [tag c!"MetadataInstanceSet", (c!"parameter_set", .arr (s.params.map Config.toJson)),
    (c!"instance_set", .obj (s.instances.map (fun p => (intText p.1, p.2.toJson))))]

/-- One entry of the dictionary comprehension in `from_json_obj` -/
def entryFromJson (p : Str × Json) : Except PyErr (Int × Instance) :=
  match pyInt p.1 with
  | .error e => .error e
  | .ok n => match Instance.fromJson p.2 with
    | .error e => .error e
    | .ok i => .ok (n, i)

/-- `from_json_obj` (metadata.py 194-208) -/
def fromJson (j : Json) : Except PyErr InstanceSet :=
  match assertType j c!"MetadataInstanceSet" with
  | .error e => .error e
  | .ok () => match checkVersion j with
    | .error e => .error e
    | .ok () => match j.item c!"parameter_set" with
      | .error e => .error e
      | .ok p => match p.iter with
        | .error e => .error e
        | .ok p => match traverse Config.fromJson p with
          | .error e => .error e
          | .ok p => match j.item c!"instance_set" with
            | .error e => .error e
            | .ok s => match s.items with
              | .error e => .error e
              | .ok s => match traverse entryFromJson s with
                | .error e => .error e
                | .ok s => .ok ⟨p, s.foldl (fun d q => dset d q.1 q.2) []⟩

/-- `sorted(l)` on a list of objects without an order: a `TypeError` as soon as
two elements are compared. -/
def pySorted {α : Type} (l : List α) : Except PyErr (List α) :=
  if l.length ≤ 1 then .ok l else .error .type

/-- `==` on two lists of configurations -/
def configsEq : List Config → List Config → Bool
  | [], [] => true
  | a :: l, b :: m => a.eq b && configsEq l m
  | _, _ => false

/-- `==` on two dictionaries of instances -/
def instancesEq (a b : List (Int × Instance)) : Bool :=
  a.length == b.length && a.all (fun p => match dget b p.1 with
    | some i => p.2.eq i
    | none => false)

/-- `MetadataInstanceSet.__eq__` (metadata.py 214-216) -/
def eq (a b : InstanceSet) : Except PyErr Bool :=
  match pySorted a.params with
  | .error e => .error e
  | .ok p => match pySorted b.params with
    | .error e => .error e
    | .ok q => .ok (configsEq p q && instancesEq a.instances b.instances)

end InstanceSet

/-- The body of a `Metadata` object: `instance_sets` (metadata.py 219-239) -/
abbrev Sets := List (Str × InstanceSet)

namespace Sets

/-- `add_extractor_run` (metadata.py 266-289), the part that changes
`instance_sets`.  Loading and `touch` are in the heap model. -/
def addRun (m : Sets) (extractor : Str) (i : Instance) : Sets :=
  dset m extractor (((dget m extractor).getD InstanceSet.empty).add i)

/-- `extractors` (metadata.py 252-255) -/
def extractors (m : Sets) : List Str := dkeys m

/-- `extractor_runs_for_extractor` (metadata.py 262-264) -/
def runsFor (m : Sets) (extractor : Str) : Except PyErr InstanceSet :=
  match dget m extractor with
  | some s => .ok s
  | none => .error .key

/-- The object that `to_json` (metadata.py 291-301) dumps -/
def toJson (m : Sets) : Json :=
  .obj [tag c!"Metadata", (c!"instance_sets", .obj (m.map (fun p => (p.1, p.2.toJson))))]

/-- `to_json` -/
def toText (T : FloatText) (m : Sets) : Str := dumps T m.toJson

/-- The loop of `init_from_json`, which assigns one entry after the other.  The
body assigned before an exception is not kept in this model. -/
def entries : List (Str × Json) → Sets → Except PyErr Sets
  | [], acc => .ok acc
  | (k, j) :: l, acc => match InstanceSet.fromJson j with
    | .error e => .error e
    | .ok s => entries l (dset acc k s)

/-- `init_from_json` (metadata.py 303-310) on the parsed text, on an empty body -/
def fromJson (j : Json) : Except PyErr Sets :=
  match checkVersion j with
  | .error e => .error e
  | .ok () => match assertType j c!"Metadata" with
    | .error e => .error e
    | .ok () => match j.item c!"instance_sets" with
      | .error e => .error e
      | .ok s => match s.items with
        | .error e => .error e
        | .ok l => entries l []

/-- `from_json` (metadata.py 312-318) -/
def fromText (T : FloatText) (s : Str) : Except PyErr Sets :=
  match loads T s with
  | some j => fromJson j
  | none => .error .value

/-- The comparison of two dictionaries that share no values
(`Metadata.__eq__`, metadata.py 238-239): values are compared key by key, in
the order of the first dictionary, until two differ. -/
def eqGo : Sets → Sets → Except PyErr Bool
  | [], _ => .ok true
  | (k, a) :: l, m => match dget m k with
    | none => .ok false
    | some b => match a.eq b with
      | .error e => .error e
      | .ok false => .ok false
      | .ok true => eqGo l m

/-- `Metadata.__eq__` for two different objects -/
def eq (a b : Sets) : Except PyErr Bool :=
  if a.length = b.length then eqGo a b else .ok false

end Sets

/-! ### Well-formed values: dictionaries have distinct keys -/

def Config.WF (c : Config) : Prop := c.version.WF ∧ (Json.obj c.parameter).WF

def Instance.WF (i : Instance) : Prop :=
  i.timeStamp.WF ∧ i.author.WF ∧ i.email.WF ∧ i.config.WF ∧ i.content.WF

def InstanceSet.WF (s : InstanceSet) : Prop :=
  (∀ c ∈ s.params, c.WF) ∧ (dkeys s.instances).Nodup ∧ ∀ p ∈ s.instances, p.2.WF

def Sets.WF (m : Sets) : Prop := (dkeys m).Nodup ∧ ∀ p ∈ m, p.2.WF

/-! ### Equality of configurations is an equivalence -/

namespace Config

theorem eq_refl {c : Config} (h : c.WF) : c.eq c = true := by
  simp [eq, Json.pyEq_refl _ h.1, Json.pyEq_refl _ h.2]

theorem eq_symm {a b : Config} (ha : a.WF) (hb : b.WF) (h : a.eq b = true) : b.eq a = true := by
  simp only [eq, Bool.and_eq_true] at h ⊢
  exact ⟨Json.pyEq_symm _ _ ha.1 hb.1 h.1, Json.pyEq_symm _ _ ha.2 hb.2 h.2⟩

theorem eq_trans {a b c : Config} (ha : a.WF) (hb : b.WF) (hc : c.WF) (h1 : a.eq b = true)
    (h2 : b.eq c = true) : a.eq c = true := by
  simp only [eq, Bool.and_eq_true] at h1 h2 ⊢
  exact ⟨Json.pyEq_trans _ _ _ ha.1 hb.1 hc.1 h1.1 h2.1,
    Json.pyEq_trans _ _ _ ha.2 hb.2 hc.2 h1.2 h2.2⟩

end Config

/-! ### Serialisation -/

theorem traverse_ok {α β : Type} {f : α → Except PyErr β} {g : α → β} {l : List α}
    (h : ∀ a ∈ l, f a = .ok (g a)) : traverse f l = .ok (l.map g) := by
  induction l with
  | nil => rfl
  | cons a l ih =>
    simp [traverse, h a (by simp), ih (fun x hx => h x (by simp [hx]))]

theorem traverse_map {α β γ : Type} (f : β → Except PyErr γ) (g : α → β) (l : List α) :
    traverse f (l.map g) = traverse (fun a => f (g a)) l := by
  induction l with
  | nil => rfl
  | cons a l ih => simp [traverse, ih]

theorem mem_of_traverse {α β : Type} {f : α → Except PyErr β} {l : List α} {bs : List β}
    (h : traverse f l = .ok bs) : ∀ a ∈ l, ∃ b ∈ bs, f a = .ok b := by
  induction l generalizing bs with
  | nil => simp
  | cons a l ih =>
    simp only [traverse] at h
    cases hf : f a with
    | error e => simp [hf] at h
    | ok b =>
      cases ht : traverse f l with
      | error e => simp [hf, ht] at h
      | ok cs =>
        simp only [hf, ht, Except.ok.injEq] at h
        subst h
        intro x hx
        rcases List.mem_cons.mp hx with rfl | hx
        · exact ⟨b, by simp, hf⟩
        · obtain ⟨c, hc, e⟩ := ih ht x hx
          exact ⟨c, by simp [hc], e⟩

theorem foldl_dset_of_nodup {α β : Type} [DecidableEq α] (l : List (α × β)) :
    ∀ acc : List (α × β), (dkeys (acc ++ l)).Nodup →
      l.foldl (fun d q => dset d q.1 q.2) acc = acc ++ l := by
  induction l with
  | nil => intro acc _; simp
  | cons p l ih =>
    intro acc h
    have hn : p.1 ∉ dkeys acc := by
      simp only [dkeys, List.map_append, List.nodup_append] at h
      intro hm
      exact h.2.2 p.1 hm p.1 (by simp) rfl
    simp only [List.foldl, dset_of_not_mem hn]
    rw [ih (acc ++ [(p.1, p.2)]) (by simpa using h)]
    simp

theorem pyInt_intText (i : Int) : pyInt (intText i) = .ok i := by
  have hd : ∀ n, (Nat.toDigits 10 n).all Char.isDigit = true := by
    intro n
    rw [List.all_eq_true]
    intro c hc
    exact Nat.isDigit_of_mem_toDigits (by omega) (by omega) hc
  unfold intText
  split
  · rename_i h
    simp only [pyInt, intSign, ne_eq, Nat.toDigits_ne_nil, not_false_eq_true, hd, and_self, if_true,
      Nat.ofDigitChars_toDigits (b := 10) (by omega : 1 < 10) (by omega : 10 ≤ 10)]
    congr 1
    omega
  · rename_i h
    cases hdg : Nat.toDigits 10 i.natAbs with
    | nil => exact absurd hdg Nat.toDigits_ne_nil
    | cons c t =>
      have hc : c.isDigit = true :=
        Nat.isDigit_of_mem_toDigits (b := 10) (n := i.natAbs) (by omega) (by omega) (by rw [hdg]; simp)
      have h1 : c ≠ '-' := by rintro rfl; simp [Char.isDigit] at hc
      have h2 : c ≠ '+' := by rintro rfl; simp [Char.isDigit] at hc
      unfold pyInt
      have e : intSign (c :: t) = (false, c :: t) := by
        unfold intSign
        split
        · rename_i heq; cases heq; exact absurd rfl h1
        · rename_i heq; cases heq; exact absurd rfl h2
        · rfl
      rw [e]
      simp only
      have hall := hd i.natAbs
      have hv := Nat.ofDigitChars_toDigits (n := i.natAbs) (b := 10) (by omega : 1 < 10) (by omega : 10 ≤ 10)
      rw [hdg] at hall hv
      rw [if_pos ⟨by simp, hall⟩, hv]
      congr 1
      simp only [Bool.false_eq_true, if_false]
      omega

theorem intText_injective {i j : Int} (h : intText i = intText j) : i = j := by
  have h1 := pyInt_intText i
  rw [h, pyInt_intText j] at h1
  exact (Except.ok.inj h1).symm

theorem Config.fromJson_toJson (c : Config) : Config.fromJson c.toJson = .ok c := by
  unfold Config.fromJson Config.toJson
  rw [assertType_tag, checkVersion_tag]
  simp [Json.item, tag, dget]

theorem Instance.fromJson_toJson (i : Instance) : Instance.fromJson i.toJson = .ok i := by
  unfold Instance.fromJson Instance.toJson
  rw [assertType_tag, checkVersion_tag]
  simp [Json.item, tag, dget, Config.fromJson_toJson]

theorem InstanceSet.fromJson_toJson (s : InstanceSet) (h : (dkeys s.instances).Nodup) :
    InstanceSet.fromJson s.toJson = .ok s := by
  unfold InstanceSet.fromJson InstanceSet.toJson
  rw [assertType_tag, checkVersion_tag]
  have h1 : traverse Config.fromJson (s.params.map Config.toJson) = .ok s.params := by
    rw [traverse_map, traverse_ok (g := id) (fun a _ => Config.fromJson_toJson a)]
    simp
  have h2 : traverse InstanceSet.entryFromJson
      (s.instances.map (fun p => (intText p.1, p.2.toJson))) = .ok s.instances := by
    rw [traverse_map, traverse_ok (g := id)]
    · simp
    · intro p _
      simp [InstanceSet.entryFromJson, pyInt_intText, Instance.fromJson_toJson]
  simp only [Json.item, tag, dget, Json.iter, Json.items]
  simp [h1, h2, foldl_dset_of_nodup s.instances [] (by simpa using h)]

theorem Sets.entries_ok : ∀ (m acc : Sets), (dkeys (acc ++ m)).Nodup →
    (∀ p ∈ m, (dkeys p.2.instances).Nodup) →
    Sets.entries (m.map (fun p => (p.1, p.2.toJson))) acc = .ok (acc ++ m) := by
  intro m
  induction m with
  | nil => intro acc _ _; simp [Sets.entries]
  | cons p m ih =>
    intro acc h hm
    have hn : p.1 ∉ dkeys acc := by
      simp only [dkeys, List.map_append, List.nodup_append] at h
      intro hmem
      exact h.2.2 p.1 hmem p.1 (by simp) rfl
    simp only [List.map_cons, Sets.entries, InstanceSet.fromJson_toJson _ (hm p (by simp)),
      dset_of_not_mem hn]
    rw [ih (acc ++ [(p.1, p.2)]) (by simpa using h) (fun q hq => hm q (by simp [hq]))]
    simp

theorem Sets.fromJson_toJson (m : Sets) (h : m.WF) : Sets.fromJson m.toJson = .ok m := by
  unfold Sets.fromJson Sets.toJson
  rw [assertType_tag, checkVersion_tag]
  simp only [Json.item, tag, dget, Json.items]
  simp [Sets.entries_ok m [] (by simpa using h.1) (fun p hp => (h.2 p hp).2.1)]

/-! ### The serialised form is well formed -/

theorem Config.wf_toJson {c : Config} (h : c.WF) : c.toJson.WF := by
  obtain ⟨h1, h2⟩ := h
  simp only [Json.WF] at h2
  simp [Config.toJson, Json.WF, Json.WFObj, dkeys, tag, h1, h2.2]
  simpa [dkeys] using h2.1

theorem Instance.wf_toJson {i : Instance} (h : i.WF) : i.toJson.WF := by
  obtain ⟨h1, h2, h3, h4, h5⟩ := h
  have hc := Config.wf_toJson h4
  simp [Instance.toJson, Json.WF, Json.WFObj, dkeys, tag, h1, h2, h3, h5, hc]

theorem InstanceSet.wf_toJson {s : InstanceSet} (h : s.WF) : s.toJson.WF := by
  obtain ⟨h1, h2, h3⟩ := h
  have hp : Json.WFArr (s.params.map Config.toJson) := by
    rw [Json.wfArr_iff]
    intro a ha
    obtain ⟨c, hc, rfl⟩ := List.mem_map.mp ha
    exact Config.wf_toJson (h1 c hc)
  have hi : Json.WFObj (s.instances.map (fun p => (intText p.1, p.2.toJson))) := by
    rw [Json.wfObj_iff]
    intro a ha
    obtain ⟨c, hc, rfl⟩ := List.mem_map.mp ha
    exact Instance.wf_toJson (h3 c hc)
  have hk : (dkeys (s.instances.map (fun p => (intText p.1, p.2.toJson)))).Nodup := by
    have : dkeys (s.instances.map (fun p => (intText p.1, p.2.toJson))) =
        (dkeys s.instances).map intText := by simp [dkeys]
    rw [this]
    rw [List.Nodup, List.pairwise_map]
    exact h2.imp (fun hab e => hab (intText_injective e))
  simp only [InstanceSet.toJson, Json.WF, Json.WFObj]
  refine ⟨by simp [dkeys, tag], wf_tag _, hp, ⟨hk, hi⟩, trivial⟩

theorem Sets.wf_toJson {m : Sets} (h : m.WF) : m.toJson.WF := by
  obtain ⟨h1, h2⟩ := h
  have hi : Json.WFObj (m.map (fun p => (p.1, p.2.toJson))) := by
    rw [Json.wfObj_iff]
    intro a ha
    obtain ⟨c, hc, rfl⟩ := List.mem_map.mp ha
    exact InstanceSet.wf_toJson (h2 c hc)
  have hk : (dkeys (m.map (fun p => (p.1, p.2.toJson)))).Nodup := by
    have : dkeys (m.map (fun p => (p.1, p.2.toJson))) = dkeys m := by simp [dkeys]
    rw [this]; exact h1
  simp only [Sets.toJson, Json.WF, Json.WFObj]
  exact ⟨by simp [dkeys, tag], wf_tag _, ⟨hk, hi⟩, trivial⟩

theorem Sets.fromText_toText (T : FloatText) (m : Sets) (h : m.WF) :
    Sets.fromText T (m.toText T) = .ok m := by
  unfold Sets.fromText Sets.toText
  rw [loads_dumps T _ (Sets.wf_toJson h)]
  exact Sets.fromJson_toJson m h

/-! ### Adding runs keeps values well formed -/

theorem mem_dset {α β : Type} [DecidableEq α] {d : List (α × β)} {k : α} {v : β} {p : α × β}
    (h : p ∈ dset d k v) : p = (k, v) ∨ p ∈ d := by
  induction d with
  | nil => left; simpa [dset] using h
  | cons q d ih =>
    obtain ⟨a, b⟩ := q
    by_cases e : a = k
    · subst e
      simp only [dset, if_true] at h
      rcases List.mem_cons.mp h with h | h
      · exact Or.inl h
      · exact Or.inr (List.mem_cons_of_mem _ h)
    · simp only [dset, e, if_false] at h
      rcases List.mem_cons.mp h with h | h
      · exact Or.inr (by simp [h])
      · rcases ih h with h | h
        · exact Or.inl h
        · exact Or.inr (List.mem_cons_of_mem _ h)

theorem InstanceSet.wf_add {s : InstanceSet} (h : s.WF) {i : Instance} (hi : i.WF) :
    (s.add i).WF := by
  obtain ⟨h1, h2, h3⟩ := h
  unfold InstanceSet.add
  split
  · refine ⟨h1, nodup_dset h2 _ _, ?_⟩
    intro p hp
    rcases mem_dset hp with rfl | hp
    · exact hi
    · exact h3 p hp
  · refine ⟨?_, nodup_dset h2 _ _, ?_⟩
    · intro c hc
      rcases List.mem_append.mp hc with hc | hc
      · exact h1 c hc
      · simp at hc; subst hc; exact hi.2.2.2.1
    · intro p hp
      rcases mem_dset hp with rfl | hp
      · exact hi
      · exact h3 p hp

theorem InstanceSet.wf_empty : InstanceSet.empty.WF := by
  simp [InstanceSet.WF, InstanceSet.empty, dkeys]

theorem Sets.wf_addRun {m : Sets} (h : m.WF) (e : Str) {i : Instance} (hi : i.WF) :
    (m.addRun e i).WF := by
  obtain ⟨h1, h2⟩ := h
  refine ⟨nodup_dset h1 _ _, ?_⟩
  intro p hp
  rcases mem_dset hp with rfl | hp
  · apply InstanceSet.wf_add _ hi
    cases hd : dget m e with
    | none => exact InstanceSet.wf_empty
    | some s => exact h2 _ (mem_of_dget hd)
  · exact h2 p hp

end MM
