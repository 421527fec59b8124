/-
Property theorems about serialisation (C03, C04, C05, C06, C50) and about the
metadata map (C08, C09, C10).
-/
import Verif.Metadata
import Verif.Source
import Verif.Uuid

namespace MM

/-! ### C03 -/

/-- **C03** A reference survives serialisation, also through the git text channel. -/
theorem C03_roundtrip (T : FloatText) (r : Ref) :
    Ref.fromText T (gitText (r.toText T)) = .ok r := by
  unfold Ref.fromText Ref.toText
  rw [gitText_dumps, loads_dumps T _ r.wf_toJson]
  exact Ref.fromJson_toJson r

/-- **C03** A reference is a none reference after serialisation exactly when it
was one before, and the none reference of a class is one. -/
theorem C03_none (T : FloatText) (r : Ref) :
    (∃ r', Ref.fromText T (r.toText T) = .ok r' ∧ r'.isNone = r.isNone ∧ r'.cls = r.cls) ∧
    ∀ cls, (Ref.noneRef cls).isNone = true := by
  refine ⟨⟨r, ?_, rfl, rfl⟩, fun cls => by simp [Ref.noneRef, Ref.isNone]⟩
  have := C03_roundtrip T r
  unfold Ref.fromText Ref.toText at this ⊢
  rwa [gitText_dumps] at this

example : Ref.fromText FloatText.sample
    (gitText (Ref.toText FloatText.sample ⟨c!"Metadata", none⟩)) = .ok ⟨c!"Metadata", none⟩ :=
  C03_roundtrip _ _

/-! ### C04 -/

/-- One call of `add_extractor_run`: the extractor name and the run. -/
abbrev Run := Str × Instance

/-- The metadata body after a history of calls, starting with an empty object. -/
def build (h : List Run) : Sets := h.foldl (fun m r => m.addRun r.1 r.2) []

theorem wf_build (h : List Run) (hw : ∀ r ∈ h, r.2.WF) : (build h).WF := by
  unfold build
  have : ∀ (h : List Run) (m : Sets), m.WF → (∀ r ∈ h, r.2.WF) →
      (h.foldl (fun m r => m.addRun r.1 r.2) m).WF := by
    intro h
    induction h with
    | nil => intro m hm _; exact hm
    | cons r h ih =>
      intro m hm hw
      exact ih _ (Sets.wf_addRun hm r.1 (hw r (by simp))) (fun x hx => hw x (by simp [hx]))
  exact this h [] (by simp [Sets.WF, dkeys]) hw

/-- **C04** Whatever calls built a metadata object, serialising it, sending the
text through git and reading it back gives the same extractors, configurations
and runs in the same order. -/
theorem C04_roundtrip (T : FloatText) (h : List Run) (hw : ∀ r ∈ h, r.2.WF) :
    Sets.fromText T (gitText ((build h).toText T)) = .ok (build h) := by
  have := Sets.fromText_toText T (build h) (wf_build h hw)
  unfold Sets.toText at this ⊢
  rwa [gitText_dumps]

/-! ### C05 -/

/-- `j["@"]["version"]`, if there is one -/
def versionOf (j : Json) : Option Json :=
  match j with
  | .obj l => match dget l c!"@" with
    | some (.obj a) => dget a c!"version"
    | _ => none
  | _ => none

theorem pyEq_str {j : Json} {s : Str} (h : j.pyEq (.str s) = true) : j = .str s := by
  cases j <;> simp_all [Json.pyEq, Json.num?]

theorem item_ok {j : Json} {k : Str} {v : Json} (h : j.item k = .ok v) :
    ∃ l, j = .obj l ∧ dget l k = some v := by
  cases j with
  | obj l =>
    simp only [Json.item] at h
    cases hd : dget l k with
    | none => simp [hd] at h
    | some w => simp only [hd, Except.ok.injEq] at h; subst h; exact ⟨l, rfl, hd⟩
  | _ => simp [Json.item] at h

theorem versionOf_of_check {j : Json} (h : checkVersion j = .ok ()) :
    versionOf j = some (.str versionString) := by
  obtain ⟨a, v, h1, h2, h3⟩ := checkVersion_ok h
  obtain ⟨l, rfl, hl⟩ := item_ok h1
  obtain ⟨m, rfl, hm⟩ := item_ok h2
  simp [versionOf, hl, hm, pyEq_str h3]

/-- **C05** A reference is only read if its version is the supported one. -/
theorem C05_reference (j : Json) (r : Ref) (h : Ref.fromJson j = .ok r) :
    versionOf j = some (.str c!"2.0") := by
  unfold Ref.fromJson at h
  cases h1 : assertType j c!"Reference" with
  | error e => simp [h1, bind, Except.bind] at h
  | ok u =>
    cases h2 : checkVersion j with
    | error e => simp [h1, h2, bind, Except.bind] at h
    | ok u => exact versionOf_of_check h2

theorem C05_config (j : Json) (c : Config) (h : Config.fromJson j = .ok c) :
    versionOf j = some (.str c!"2.0") ∧ assertType j c!"ExtractorConfiguration" = .ok () := by
  unfold Config.fromJson at h
  cases h1 : assertType j c!"ExtractorConfiguration" with
  | error e => simp [h1] at h
  | ok u =>
    cases h2 : checkVersion j with
    | error e => simp [h1, h2] at h
    | ok u => exact ⟨versionOf_of_check h2, rfl⟩

/-- The configuration of an instance that was read was read as well. -/
theorem C05_instance (j : Json) (i : Instance) (h : Instance.fromJson j = .ok i) :
    versionOf j = some (.str c!"2.0") ∧
    ∃ c, j.item c!"configuration" = .ok c ∧ Config.fromJson c = .ok i.config := by
  unfold Instance.fromJson at h
  cases h1 : assertType j c!"MetadataInstance" with
  | error e => simp [h1] at h
  | ok u =>
  cases h2 : checkVersion j with
  | error e => simp [h1, h2] at h
  | ok u =>
  cases h3 : j.item c!"time_stamp" with
  | error e => simp [h1, h2, h3] at h
  | ok t =>
  cases h4 : j.item c!"author" with
  | error e => simp [h1, h2, h3, h4] at h
  | ok a =>
  cases h5 : j.item c!"author_email" with
  | error e => simp [h1, h2, h3, h4, h5] at h
  | ok m =>
  cases h6 : j.item c!"configuration" with
  | error e => simp [h1, h2, h3, h4, h5, h6] at h
  | ok c =>
  cases h7 : Config.fromJson c with
  | error e => simp [h1, h2, h3, h4, h5, h6, h7] at h
  | ok cf =>
  cases h8 : j.item c!"metadata_content" with
  | error e => simp [h1, h2, h3, h4, h5, h6, h7, h8] at h
  | ok d =>
    simp only [h1, h2, h3, h4, h5, h6, h7, h8, Except.ok.injEq] at h
    subst h
    exact ⟨versionOf_of_check h2, c, rfl, h7⟩

theorem C05_set (j : Json) (s : InstanceSet) (h : InstanceSet.fromJson j = .ok s) :
    versionOf j = some (.str c!"2.0") ∧
    (∃ p l, j.item c!"parameter_set" = .ok p ∧ p.iter = .ok l ∧
      ∀ x ∈ l, ∃ c, Config.fromJson x = .ok c) ∧
    (∃ q m, j.item c!"instance_set" = .ok q ∧ q.items = .ok m ∧
      ∀ x ∈ m, ∃ i, Instance.fromJson x.2 = .ok i) := by
  unfold InstanceSet.fromJson at h
  cases h1 : assertType j c!"MetadataInstanceSet" with
  | error e => simp [h1] at h
  | ok u =>
  cases h2 : checkVersion j with
  | error e => simp [h1, h2] at h
  | ok u =>
  cases h3 : j.item c!"parameter_set" with
  | error e => simp [h1, h2, h3] at h
  | ok p =>
  cases h4 : p.iter with
  | error e => simp [h1, h2, h3, h4] at h
  | ok l =>
  cases h5 : traverse Config.fromJson l with
  | error e => simp [h1, h2, h3, h4, h5] at h
  | ok cs =>
  cases h6 : j.item c!"instance_set" with
  | error e => simp [h1, h2, h3, h4, h5, h6] at h
  | ok q =>
  cases h7 : q.items with
  | error e => simp [h1, h2, h3, h4, h5, h6, h7] at h
  | ok m =>
  cases h8 : traverse InstanceSet.entryFromJson m with
  | error e => simp [h1, h2, h3, h4, h5, h6, h7, h8] at h
  | ok d =>
    refine ⟨versionOf_of_check h2, ⟨p, l, rfl, h4, ?_⟩, q, m, rfl, h7, ?_⟩
    · intro x hx
      obtain ⟨c, _, hc⟩ := mem_of_traverse h5 x hx
      exact ⟨c, hc⟩
    · intro x hx
      obtain ⟨e, _, he⟩ := mem_of_traverse h8 x hx
      unfold InstanceSet.entryFromJson at he
      cases hp : pyInt x.1 with
      | error e => simp [hp] at he
      | ok n =>
        cases hi : Instance.fromJson x.2 with
        | error e => simp [hp, hi] at he
        | ok i => exact ⟨i, rfl⟩

theorem entries_all : ∀ (l : List (Str × Json)) (acc m : Sets), Sets.entries l acc = .ok m →
    ∀ p ∈ l, ∃ s, InstanceSet.fromJson p.2 = .ok s := by
  intro l
  induction l with
  | nil => simp
  | cons q l ih =>
    obtain ⟨k, j⟩ := q
    intro acc m h p hp
    simp only [Sets.entries] at h
    cases hs : InstanceSet.fromJson j with
    | error e => simp [hs] at h
    | ok s =>
      simp only [hs] at h
      rcases List.mem_cons.mp hp with rfl | hp
      · exact ⟨s, hs⟩
      · exact ih _ _ h p hp

theorem C05_sets (j : Json) (m : Sets) (h : Sets.fromJson j = .ok m) :
    versionOf j = some (.str c!"2.0") ∧
    ∃ q l, j.item c!"instance_sets" = .ok q ∧ q.items = .ok l ∧
      ∀ x ∈ l, ∃ s, InstanceSet.fromJson x.2 = .ok s := by
  unfold Sets.fromJson at h
  cases h1 : checkVersion j with
  | error e => simp [h1] at h
  | ok u =>
  cases h2 : assertType j c!"Metadata" with
  | error e => simp [h1, h2] at h
  | ok u =>
  cases h3 : j.item c!"instance_sets" with
  | error e => simp [h1, h2, h3] at h
  | ok q =>
  cases h4 : q.items with
  | error e => simp [h1, h2, h3, h4] at h
  | ok l =>
    simp only [h1, h2, h3, h4] at h
    exact ⟨versionOf_of_check h1, q, l, rfl, h4, entries_all l [] m h⟩

/-- Positions of configurations in a serialised metadata object -/
inductive MetaPart (root : Json) : Json → Prop
  | root : MetaPart root root
  | set {l m k s} : root = .obj l → dget l c!"instance_sets" = some (.obj m) → (k, s) ∈ m →
      MetaPart root s
  | param {l m k s sl ps c} : root = .obj l → dget l c!"instance_sets" = some (.obj m) →
      (k, s) ∈ m → s = .obj sl → dget sl c!"parameter_set" = some (.arr ps) → c ∈ ps →
      MetaPart root c
  | inst {l m k s sl is n i} : root = .obj l → dget l c!"instance_sets" = some (.obj m) →
      (k, s) ∈ m → s = .obj sl → dget sl c!"instance_set" = some (.obj is) → (n, i) ∈ is →
      MetaPart root i
  | conf {l m k s sl is n i il c} : root = .obj l → dget l c!"instance_sets" = some (.obj m) →
      (k, s) ∈ m → s = .obj sl → dget sl c!"instance_set" = some (.obj is) → (n, i) ∈ is →
      i = .obj il → dget il c!"configuration" = some c → MetaPart root c

theorem item_of_dget {l : List (Str × Json)} {k : Str} {v : Json} (h : dget l k = some v) :
    (Json.obj l).item k = .ok v := by simp [Json.item, h]

/-- **C05** A metadata object is only read if it and every instance set,
configuration and instance nested in it have the supported version. -/
theorem C05_metadata (j : Json) (m : Sets) (h : Sets.fromJson j = .ok m) :
    ∀ x, MetaPart j x → versionOf x = some (.str c!"2.0") := by
  obtain ⟨hv, q, l, hq, hl, hall⟩ := C05_sets j m h
  have hset : ∀ {l' m' k s}, j = .obj l' → dget l' c!"instance_sets" = some (.obj m') →
      (k, s) ∈ m' → ∃ t, InstanceSet.fromJson s = .ok t := by
    intro l' m' k s hj hd hm
    subst hj
    rw [item_of_dget hd] at hq
    cases hq
    simp only [Json.items, Except.ok.injEq] at hl
    subst hl
    exact hall (k, s) hm
  intro x hx
  cases hx with
  | root => exact hv
  | set hj hd hm =>
    obtain ⟨t, ht⟩ := hset hj hd hm
    exact (C05_set _ _ ht).1
  | param hj hd hm hs hp hc =>
    obtain ⟨t, ht⟩ := hset hj hd hm
    obtain ⟨_, ⟨p, cs, h1, h2, h3⟩, _⟩ := C05_set _ _ ht
    subst hs
    rw [item_of_dget hp] at h1
    cases h1
    simp only [Json.iter, Except.ok.injEq] at h2
    subst h2
    obtain ⟨c, hc⟩ := h3 x hc
    exact (C05_config _ _ hc).1
  | inst hj hd hm hs hp hi =>
    obtain ⟨t, ht⟩ := hset hj hd hm
    obtain ⟨_, _, p, is, h1, h2, h3⟩ := C05_set _ _ ht
    subst hs
    rw [item_of_dget hp] at h1
    cases h1
    simp only [Json.items, Except.ok.injEq] at h2
    subst h2
    obtain ⟨i, hi⟩ := h3 _ hi
    exact (C05_instance _ _ hi).1
  | conf hj hd hm hs hp hi hil hc =>
    obtain ⟨t, ht⟩ := hset hj hd hm
    obtain ⟨_, _, p, is, h1, h2, h3⟩ := C05_set _ _ ht
    subst hs
    rw [item_of_dget hp] at h1
    cases h1
    simp only [Json.items, Except.ok.injEq] at h2
    subst h2
    obtain ⟨i, hi⟩ := h3 _ hi
    obtain ⟨_, c, hc1, hc2⟩ := C05_instance _ _ hi
    simp only at hc1
    subst hil
    rw [item_of_dget hc] at hc1
    cases hc1
    exact (C05_config _ _ hc2).1

/-! ### C54 -/

/-- `j["@"]["type"]`, if there is one -/
def typeOf (j : Json) : Option Json :=
  match j with
  | .obj l => match dget l c!"@" with
    | some (.obj a) => dget a c!"type"
    | _ => none
  | _ => none

theorem typeOf_of_assert {j : Json} {name : Str} (h : assertType j name = .ok ()) :
    typeOf j = some (.str name) := by
  unfold assertType at h
  cases h1 : j.item c!"@" with
  | error e => simp [h1, bind, Except.bind] at h
  | ok a =>
    cases h2 : a.item c!"type" with
    | error e => simp [h1, h2, bind, Except.bind] at h
    | ok t =>
      by_cases h3 : t.pyEq (.str name) = true
      · obtain ⟨l, rfl, hl⟩ := item_ok h1
        obtain ⟨m, rfl, hm⟩ := item_ok h2
        simp [typeOf, hl, hm, pyEq_str h3]
      · simp [h1, h2, h3, bind, Except.bind] at h

/-- **C54** Only objects tagged as references are read as references. -/
theorem C54_reference (j : Json) (r : Ref) (h : Ref.fromJson j = .ok r) :
    typeOf j = some (.str c!"Reference") := by
  unfold Ref.fromJson at h
  cases h1 : assertType j c!"Reference" with
  | error e => simp [h1, bind, Except.bind] at h
  | ok u => exact typeOf_of_assert h1

/-- **C54** Only objects tagged as configurations are read as configurations. -/
theorem C54_config (j : Json) (c : Config) (h : Config.fromJson j = .ok c) :
    typeOf j = some (.str c!"ExtractorConfiguration") := by
  unfold Config.fromJson at h
  cases h1 : assertType j c!"ExtractorConfiguration" with
  | error e => simp [h1] at h
  | ok u => exact typeOf_of_assert h1

/-- **C54** Only objects tagged as instances are read as instances. -/
theorem C54_instance (j : Json) (i : Instance) (h : Instance.fromJson j = .ok i) :
    typeOf j = some (.str c!"MetadataInstance") := by
  unfold Instance.fromJson at h
  cases h1 : assertType j c!"MetadataInstance" with
  | error e => simp [h1] at h
  | ok u => exact typeOf_of_assert h1

/-- **C54** Only objects tagged as instance sets are read as instance sets. -/
theorem C54_set (j : Json) (s : InstanceSet) (h : InstanceSet.fromJson j = .ok s) :
    typeOf j = some (.str c!"MetadataInstanceSet") := by
  unfold InstanceSet.fromJson at h
  cases h1 : assertType j c!"MetadataInstanceSet" with
  | error e => simp [h1] at h
  | ok u => exact typeOf_of_assert h1

/-- **C54** Only objects tagged as metadata are read as metadata. -/
theorem C54_sets (j : Json) (m : Sets) (h : Sets.fromJson j = .ok m) :
    typeOf j = some (.str c!"Metadata") := by
  unfold Sets.fromJson at h
  cases h1 : checkVersion j with
  | error e => simp [h1] at h
  | ok u =>
  cases h2 : assertType j c!"Metadata" with
  | error e => simp [h1, h2] at h
  | ok u => exact typeOf_of_assert h2

/-- The objects nested in a serialised metadata object, with the type each has to have -/
inductive TypedPart (root : Json) : Str → Json → Prop
  | root : TypedPart root c!"Metadata" root
  | set {l m k s} : root = .obj l → dget l c!"instance_sets" = some (.obj m) → (k, s) ∈ m →
      TypedPart root c!"MetadataInstanceSet" s
  | param {l m k s sl ps c} : root = .obj l → dget l c!"instance_sets" = some (.obj m) →
      (k, s) ∈ m → s = .obj sl → dget sl c!"parameter_set" = some (.arr ps) → c ∈ ps →
      TypedPart root c!"ExtractorConfiguration" c
  | inst {l m k s sl is n i} : root = .obj l → dget l c!"instance_sets" = some (.obj m) →
      (k, s) ∈ m → s = .obj sl → dget sl c!"instance_set" = some (.obj is) → (n, i) ∈ is →
      TypedPart root c!"MetadataInstance" i
  | conf {l m k s sl is n i il c} : root = .obj l → dget l c!"instance_sets" = some (.obj m) →
      (k, s) ∈ m → s = .obj sl → dget sl c!"instance_set" = some (.obj is) → (n, i) ∈ is →
      i = .obj il → dget il c!"configuration" = some c → TypedPart root c!"ExtractorConfiguration" c

/-- **C54** A metadata object is only read if it and every object nested in it is tagged
with the type that belongs at its place. -/
theorem C54_metadata (j : Json) (m : Sets) (h : Sets.fromJson j = .ok m) :
    ∀ name x, TypedPart j name x → typeOf x = some (.str name) := by
  obtain ⟨hv, q, l, hq, hl, hall⟩ := C05_sets j m h
  have hset : ∀ {l' m' k s}, j = .obj l' → dget l' c!"instance_sets" = some (.obj m') →
      (k, s) ∈ m' → ∃ t, InstanceSet.fromJson s = .ok t := by
    intro l' m' k s hj hd hm
    subst hj
    rw [item_of_dget hd] at hq
    cases hq
    simp only [Json.items, Except.ok.injEq] at hl
    subst hl
    exact hall _ hm
  intro name x hx
  cases hx with
  | root => exact C54_sets j m h
  | set hj hd hm =>
    obtain ⟨t, ht⟩ := hset hj hd hm
    exact C54_set _ _ ht
  | param hj hd hm hs hp hc =>
    obtain ⟨t, ht⟩ := hset hj hd hm
    obtain ⟨_, ⟨p, cs, h1, h2, h3⟩, _⟩ := C05_set _ _ ht
    subst hs
    rw [item_of_dget hp] at h1
    cases h1
    simp only [Json.iter, Except.ok.injEq] at h2
    subst h2
    obtain ⟨c, hc⟩ := h3 x hc
    exact C54_config _ _ hc
  | inst hj hd hm hs hp hi =>
    obtain ⟨t, ht⟩ := hset hj hd hm
    obtain ⟨_, _, p, is, h1, h2, h3⟩ := C05_set _ _ ht
    subst hs
    rw [item_of_dget hp] at h1
    cases h1
    simp only [Json.items, Except.ok.injEq] at h2
    subst h2
    obtain ⟨i, hi⟩ := h3 _ hi
    exact C54_instance _ _ hi
  | conf hj hd hm hs hp hi hil hc =>
    obtain ⟨t, ht⟩ := hset hj hd hm
    obtain ⟨_, _, p, is, h1, h2, h3⟩ := C05_set _ _ ht
    subst hs
    rw [item_of_dget hp] at h1
    cases h1
    simp only [Json.items, Except.ok.injEq] at h2
    subst h2
    obtain ⟨i, hi⟩ := h3 _ hi
    obtain ⟨_, c, hc1, hc2⟩ := C05_instance _ _ hi
    simp only at hc1
    subst hil
    rw [item_of_dget hc] at hc1
    cases hc1
    exact C54_config _ _ hc2

/-- A reference is read, and a configuration is not read as a reference, C54. -/
example : (∃ r, Ref.fromJson (Ref.toJson ⟨c!"FileTree", some c!"x"⟩) = .ok r) ∧
    typeOf (Config.toJson ⟨.str c!"1", []⟩) = some (.str c!"ExtractorConfiguration") :=
  ⟨⟨_, rfl⟩, rfl⟩

/-- The tag and the `metadata_source_type` of the serialised form of a source -/
def Source.className : Source → Str
  | .localGit _ _ => c!"LocalGitMetadataSource"
  | .immediate _ => c!"ImmediateMetadataSource"

theorem source_read {j : Json} {s : Source} (h : Source.fromJson j = .ok (some s)) :
    assertType j s.className = .ok () ∧ checkVersion j = .ok () := by
  have hl : ∀ {j}, Source.localFromJson j = .ok (some s) →
      assertType j s.className = .ok () ∧ checkVersion j = .ok () := by
    intro j h
    unfold Source.localFromJson at h
    cases h1 : assertType j c!"LocalGitMetadataSource" with
    | error e => cases e <;> simp [h1, bind, Except.bind] at h
    | ok u =>
      cases h2 : checkVersion j with
      | error e => cases e <;> simp [h1, h2, bind, Except.bind] at h
      | ok u =>
        refine ⟨?_, rfl⟩
        simp only [h1, h2, bind, Except.bind, pure, Except.pure, throw, throwThe,
          MonadExceptOf.throw] at h
        repeat' split at h
        all_goals first
          | (cases h; done)
          | skip
        all_goals (cases h; rename_i hb; repeat' split at hb)
        all_goals first
          | (cases hb; done)
          | (cases hb; exact h1)
  have hi : ∀ {j}, Source.immediateFromJson j = .ok (some s) →
      assertType j s.className = .ok () ∧ checkVersion j = .ok () := by
    intro j h
    unfold Source.immediateFromJson at h
    cases h1 : assertType j c!"ImmediateMetadataSource" with
    | error e => cases e <;> simp [h1, bind, Except.bind] at h
    | ok u =>
      cases h2 : checkVersion j with
      | error e => cases e <;> simp [h1, h2, bind, Except.bind] at h
      | ok u =>
        refine ⟨?_, rfl⟩
        simp only [h1, h2, bind, Except.bind, pure, Except.pure, throw, throwThe,
          MonadExceptOf.throw] at h
        repeat' split at h
        all_goals first
          | (cases h; done)
          | skip
        all_goals (cases h; rename_i hb; repeat' split at hb)
        all_goals first
          | (cases hb; done)
          | (cases hb; exact h1)
  cases j with
  | obj l =>
    unfold Source.fromJson at h
    simp only at h
    repeat' split at h
    all_goals first
      | (cases h; done)
      | exact hl h
      | exact hi h
  | _ => simp [Source.fromJson] at h

/-- **C05** A metadata source is only read if its version is the supported one. -/
theorem C05_source (j : Json) (s : Source) (h : Source.fromJson j = .ok (some s)) :
    versionOf j = some (.str c!"2.0") :=
  versionOf_of_check (source_read h).2

/-- **C54** Only objects tagged as local or as immediate metadata sources are read as such. -/
theorem C54_source (j : Json) (s : Source) (h : Source.fromJson j = .ok (some s)) :
    match s with
    | .localGit _ _ => typeOf j = some (.str c!"LocalGitMetadataSource")
    | .immediate _ => typeOf j = some (.str c!"ImmediateMetadataSource") := by
  have := typeOf_of_assert (source_read h).1
  cases s <;> exact this

/-- Sources of both classes are read. -/
example : Source.fromJson (Source.toJson (.immediate (.str c!"x"))) = .ok (some (.immediate (.str c!"x"))) ∧
    ∃ s, Source.fromJson (Source.toJson (.mkLocal (parseParts [c!"a", c!"b"]) c!"x ")) = .ok (some s) :=
  ⟨rfl, _, rfl⟩

/-! ### C06 -/

/-- **C06** A metadata source survives serialisation through the git text
channel; the source read back is the original one.  A local source is one made
by the constructor, from any path and any object reference. -/
theorem C06_local (T : FloatText) (args : List Str) (r : Str) :
    Source.fromText T (gitText ((Source.mkLocal (parseParts args) r).toText T)) =
      .ok (some (Source.mkLocal (parseParts args) r)) := by
  unfold Source.fromText Source.toText
  have hw : (Source.mkLocal (parseParts args) r).toJson.WF := by
    simp [Source.mkLocal, Source.toJson, Json.WF, Json.WFObj, dkeys, tag]
  rw [gitText_dumps, loads_dumps T _ hw]
  simp only [Source.mkLocal, Source.toJson, Source.fromJson]
  have hd : dget [tag c!"LocalGitMetadataSource",
      (c!"metadata_source_type", Json.str c!"LocalGitMetadataSource"),
      (c!"git_repository_path", .str (parseParts args).purePosixStr),
      (c!"object_reference", .str (strip r))] c!"metadata_source_type" =
      some (.str c!"LocalGitMetadataSource") := by simp [dget, tag]
  rw [hd]
  simp only [pyEq_str_self, if_true, Source.localFromJson, assertType_tag, checkVersion_tag]
  simp [Json.item, dget, tag, bind, Except.bind, pure, Except.pure, pyEq_str_self,
    Source.mkLocal, strip_idem, parseParts_str (ok_parseParts args)]

theorem C06_immediate (T : FloatText) (j : Json) (h : j.WF) :
    Source.fromText T (gitText ((Source.immediate j).toText T)) = .ok (some (.immediate j)) := by
  unfold Source.fromText Source.toText
  have hw : (Source.immediate j).toJson.WF := by
    simp [Source.toJson, Json.WF, Json.WFObj, dkeys, tag, h]
  rw [gitText_dumps, loads_dumps T _ hw]
  simp only [Source.toJson, Source.fromJson]
  have hd : dget [tag c!"ImmediateMetadataSource",
      (c!"metadata_source_type", Json.str c!"ImmediateMetadataSource"),
      (c!"content", j)] c!"metadata_source_type" =
      some (.str c!"ImmediateMetadataSource") := by simp [dget, tag]
  rw [hd]
  have hne : Json.pyEq (.str c!"ImmediateMetadataSource") (.str c!"LocalGitMetadataSource") = false := by
    simp [Json.pyEq]
  simp only [hne, pyEq_str_self, if_true, Source.immediateFromJson, assertType_tag, checkVersion_tag]
  simp [Json.item, dget, tag, bind, Except.bind, pure, Except.pure, pyEq_str_self]

/-- **C06** Without a known source type no source is returned, whatever else the
dictionary holds. -/
theorem C06_unknown (l : List (Str × Json))
    (h : ∀ t, dget l c!"metadata_source_type" = some t →
      t ≠ .str c!"LocalGitMetadataSource" ∧ t ≠ .str c!"ImmediateMetadataSource") :
    Source.fromJson (.obj l) = .ok none := by
  unfold Source.fromJson
  simp only
  cases hd : dget l c!"metadata_source_type" with
  | none => rfl
  | some t =>
    obtain ⟨h1, h2⟩ := h t hd
    have n1 : ¬ t.pyEq (.str c!"LocalGitMetadataSource") = true := fun e => h1 (pyEq_str e)
    have n2 : ¬ t.pyEq (.str c!"ImmediateMetadataSource") = true := fun e => h2 (pyEq_str e)
    cases t <;> simp only [n1, n2] <;> rfl

/-- **C06** The kind is kept and the source read equals the original in the sense
of the classes' own `==`. -/
theorem C06_eq (s : Source) (h : match s with | .localGit _ _ => True | .immediate j => j.WF) :
    s.eq s = true := by
  cases s with
  | localGit p r => simp [Source.eq]
  | immediate j => exact Json.pyEq_refl j h

/-- **C06** Two local sources are equal if and only if the same text is written for them:
when both the path and the object reference, without surrounding white space, are the same. -/
theorem C06_eq_local (T : FloatText) (a b : List Str) (r s : Str) :
    ((Source.mkLocal (parseParts a) r).eq (Source.mkLocal (parseParts b) s) = true ↔
      (Source.mkLocal (parseParts a) r).toText T = (Source.mkLocal (parseParts b) s).toText T) ∧
    ((Source.mkLocal (parseParts a) r).eq (Source.mkLocal (parseParts b) s) = true ↔
      parseParts a = parseParts b ∧ strip r = strip s) := by
  have h2 : (Source.mkLocal (parseParts a) r).eq (Source.mkLocal (parseParts b) s) = true ↔
      parseParts a = parseParts b ∧ strip r = strip s := by
    simp [Source.mkLocal, Source.eq]
  refine ⟨⟨fun h => ?_, fun h => ?_⟩, h2⟩
  · obtain ⟨e1, e2⟩ := h2.mp h
    simp [Source.mkLocal, e1, e2]
  · have e1 := C06_local T a r
    rw [h, C06_local T b s] at e1
    injection e1 with e1
    injection e1 with e1
    rw [← e1]
    exact C06_eq _ trivial

/-- **C06** A local source and an immediate one are never equal. -/
theorem C06_eq_kind (p : PPath) (r : Str) (j : Json) :
    (Source.mkLocal p r).eq (.immediate j) = false ∧ (Source.immediate j).eq (Source.mkLocal p r) = false :=
  ⟨rfl, rfl⟩

example : (Source.mkLocal (parseParts [c!"/r"]) c!"a ").eq (Source.mkLocal (parseParts [c!"/r/"]) c!"a") = true ∧
    (Source.mkLocal (parseParts [c!"/r"]) c!"a").eq (Source.mkLocal (parseParts [c!"/r"]) c!"b") = false := by
  decide
example : Source.fromJson (.obj [(c!"metadata_source_type", .str c!"Other")]) = .ok none :=
  C06_unknown _ (by intro t ht; simp [dget] at ht; subst ht; simp)
example : Source.mkLocal (parseParts [c!"/repo//x"]) c!" abc\n" =
    .localGit ⟨c!"/", [c!"repo", c!"x"]⟩ c!"abc" := by
  have h1 : parseParts [c!"/repo//x"] = ⟨c!"/", [c!"repo", c!"x"]⟩ := by decide
  have h2 : strip c!" abc\n" = c!"abc" := by decide
  rw [Source.mkLocal, h1, h2]

/-! ### C50, the text of identifiers -/

/-- **C50** A dataset identifier survives conversion to text and back; different
identifiers have different texts. -/
theorem C50_uuid (u v : Uuid) : Uuid.parse u.str = .ok u ∧ (u.str = v.str → u = v) :=
  ⟨Uuid.parse_str u, Uuid.str_injective⟩

end MM
