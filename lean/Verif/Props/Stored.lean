/-
C49 and C50 for objects: what is read back from a text object and from a root record that were written.
-/
import Verif.AnyOutcome
import Verif.Store
import Verif.Example
import Verif.Props.Json

namespace MM

variable {C : Cfg} {r : Realm}

/-- A write that is not skipped calls the mapper. -/
theorem writeOut_runs {n : Nat} {force : Bool} {i : ObjId} {w w' : World} {ref : Ref} (hr : r ≠ [])
    (hm : (w.heap i).mapped = true) (hs : r ∉ (w.heap i).savedOn ∨ force = true)
    (h : writeOut C (n + 1) (some r) force i w = (.ok ref, w')) :
    ∃ w1 w2, mapOut C (writeOut C n (some r)) r force (w.heap i).body w1 = (.ok ref, w2) ∧ w'.repo = w2.repo := by
  rw [writeOut_mapped hr hm rfl] at h
  split at h
  · cases h
  · cases hsv : isSavedOn (n + 1) (w.heap.set i { w.heap i with realm := some r }) r i with
    | error e => simp only [hsv] at h; cases h
    | ok saved =>
      simp only [hsv] at h
      have hno : ¬ (saved = true ∧ force = false) := by
        rintro ⟨rfl, hf⟩
        rcases hs with hs | hs
        · rw [isSavedOn_succ] at hsv
          have : ((w.heap.set i { w.heap i with realm := some r }) i).savedOn = (w.heap i).savedOn := by
            simp [Heap.set]
          rw [this, if_pos hs] at hsv
          cases hsv
        · rw [hs] at hf; cases hf
      rw [if_neg hno] at h
      cases hx : mapOut C (writeOut C n (some r)) r force (w.heap i).body
          { w with heap := w.heap.set i { w.heap i with realm := some r } } with
      | mk a w2 =>
        rw [hx] at h
        cases a with
        | error e => cases h
        | ok ref' =>
          simp only at h
          cases h
          exact ⟨_, w2, hx, rfl⟩

/-- What is read from the reference of a written text object: the text after git and the line-based
reading have dealt with it. -/
theorem text_read {n : Nat} {force : Bool} {i : ObjId} {w w' : World} {ref : Ref} {t : Str} (hr : r ≠ [])
    (hm : (w.heap i).mapped = true) (hb : (w.heap i).body = ⟨.text (some t), []⟩)
    (hs : r ∉ (w.heap i).savedOn ∨ force = true)
    (h : writeOut C (n + 1) (some r) force i w = (.ok ref, w')) (hc : CollisionFree C w'.repo.log) :
    fetch C w'.repo.log r .text ref = .ok ⟨.text (some (gitText t)), []⟩ := by
  obtain ⟨w1, w2, hx, he⟩ := writeOut_runs hr hm hs h
  rw [hb] at hx
  unfold mapOut at hx
  obtain ⟨a, w3, h1, h2⟩ := M.bind_ok hx
  cases h2
  obtain ⟨s, h6, rfl⟩ := liftG_ok h1
  unfold gitSaveStr at h6
  obtain ⟨h4, h5⟩ := gitCmd_ok h6
  cases h4
  have hst : Stored w'.repo.log r (.blob t) := by
    have hl : w'.repo.log = _ := (congrArg Repo.log he).trans h5
    rw [hl]
    exact List.mem_cons_self ..
  unfold fetch
  rw [isNone_hash (C.valid _)]
  simp only [Bool.false_eq_true, if_false]
  rw [if_pos (show Kind.text.accepts c!"Text" = true from accepts_name .text)]
  simp only [decode, Option.getD_some]
  rw [textAt_stored hc hst]
  rfl

/-- C49: a text object that is written, by any process in any state and with any failures, is read back
from the returned reference with the same text exactly if newlines are its only line separators
and it does not end with one. -/
theorem C49_text {n : Nat} {force : Bool} {i : ObjId} {w w' : World} {ref : Ref} {t : Str} (hr : r ≠ [])
    (hm : (w.heap i).mapped = true) (hb : (w.heap i).body = ⟨.text (some t), []⟩)
    (hs : r ∉ (w.heap i).savedOn ∨ force = true)
    (h : writeOut C (n + 1) (some r) force i w = (.ok ref, w')) (hc : CollisionFree C w'.repo.log) :
    fetch C w'.repo.log r .text ref = .ok ⟨.text (some t), []⟩ ↔
      (∀ c ∈ t, isLineSep c = true → c = '\n') ∧ t.getLast? ≠ some '\n' := by
  rw [text_read hr hm hb hs h hc, ← C49_channel_exact]
  constructor
  · intro h'; injection h' with h'; injection h' with h'; injection h' with h'; injection h'
  · intro h'; rw [h']

theorem parse_none : Uuid.parse c!"None" = .error .value := by
  unfold Uuid.parse
  exact if_pos (by decide)

/-- The JSON of a root record with any identifier and version -/
theorem mrrFromJson_any (id : Option Uuid) (v : Option Str) (d f : Ref) :
    match id with
    | some u => ∃ ks, mrrFromJson (mrrJson (some u) v d f) = .ok ⟨.mrr (some u) (some (v.getD c!"None")), ks⟩
    | none => mrrFromJson (mrrJson none v d f) = .error .value := by
  have hv : mrrJson id v d f = mrrJson id (some (v.getD c!"None")) d f := by
    cases v <;> rfl
  cases id with
  | some u => simp only; rw [hv, mrrFromJson_mrrJson]; exact ⟨_, rfl⟩
  | none =>
    unfold mrrFromJson
    have i1 : (mrrJson none v d f).item c!"dataset_level_metadata" = .ok d.toJson := by
      simp [mrrJson, Json.item, dget]
    have i2 : (mrrJson none v d f).item c!"file_tree" = .ok f.toJson := by
      simp [mrrJson, Json.item, dget]
    have i3 : (mrrJson none v d f).item c!"dataset_identifier" = .ok (.str c!"None") := by
      simp [mrrJson, Json.item, dget, pyStrOpt]
    have i3' : strItem (mrrJson none v d f) c!"dataset_identifier" = .ok c!"None" := by
      unfold strItem; rw [bind_of_eq_ok _ i3]
    rw [bind_of_eq_ok _ i1, bind_of_eq_ok _ (mrrLink_toJson ..), bind_of_eq_ok _ i2,
      bind_of_eq_ok _ (mrrLink_toJson ..), bind_of_eq_ok _ i3', parse_none]
    rfl

/-- What is read from the reference of a written root record. -/
theorem record_read {n : Nat} {force : Bool} {i : ObjId} {w w' : World} {ref : Ref} {id : Option Uuid} {v : Option Str}
    (hr : r ≠ []) (hm : (w.heap i).mapped = true) (hb : (w.heap i).body.data = .mrr id v)
    (hs : r ∉ (w.heap i).savedOn ∨ force = true)
    (h : writeOut C (n + 1) (some r) force i w = (.ok ref, w')) (hc : CollisionFree C w'.repo.log) :
    ∃ d f, fetch C w'.repo.log r .mrr ref = mrrFromJson (mrrJson id v d f) := by
  obtain ⟨w1, w2, hx, he⟩ := writeOut_runs hr hm hs h
  unfold mapOut at hx
  rw [hb] at hx
  simp only at hx
  obtain ⟨ft, w3, _, hx⟩ := M.bind_ok hx
  obtain ⟨dlm, w4, _, hx⟩ := M.bind_ok hx
  obtain ⟨a, w5, h1, h2⟩ := M.bind_ok hx
  cases h2
  obtain ⟨s, h6, rfl⟩ := liftG_ok h1
  unfold gitSaveJson gitSaveStr at h6
  obtain ⟨h4, h5⟩ := gitCmd_ok h6
  cases h4
  have hst : Stored w'.repo.log r (.blob (dumps C.floats (mrrJson id v dlm ft))) := by
    have hl : w'.repo.log = _ := (congrArg Repo.log he).trans h5
    rw [hl]
    exact List.mem_cons_self ..
  refine ⟨dlm, ft, ?_⟩
  unfold fetch
  rw [isNone_hash (C.valid _)]
  simp only [Bool.false_eq_true, if_false]
  rw [if_pos (show Kind.mrr.accepts c!"MetadataRootRecord" = true from accepts_name .mrr)]
  simp only [decode]
  rw [jsonAt_stored hc (wf_mrrJson ..) hst]
  rfl

/-- C50: the identifier and the version of a root record that is written, by any process in any state
and with any failures, are read back from the returned reference. -/
theorem C50_record_partial {n : Nat} {force : Bool} {i : ObjId} {w w' : World} {ref : Ref} {u : Uuid} {v : Str} (hr : r ≠ [])
    (hm : (w.heap i).mapped = true) (hb : (w.heap i).body.data = .mrr (some u) (some v))
    (hs : r ∉ (w.heap i).savedOn ∨ force = true)
    (h : writeOut C (n + 1) (some r) force i w = (.ok ref, w')) (hc : CollisionFree C w'.repo.log) :
    ∃ ks, fetch C w'.repo.log r .mrr ref = .ok ⟨.mrr (some u) (some v), ks⟩ := by
  obtain ⟨d, f, hf⟩ := record_read hr hm hb hs h hc
  rw [hf]
  exact mrrFromJson_any (some u) (some v) d f

/-- C50 is false for absent values: a record without version is read back with the version `"None"`,
and a record without identifier cannot be read back at all. -/
theorem C50_absent_false {n : Nat} {force : Bool} {i : ObjId} {w w' : World} {ref : Ref} {id : Option Uuid} {v : Option Str}
    (hr : r ≠ []) (hm : (w.heap i).mapped = true) (hb : (w.heap i).body.data = .mrr id v)
    (hs : r ∉ (w.heap i).savedOn ∨ force = true)
    (h : writeOut C (n + 1) (some r) force i w = (.ok ref, w')) (hc : CollisionFree C w'.repo.log) :
    (id = none → fetch C w'.repo.log r .mrr ref = .error .value) ∧
    (v = none → ∀ b, fetch C w'.repo.log r .mrr ref = .ok b → b.data = .mrr id (some c!"None")) := by
  obtain ⟨d, f, hf⟩ := record_read hr hm hb hs h hc
  rw [hf]
  constructor
  · rintro rfl; exact mrrFromJson_any none v d f
  · rintro rfl b hb
    cases id with
    | none => rw [mrrFromJson_any none none d f] at hb; cases hb
    | some u =>
      obtain ⟨ks, hk⟩ := mrrFromJson_any (some u) none d f
      rw [hk] at hb
      cases hb; rfl

/-- C50: whoever wrote a root record, its identifier is the one in the JSON text, and its version is the one
there, or absent if that is `null`. -/
theorem C50_foreign {L : Log} {loc : Str} {b : Body Link} (h : decode C L r .mrr loc = .ok b) :
    ∃ j id u v, jsonAt C L r loc = .ok j ∧ j.item c!"dataset_identifier" = .ok (.str id) ∧ Uuid.parse id = .ok u ∧
      b.data = .mrr (some u) v ∧
      ((v = none ∧ j.item c!"dataset_version" = .ok .null) ∨ ∃ s, v = some s ∧ j.item c!"dataset_version" = .ok (.str s)) := by
  simp only [decode] at h
  obtain ⟨j, hj, h⟩ := ok_bind h
  unfold mrrFromJson at h
  obtain ⟨_, _, h⟩ := ok_bind h
  obtain ⟨_, _, h⟩ := ok_bind h
  obtain ⟨_, _, h⟩ := ok_bind h
  obtain ⟨_, _, h⟩ := ok_bind h
  obtain ⟨id, hi, h⟩ := ok_bind h
  obtain ⟨u, hu, h⟩ := ok_bind h
  obtain ⟨vj, hvj, h⟩ := ok_bind h
  obtain ⟨v, hv, h⟩ := ok_bind h
  cases h
  refine ⟨j, id, u, v, hj, ?_, hu, rfl, ?_⟩
  · unfold strItem at hi
    obtain ⟨x, hx, hi⟩ := ok_bind hi
    cases x <;> cases hi
    exact hx
  · cases vj <;> cases hv
    · exact Or.inl ⟨rfl, hvj⟩
    · exact Or.inr ⟨_, rfl, hvj⟩

/-! ### Cases -/

/-- Two texts, and root records with and without identifier and version -/
def storedBodies : List (Body ObjId) :=
  [⟨.text (some c!"first\nsecond"), []⟩, ⟨.text (some c!"first\nsecond\n"), []⟩,
   ⟨.mrr (some sampleUuid) (some c!"v1"), []⟩, ⟨.mrr (some sampleUuid) none, []⟩, ⟨.mrr none (some c!"v1"), []⟩]

def storedWorld : World := populate (start ⟨[], []⟩) storedBodies

/-- Writing an object of the example -/
def storedWrite (i : ObjId) : Except PyErr Ref × World := writeOut sampleCfg 3 (some sampleRealm) false i storedWorld

/-- A text without final newline survives. -/
example : fetch sampleCfg (storedWrite 0).2.repo.log sampleRealm .text (okRef (storedWrite 0)) =
    .ok ⟨.text (some c!"first\nsecond"), []⟩ :=
  (C49_text (n := 2) (force := false) (i := 0) (w := storedWorld) (by decide) rfl rfl (.inl (by decide))
    (of_isOk (by decide +kernel)) (collisionFree_of_check (by decide +kernel))).mpr (by decide)

/-- A text with a final newline does not survive. -/
theorem C49_text_false : fetch sampleCfg (storedWrite 1).2.repo.log sampleRealm .text (okRef (storedWrite 1)) ≠
    .ok ⟨.text (some c!"first\nsecond\n"), []⟩ := fun h =>
  absurd ((C49_text (n := 2) (force := false) (i := 1) (w := storedWorld) (by decide) rfl rfl (.inl (by decide))
    (of_isOk (by decide +kernel)) (collisionFree_of_check (by decide +kernel))).mp h).2 (by decide)

example : ∃ ks, fetch sampleCfg (storedWrite 2).2.repo.log sampleRealm .mrr (okRef (storedWrite 2)) =
    .ok ⟨.mrr (some sampleUuid) (some c!"v1"), ks⟩ :=
  C50_record_partial (n := 2) (force := false) (i := 2) (w := storedWorld) (by decide) rfl rfl (.inl (by decide))
    (of_isOk (by decide +kernel)) (collisionFree_of_check (by decide +kernel))

example : ∀ b, fetch sampleCfg (storedWrite 3).2.repo.log sampleRealm .mrr (okRef (storedWrite 3)) = .ok b →
    b.data = .mrr (some sampleUuid) (some c!"None") :=
  (C50_absent_false (n := 2) (force := false) (i := 3) (w := storedWorld) (by decide) rfl rfl (.inl (by decide))
    (of_isOk (by decide +kernel)) (collisionFree_of_check (by decide +kernel))).2 rfl

example : fetch sampleCfg (storedWrite 4).2.repo.log sampleRealm .mrr (okRef (storedWrite 4)) = .error .value :=
  (C50_absent_false (n := 2) (force := false) (i := 4) (w := storedWorld) (by decide) rfl rfl (.inl (by decide))
    (of_isOk (by decide +kernel)) (collisionFree_of_check (by decide +kernel))).1 rfl

/-- A root record as another program may write it -/
def foreignRecord : Str :=
  dumps FloatText.sample (.obj [(c!"dataset_version", .null), (c!"dataset_identifier", .str sampleUuid.str),
    (c!"file_tree", (Ref.noneRef c!"Metadata").toJson), (c!"dataset_level_metadata", (Ref.noneRef c!"Metadata").toJson)])

def foreignRead : Except PyErr (Body Link) :=
  decode sampleCfg [.save sampleRealm (.blob foreignRecord)] sampleRealm .mrr (sampleHash (.blob foreignRecord))

/-- It is read, and has no version. -/
example : ∃ b u, foreignRead = .ok b ∧ b.data = .mrr (some u) none := by
  have h : (match foreignRead with | .ok ⟨.mrr (some _) none, _⟩ => true | _ => false) = true := by decide +kernel
  split at h
  · rename_i u ks hx; exact ⟨_, u, hx, rfl⟩
  · cases h

end MM
