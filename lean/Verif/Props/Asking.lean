/-
C69 and C70: questions to objects that are not loaded, and membership of paths in trees.
-/
import Verif.Asking
import Verif.Props.Maps
import Verif.Props.FileTree
import Verif.Props.Compare

namespace MM

variable {C : Cfg}

/-! ### C69 -/

/-- Objects that are not loaded hold no parts, and no metadata. -/
def Bare (w : World) : Prop := ∀ j, (w.heap j).mapped = false → (w.heap j).body.kids = [] ∧
  ((w.heap j).kind = .metadata → (w.heap j).body.data = .metadata [])

theorem Bare.unload {w : World} (h : Bare w) (i : ObjId) : Bare (unload i w) := by
  intro j hj
  by_cases hji : j = i
  · subst hji
    unfold MM.unload
    refine ⟨by simp [Body.purged], fun hk => ?_⟩
    simp only [Heap.set_self, Obj.kind, Body.purged] at hk ⊢
    revert hk
    cases (w.heap j).body.data <;> simp [Data.kind, Data.purged]
  · have e : (MM.unload i w).heap j = w.heap j := Heap.set_ne hji
    rw [e] at hj ⊢
    exact h j hj

theorem purge_keepsBare (n : Nat) : ∀ (i : ObjId), M.Keeps (purge n i) fun w w' => Bare w → Bare w' := by
  induction n with
  | zero => intro i w h; exact h
  | succ n ih =>
    intro i w hb
    show Bare (purge (n + 1) i w).2
    unfold purge
    rw [M.bind_of_ok (getObj_run i w)]
    by_cases hm : (w.heap i).mapped = true
    · rw [if_pos hm]
      by_cases hs : (w.heap i).savedOn = []
      · rw [if_pos hs]; exact hb
      · rw [if_neg hs]
        split
        · exact hb
        · have hk := M.Keeps.forEach (R := fun w w' => Bare w → Bare w') (fun _ h => h)
            (fun _ _ _ h1 h2 h => h2 (h1 h)) (f := purge n) (l := (w.heap i).body.subs) (fun k _ => ih k) w
          cases hf : M.forEach (purge n) (w.heap i).body.subs w with
          | mk res w1 =>
            rw [hf] at hk
            cases res with
            | error e => rw [M.bind_of_error hf]; exact hk hb
            | ok l =>
              rw [M.bind_of_ok hf, updObj_run]
              exact (hk hb).unload i
    · rw [if_neg hm]; exact hb

theorem bare_link (r : Realm) (l : Link) : (l.obj r).body.kids = [] ∧
    ((l.obj r).kind = .metadata → (l.obj r).body.data = .metadata []) := by
  refine ⟨rfl, fun h => ?_⟩
  unfold Link.obj Obj.kind Body.empty at *
  cases hk : l.kind <;> rw [hk] at h <;> first | rfl | cases h

theorem ensureMapped_keepsBare {i : ObjId} {w : World} (h : Bare w) : Bare (ensureMapped C i w).2 := by
  by_cases hm : (w.heap i).mapped = true
  · rw [ensureMapped_mapped hm]; exact h
  · have hc := ensureMapped_cases C i w (by simpa using hm)
    intro j hj
    generalize (ensureMapped C i w).2 = w' at hc hj ⊢
    generalize (ensureMapped C i w).1 = res at hc
    cases hc with
    | failed e e1 _ _ _ => rw [e1] at hj ⊢; exact h j hj
    | none r ref _ _ _ _ _ _ _ e1 =>
      rw [e1] at hj ⊢
      by_cases hji : j = i
      · subst hji; simp at hj
      · rw [Heap.set_ne hji] at hj ⊢; exact h j hj
    | read r ref loc b is so _ _ _ _ _ _ _ _ _ _ e1 e2 _ e3 _ e4 _ =>
      by_cases hji : j = i
      · subst hji; rw [e4] at hj; cases hj
      · by_cases h1 : j < w.next
        · rw [e1 j hji h1] at hj ⊢; exact h j hj
        · by_cases h2 : j < w'.next
          · obtain ⟨e, _, he⟩ := e3 j hji (by oomega) h2
            rw [he]
            exact bare_link r e.2.2
          · rw [e2 j hji (by oomega)] at hj ⊢; exact h j hj

/-- After any reading and purging. -/
theorem Visits.bare {r : Realm} {w0 w : World} (h : Visits C r w0 w) (h0 : Bare w0) : Bare w := by
  induction h with
  | refl => exact h0
  | read i _ _ ih => exact ensureMapped_keepsBare ih
  | purge n i _ _ _ ih => exact purge_keepsBare n i _ ih

theorem bare_of_loaded {w : World} (h : ∀ j, (w.heap j).mapped = true) : Bare w :=
  fun j hj => by rw [h j] at hj; cases hj

/-- C69 for loaded lists: `len` is the number of the entries. -/
theorem C69_length_partial {w : World} (hs : Fine C w) {i : ObjId} (hm : (w.heap i).mapped = true) (hk : IsList w i) :
    ∃ l : List (Str × PPath), l.Nodup ∧
      (∀ v p, (v, p) ∈ l ↔ look C w.repo.log w.heap [.ver v p] [] (.mem i) ≠ .absent) ∧
      vlen i w = (.ok l.length, w) := by
  have hf := hs.formed i hm
  refine ⟨(w.heap i).body.kids.filterMap fun e => e.1.verPath, nodup_verPaths hf.keys, fun v p => ?_, ?_⟩
  · rw [mem_verPaths, look_entry hs hm (by simp)]
  · unfold vlen
    rw [M.bind_of_ok (getObj_run i w)]
    have hall : ∀ l : List (Key × (Str × ObjId)), (∀ e ∈ l, ∃ v p, e.1 = .ver v p) →
        (l.filterMap fun e => e.1.verPath).length = l.length := by
      intro l
      induction l with
      | nil => intro _; rfl
      | cons e l ih =>
        intro h
        obtain ⟨v, p, he⟩ := h e (by simp)
        rw [List.filterMap_cons_some (b := (v, p)) (by rw [he]; rfl), List.length_cons, List.length_cons,
          ih fun x hx => h x (List.mem_cons_of_mem _ hx)]
    rw [hall]
    · rfl
    · intro e he
      have hfit := hf.fits e he
      have hkd : (w.heap i).body.data.kind = .vlist ∨ (w.heap i).body.data.kind = .tvl := hk
      cases hkey : e.1 with
      | ver v p => exact ⟨v, p, rfl⟩
      | _ => rcases hkd with hkd | hkd <;> rw [hkey, hkd] at hfit <;> cases hfit

/-- C69 does not hold: in a process that began with loaded objects and read and purged any of them, the length of
every list that is not loaded is zero, whatever it holds. -/
theorem C69_length_false {r : Realm} {w0 w : World} (h0 : ∀ j, (w0.heap j).mapped = true) (h : Visits C r w0 w)
    {i : ObjId} (hm : (w.heap i).mapped = false) : vlen i w = (.ok 0, w) := by
  unfold vlen
  rw [M.bind_of_ok (getObj_run i w), (h.bare (bare_of_loaded h0) i hm).1]
  rfl

/-- C69 does not hold: the length of a list that is known by a reference is zero, whatever is stored. -/
theorem C69_length_stored (w : World) (r : Realm) (l : Link) :
    (vlen w.next (create (l.obj r) w)).1 = .ok 0 := by
  unfold vlen
  rw [M.bind_of_ok (getObj_run _ _), create_self]
  rfl

/-- C69 for loaded objects: the comparison is that of what the objects hold (see C65 for what it means). -/
theorem C69_equal_partial {w : World} {i j : ObjId} (hi : (w.heap i).mapped = true)
    (hj : (w.heap j).mapped = true) {a b : Sets} {x y : Bool}
    (ha : look C w.repo.log w.heap [] [] (.mem i) = .found [] (.metadata a) x)
    (hb : look C w.repo.log w.heap [] [] (.mem j) = .found [] (.metadata b) y) :
    metadataEq i j w = (if i = j then .ok true else a.eq b, w) := by
  rw [look_self hi] at ha
  rw [look_self hj] at hb
  injection ha with _ ha _
  injection hb with _ hb _
  unfold metadataEq
  rw [M.bind_of_ok (getObj_run i w), M.bind_of_ok (getObj_run j w), ha, hb]
  simp only
  split
  · rfl
  · cases a.eq b <;> rfl

/-- C69 does not hold: in such a process two metadata objects that are not loaded are equal, whatever they hold,
and a loaded one is equal to one that is not loaded only if it holds nothing. -/
theorem C69_equal_false {r : Realm} {w0 w : World} (h0 : ∀ j, (w0.heap j).mapped = true) (h : Visits C r w0 w)
    {i j : ObjId} (hk : (w.heap i).kind = .metadata) (hm : (w.heap i).mapped = false)
    (hk' : (w.heap j).kind = .metadata) :
    ((w.heap j).mapped = false → metadataEq i j w = (.ok true, w)) ∧
    ((w.heap j).mapped = true → ∀ b x, look C w.repo.log w.heap [] [] (.mem j) = .found [] (.metadata b) x →
      metadataEq j i w = (.ok b.isEmpty, w)) := by
  have hb := h.bare (bare_of_loaded h0)
  have di := (hb i hm).2 hk
  refine ⟨fun hmj => ?_, fun hmj b x hl => ?_⟩
  · have dj := (hb j hmj).2 hk'
    unfold metadataEq
    rw [M.bind_of_ok (getObj_run i w), M.bind_of_ok (getObj_run j w), di, dj]
    simp only
    split <;> rfl
  · rw [look_self hmj] at hl
    injection hl with _ hl _
    have hne : j ≠ i := fun e => by subst e; rw [hm] at hmj; cases hmj
    unfold metadataEq
    rw [M.bind_of_ok (getObj_run j w), M.bind_of_ok (getObj_run i w), di, hl]
    simp only
    rw [if_neg hne]
    cases b <;> rfl

/-- C69 for loaded objects: the JSON text is that of what the object holds, and parsing it gives that back. -/
theorem C69_json_partial {w : World} {i : ObjId} (hi : (w.heap i).mapped = true) {a : Sets} {x : Bool}
    (ha : look C w.repo.log w.heap [] [] (.mem i) = .found [] (.metadata a) x) (hw : a.WF) :
    ∃ t, metadataJson C i w = (.ok t, w) ∧ Sets.fromText C.floats t = .ok a := by
  rw [look_self hi] at ha
  injection ha with _ ha _
  refine ⟨a.toText C.floats, ?_, Sets.fromText_toText C.floats a hw⟩
  unfold metadataJson
  rw [M.bind_of_ok (getObj_run i w), ha]
  rfl

/-- C69 does not hold: in a process as above, the JSON text of every metadata object that is not loaded is that of
empty metadata, whatever it holds. -/
theorem C69_json_false {r : Realm} {w0 w : World} (h0 : ∀ j, (w0.heap j).mapped = true) (h : Visits C r w0 w)
    {i : ObjId} (hk : (w.heap i).kind = .metadata) (hm : (w.heap i).mapped = false) :
    ∃ t, metadataJson C i w = (.ok t, w) ∧ Sets.fromText C.floats t = .ok [] := by
  refine ⟨Sets.toText C.floats [], ?_, Sets.fromText_toText C.floats [] ?_⟩
  · unfold metadataJson
    rw [M.bind_of_ok (getObj_run i w), (h.bare (bare_of_loaded h0) i hm).2 hk]
    rfl
  · exact ⟨List.nodup_nil, fun p hp => by cases hp⟩

theorem populate_loaded (bs : List (Body ObjId)) : ∀ {w : World}, (∀ j, (w.heap j).mapped = true) →
    ∀ j, ((populate w bs).heap j).mapped = true := by
  induction bs with
  | nil => intro w h; exact h
  | cons b bs ih =>
    intro w h
    refine ih fun j => ?_
    unfold create
    by_cases hj : j = w.next
    · subst hj; simp [Obj.new]
    · simp only [Heap.set_ne hj]; exact h j

/-- All objects of the process that wrote the UUID set are loaded. -/
theorem setWrite_loaded (j : ObjId) : (setWrite.2.heap j).mapped = true := by
  have h := writeAs_any (C := sampleCfg) (r := sampleRealm) (by decide) .own 20 false 8 sampleWorld
  rw [setWrite_ok] at h
  rw [(h.same j).mapped]
  exact populate_loaded _ (fun _ => rfl) j

theorem forgotSet_visits : Visits sampleCfg sampleRealm setWrite.2 forgotSet :=
  Visits.purge 20 8 (.refl _) setWrite_ownName fun j _ hm => by rw [setWrite_loaded j] at hm; cases hm

/-- The hypotheses on C69 hold: the version list of the examples has an entry and length one, and length zero after
the process has forgotten it; two metadata objects differ, and are equal after the process has forgotten them, with
the same JSON text. -/
example : Fine sampleCfg setWrite.2 ∧ IsList setWrite.2 7 ∧ okVal (vlen 7 setWrite.2) = some 1 ∧
    (forgotSet.heap 7).mapped = false ∧ vlen 7 forgotSet = (.ok 0, forgotSet) ∧
    okVal (metadataEq 0 1 setWrite.2) = some false ∧ metadataEq 0 1 forgotSet = (.ok true, forgotSet) ∧
    (∃ a, look sampleCfg setWrite.2.repo.log setWrite.2.heap [] [] (.mem 0) = .found [] (.metadata a) false ∧
      a.length = 1 ∧ a.WF) ∧
    (∃ t t', metadataJson sampleCfg 0 setWrite.2 = (.ok t, setWrite.2) ∧
      metadataJson sampleCfg 0 forgotSet = (.ok t', forgotSet) ∧ t ≠ t') := by
  have h7 : (forgotSet.heap 7).mapped = false := by decide +kernel
  have h0 : (forgotSet.heap 0).mapped = false := by decide +kernel
  have h1 : (forgotSet.heap 1).mapped = false := by decide +kernel
  have k0 : (forgotSet.heap 0).kind = .metadata := by decide +kernel
  have k1 : (forgotSet.heap 1).kind = .metadata := by decide +kernel
  have hf : Fine sampleCfg setWrite.2 := Sane.fine (r := sampleRealm) (by decide) (setWrite_session.sane (by decide))
    (AllFormed.write sampleWorld_formed (by decide) setWrite_ok)
  have hl : look sampleCfg setWrite.2.repo.log setWrite.2.heap [] [] (.mem 0) =
      .found [] (.metadata (sampleSets 1)) false := by
    have h := writeAs_any (C := sampleCfg) (r := sampleRealm) (by decide) .own 20 false 8 sampleWorld
    rw [setWrite_ok] at h
    rw [look_self (setWrite_loaded 0), (h.same 0).body]
    rfl
  obtain ⟨t, ht, et⟩ := C69_json_partial (setWrite_loaded 0) hl (wf_sampleSets 1)
  obtain ⟨t', ht', et'⟩ := C69_json_false setWrite_loaded forgotSet_visits k0 h0
  refine ⟨hf, Or.inl (by decide +kernel), by decide +kernel, h7,
    C69_length_false setWrite_loaded forgotSet_visits h7, by decide +kernel,
    (C69_equal_false setWrite_loaded forgotSet_visits k0 h0 k1).1 h1, ⟨_, hl, rfl, wf_sampleSets 1⟩, t, t', ht, ht', ?_⟩
  · rintro rfl
    rw [et] at et'
    cases et'

/-! ### C70 -/

/-- What is at the place that a path leads to. -/
theorem getObjectAt_found {w w1 : World} (hs : Fine C w) {i j : ObjId} (hi : i < w.next) {p : List Str}
    (h : getObjectAt C p i w = (.ok (some j), w1)) :
    ∃ d b, look C w.repo.log w.heap (names p) [] (.mem i) = .found [] d b ∧ d.kind = (w1.heap j).kind := by
  have hl := getObjectAt_any p hs hi
  rw [h] at hl
  obtain ⟨h1, h2⟩ := getObjectAt_some p hs hi h
  have hf := hl.fine.all j [] []
  obtain ⟨b, hb⟩ := view_ok_of_look hf
  refine ⟨b.data, b.blank, ?_, view_class hb⟩
  rw [hl.content i hi (names p) [], ← List.append_nil (names p), h1.look hl.fine.plain, look_nil [] hb]

/-- C70 for `in`: a path is in a file tree or dataset tree exactly if there is anything at it, be it a node or an
element; asking changes nothing that can be read. -/
theorem C70_in_partial {w : World} (hs : Fine C w) (hf : w.repo.faults = []) {i : ObjId} (hi : i < w.next)
    (p : List Str) :
    ∃ x w', treeContains C i p w = (.ok x, w') ∧
      (x = true ↔ look C w.repo.log w.heap (names p) [] (.mem i) ≠ .absent) ∧
      (∀ j, j < w.next → SameContent C w.repo.log w.heap (.mem j) w'.repo.log w'.heap (.mem j)) := by
  obtain ⟨r, w1, h1, _⟩ := getObjectAt_total p hs hf hi
  have hl := getObjectAt_any p hs hi
  rw [h1] at hl
  refine ⟨r.isSome, w1, ?_, ?_, hl.content⟩
  · unfold treeContains
    rw [M.bind_of_ok h1]
    rfl
  · cases r with
    | none =>
      have := getObjectAt_none p hs hi h1 []
      rw [List.append_nil] at this
      simp [this]
    | some j =>
      obtain ⟨d, b, h2, _⟩ := getObjectAt_found hs hi h1
      simp [h2]

/-- C70 for `get_metadata`: `None` exactly if there is nothing at the path, the metadata if there is metadata at
the path, and an `AssertionError` if there is anything else. -/
theorem C70_get_partial {w : World} (hs : Fine C w) (hf : w.repo.faults = []) {i : ObjId} (hi : i < w.next)
    (p : List Str) :
    ∃ res w', getMetadata C i p w = (res, w') ∧
      (look C w.repo.log w.heap (names p) [] (.mem i) = .absent → res = .ok none) ∧
      (∀ d b, look C w.repo.log w.heap (names p) [] (.mem i) = .found [] d b → d.kind = .metadata →
        ∃ j, res = .ok (some j) ∧ ∃ x, look C w'.repo.log w'.heap [] [] (.mem j) = .found [] d x) ∧
      (∀ d b, look C w.repo.log w.heap (names p) [] (.mem i) = .found [] d b → d.kind ≠ .metadata →
        res = .error .assertion) ∧
      (∀ j, j < w.next → SameContent C w.repo.log w.heap (.mem j) w'.repo.log w'.heap (.mem j)) := by
  obtain ⟨r, w1, h1, hr1⟩ := getObjectAt_total p hs hf hi
  have hl := getObjectAt_any p hs hi
  rw [h1] at hl
  unfold getMetadata
  rw [M.bind_of_ok h1]
  cases r with
  | none =>
    have hn := getObjectAt_none p hs hi h1 []
    rw [List.append_nil] at hn
    refine ⟨.ok none, w1, rfl, fun _ => rfl, ?_, ?_, hl.content⟩ <;>
    · intro d b h; rw [hn] at h; cases h
  | some j =>
    obtain ⟨d, b, h2, hk⟩ := getObjectAt_found hs hi h1
    obtain ⟨h3, hj⟩ := getObjectAt_some p hs hi h1
    simp only
    rw [M.bind_of_ok (getObj_run j w1)]
    by_cases hkm : (w1.heap j).kind = .metadata
    · obtain ⟨b1, w2, h4, _⟩ := hl.fine.loads (by rw [hr1]; exact hf) j
      obtain ⟨hl2, _⟩ := hl.fine.loaded hj h4
      rw [decide_eq_true hkm, M.bind_of_ok (M.assert_true w1), M.bind_of_ok h4]
      have hall := hl.trans hl2
      refine ⟨.ok (some j), w2, rfl, ?_, ?_, ?_, hall.content⟩
      · intro h; rw [h2] at h; cases h
      · intro d' b' h' _
        refine ⟨j, rfl, b', ?_⟩
        rw [← hl2.content j hj [] [], ← h3.look hl.fine.plain [], List.append_nil, ← hl.content i hi (names p) [], h']
      · intro d' b' h' hne
        rw [h2] at h'
        cases h'
        exact absurd (hk.trans hkm) hne
    · rw [decide_eq_false hkm]
      refine ⟨.error .assertion, w1, rfl, ?_, ?_, fun _ _ _ _ => rfl, hl.content⟩
      · intro h; rw [h2] at h; cases h
      · intro d' b' h' hm
        rw [h2] at h'
        cases h'
        exact absurd (hk.symm.trans hm) hkm

/-- C70 does not hold: every path that leads only part of the way to an element is in the tree, although it has no
metadata, and asking for its metadata fails. -/
theorem C70_false {w : World} (hs : Fine C w) (hf : w.repo.faults = []) {i : ObjId} (hi : i < w.next)
    {p rest : List Str} (hr : rest ≠ [])
    (hq : look C w.repo.log w.heap (names (p ++ rest)) [] (.mem i) ≠ .absent) :
    (∃ w', treeContains C i p w = (.ok true, w')) ∧ ∃ w', getMetadata C i p w = (.error .assertion, w') := by
  obtain ⟨r, w1, h1, hr1⟩ := getObjectAt_total p hs hf hi
  have hl := getObjectAt_any p hs hi
  rw [h1] at hl
  cases r with
  | none =>
    rw [names_append] at hq
    exact absurd (getObjectAt_none p hs hi h1 (names rest)) hq
  | some j =>
    obtain ⟨h3, hj⟩ := getObjectAt_some p hs hi h1
    rw [names_append, hl.content i hi, h3.look hl.fine.plain] at hq
    have hk : (w1.heap j).kind.isMtree = true := by
      cases hk : (w1.heap j).kind.isMtree with
      | true => rfl
      | false =>
        cases rest with
        | nil => exact absurd rfl hr
        | cons n ns =>
          have hg : getObjectAt C (n :: ns) j w1 = (.ok none, w1) := by
            unfold getObjectAt
            rw [M.bind_of_ok (getObj_run j w1), if_neg (by rw [hk]; exact Bool.false_ne_true)]
            rfl
          have := getObjectAt_none (n :: ns) hl.fine hj hg []
          rw [List.append_nil] at this
          exact absurd this hq
    refine ⟨⟨w1, ?_⟩, w1, ?_⟩
    · unfold treeContains
      rw [M.bind_of_ok h1]
      rfl
    · unfold getMetadata
      rw [M.bind_of_ok h1]
      simp only
      rw [M.bind_of_ok (getObj_run j w1), decide_eq_false (by intro e; rw [e] at hk; cases hk)]
      rfl

/-- C70 for tree nodes: a path with one component is in a node exactly if the node has a child of this name. -/
theorem C70_node_partial {w : World} (hs : Fine C w) (hf : w.repo.faults = []) {i : ObjId} (hi : i < w.next)
    {n : Str} (hn : CompOk n) :
    ∃ x w', nodeContains C i ⟨[], [n]⟩ w = (.ok x, w') ∧
      (x = true ↔ look C w.repo.log w.heap (names [n]) [] (.mem i) ≠ .absent) := by
  obtain ⟨r, w1, h1, _⟩ := getChild_total hs hf i n
  obtain ⟨hl, hm, hr⟩ := getChild_ok hs hi h1
  refine ⟨r.isSome, w1, ?_, ?_⟩
  · unfold nodeContains
    rw [str_rel (by simpa using hn)]
    show ((getChild C i n >>= fun c => pure c.isSome : W Bool) w) = _
    rw [M.bind_of_ok h1]
    rfl
  · rw [hl.content i hi]
    show _ ↔ look C w1.repo.log w1.heap [.name n] [] (.mem i) ≠ .absent
    rw [look_entry hl.fine hm (by simp), hr]
    constructor
    · intro h
      cases hd : dget (w1.heap i).body.kids (.name n) with
      | none => rw [hd] at h; cases h
      | some x => exact ⟨x, mem_of_dget hd⟩
    · rintro ⟨x, hx⟩
      have := dget_isSome.mpr (List.mem_map.mpr ⟨_, hx, rfl⟩ : Key.name n ∈ dkeys (w1.heap i).body.kids)
      cases hd : dget (w1.heap i).body.kids (.name n) with
      | none => rw [hd] at this; cases this
      | some x => rfl

theorem slash_joinWith {ps : List Str} (h : 2 ≤ ps.length) : '/' ∈ joinWith '/' ps := by
  match ps, h with
  | a :: b :: ps, _ => simp [joinWith]

/-- C70 does not hold for tree nodes: no path with several components is in a node, whatever is below the node. -/
theorem C70_node_false {w : World} (hs : Fine C w) {i : ObjId} (hi : i < w.next) (hg : GoodNames C w i)
    {ps : List Str} (hp : ∀ c ∈ ps, CompOk c) (hlen : 2 ≤ ps.length) {x : Bool} {w' : World}
    (h : nodeContains C i ⟨[], ps⟩ w = (.ok x, w')) : x = false := by
  unfold nodeContains at h
  rw [str_rel hp] at h
  obtain ⟨r, w1, h1, h2⟩ := M.bind_ok h
  obtain ⟨hl, hm, hr⟩ := getChild_ok hs hi h1
  cases h2
  cases hd : dget (w'.heap i).body.kids (.name (joinWith '/' ps)) with
  | none => rw [hr, hd]; rfl
  | some c =>
    obtain ⟨t, c⟩ := c
    have hlead : Leads w'.heap i (names [joinWith '/' ps]) c := Leads.cons t c hm hd (Leads.nil c)
    obtain ⟨b, hb⟩ := view_ok_of_look (hl.fine.all c [] [])
    have hk := hg [joinWith '/' ps] b.data b.blank (by
      rw [hl.content i hi, ← List.append_nil (names [joinWith '/' ps]), hlead.look hl.fine.plain, look_nil [] hb])
      (joinWith '/' ps) (by simp)
    exact absurd (slash_joinWith hlen) hk.2.2

/-- The hypotheses on C70 hold: `a` is in the file tree with metadata at `a/b`, and asking for its metadata fails;
`c` is not in the tree; the node has the child `a`, and does not have `a/b`. -/
example : Fine sampleCfg treeWorld ∧ 3 < treeWorld.next ∧ treeWorld.repo.faults = [] ∧ GoodNames sampleCfg treeWorld 3 ∧
    okVal (treeContains sampleCfg 3 [c!"a"] treeWorld) = some true ∧
    errOf (getMetadata sampleCfg 3 [c!"a"] treeWorld) = some .assertion ∧
    okVal (getMetadata sampleCfg 3 [c!"a", c!"b"] treeWorld) = some (some 1) ∧
    okVal (treeContains sampleCfg 3 [c!"c"] treeWorld) = some false ∧
    okVal (getMetadata sampleCfg 3 [c!"c"] treeWorld) = some none ∧
    okVal (nodeContains sampleCfg 3 ⟨[], [c!"a"]⟩ treeWorld) = some true ∧
    okVal (nodeContains sampleCfg 3 ⟨[], [c!"a", c!"b"]⟩ treeWorld) = some false :=
  ⟨treeWorld_fine, by decide +kernel, by decide +kernel, treeWorld_solid.2, by decide +kernel, by decide +kernel,
    by decide +kernel, by decide +kernel, by decide +kernel, by decide +kernel, by decide +kernel⟩

end MM
