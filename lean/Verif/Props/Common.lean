/-
C35 to C39: finding and creating the root records of datasets.

`rootRecord C auto now tvl us id v pre path root rv` is a request for the root record of
the dataset `id` in version `v`, in the tree version list `tvl` and the UUID set `us`.  The
dataset tree is the one of `v` at `pre` if `path` is empty, and otherwise the one of the
version `rv` of the root dataset `root`.  `look` in `Content.lean` says what is found
under given keys of an object.
-/
import Verif.CommonWhole
import Verif.CopyLoop
import Verif.Built

namespace MM

variable {C : Cfg}

/-! ### The repository -/

/-- What is stored does not change. -/
def LogKept (w w' : World) : Prop := w'.repo.log = w.repo.log

theorem logKept_bind {α β : Type} {x : W α} {f : α → W β} (hx : M.Keeps x LogKept) (hf : ∀ a, M.Keeps (f a) LogKept) :
    M.Keeps (x >>= f) LogKept :=
  M.Keeps.bind (R := LogKept) (fun _ _ _ h1 h2 => Eq.trans h2 h1) hx hf

theorem logKept_pure {α : Type} (a : α) : M.Keeps (pure a : W α) LogKept := M.Keeps.pure (R := LogKept) (fun _ => rfl) a

theorem logKept_raise {α : Type} (e : PyErr) : M.Keeps (M.raise e : W α) LogKept := M.Keeps.raise (R := LogKept) (fun _ => rfl) e

theorem logKept_ensure (i : ObjId) : M.Keeps (ensureMapped C i) LogKept := fun w => ensureMapped_log i w

theorem logKept_get (i : ObjId) : M.Keeps (getObj i) LogKept := fun _ => rfl

theorem logKept_alloc (o : Obj) : M.Keeps (alloc o) LogKept := fun _ => rfl

theorem logKept_change (i : ObjId) (b : Body ObjId) : M.Keeps (change i b) LogKept := fun w => by
  unfold LogKept; rw [change_run]; rfl

theorem logKept_readIn (i : ObjId) : M.Keeps (readIn C i) LogKept := by
  intro w
  unfold LogKept
  by_cases hm : (w.heap i).mapped = true
  · rw [readIn_mapped hm]
  · have h := ensureMapped_log (C := C) i w
    unfold ensureMapped at h
    rw [M.bind_of_ok (getObj_run i w), if_neg hm] at h
    cases hr : readIn C i w with
    | mk r w1 =>
      cases r with
      | error e => rw [M.bind_of_error hr] at h; exact h
      | ok u => rw [M.bind_of_ok hr] at h; exact h

theorem logKept_getChild (i : ObjId) (n : Str) : M.Keeps (getChild C i n) LogKept := by
  unfold getChild
  exact logKept_bind (logKept_ensure i) fun _ => logKept_bind (logKept_get i) fun _ => logKept_pure _

theorem logKept_addChild (i : ObjId) (n : Str) (c : ObjId) : M.Keeps (addChild C i n c) LogKept := by
  unfold addChild
  refine logKept_bind (M.Keeps.assert (R := LogKept) (fun _ => rfl) _) fun _ => ?_
  refine logKept_bind (M.Keeps.assert (R := LogKept) (fun _ => rfl) _) fun _ => ?_
  refine logKept_bind (logKept_ensure i) fun _ => logKept_bind (logKept_get i) fun o => ?_
  cases dget o.body.kids (.name n) with
  | some _ => exact logKept_raise _
  | none => exact logKept_change _ _

theorem logKept_addChildAt (c : ObjId) (path : List Str) : ∀ i, M.Keeps (addChildAt C c path i) LogKept := by
  induction path with
  | nil => intro i; exact logKept_raise _
  | cons n path ih =>
    intro i
    cases path with
    | nil =>
      unfold addChildAt
      refine logKept_bind (logKept_getChild i n) fun o => ?_
      cases o with
      | none => exact logKept_addChild _ _ _
      | some e =>
        refine logKept_bind (logKept_get e) fun o => ?_
        by_cases h : o.kind.isMtree = true
        · simp only [if_pos h]; exact logKept_raise _
        · simp only [if_neg h]; exact logKept_addChild _ _ _
    | cons m path =>
      unfold addChildAt
      refine logKept_bind (logKept_getChild i n) fun o => ?_
      cases o with
      | none =>
        refine logKept_bind (logKept_get i) fun o => logKept_bind (logKept_alloc _) fun e => ?_
        exact logKept_bind (logKept_addChild _ _ _) fun _ => ih e
      | some e =>
        refine logKept_bind (logKept_get e) fun o => ?_
        by_cases h : o.kind.isMtree = true
        · simp only [if_pos h]; exact ih e
        · simp only [if_neg h]; exact logKept_raise _

theorem logKept_getObjectAt (path : List Str) : ∀ i, M.Keeps (getObjectAt C path i) LogKept := by
  induction path with
  | nil => intro i; exact logKept_pure _
  | cons n path ih =>
    intro i
    unfold getObjectAt
    refine logKept_bind (logKept_get i) fun o => ?_
    by_cases h : o.kind.isMtree = true
    · simp only [if_pos h]
      refine logKept_bind (logKept_getChild i n) fun c => ?_
      cases c with
      | none => exact logKept_pure _
      | some j => exact ih j
    · simp only [if_neg h]; exact logKept_pure _

theorem logKept_setVersioned (i : ObjId) (v t : Str) (p : PPath) (x : ObjId) :
    M.Keeps (setVersioned C i v t p x) LogKept := by
  unfold setVersioned
  exact logKept_bind (logKept_ensure i) fun _ => logKept_bind (logKept_get i) fun _ => logKept_change _ _

theorem logKept_listFor (auto : Option Bool) (us : ObjId) (u : Uuid) : M.Keeps (listFor C auto us u) LogKept := by
  unfold listFor
  refine logKept_bind ?_ fun l => ?_
  · unfold uuids
    exact logKept_bind (logKept_ensure us) fun _ => logKept_bind (logKept_get us) fun _ => logKept_pure _
  · by_cases h : u ∈ l
    · simp only [if_pos h]
      refine logKept_bind ?_ fun x => logKept_pure _
      unfold getVersionList
      refine logKept_bind (logKept_ensure us) fun _ => logKept_bind (logKept_get us) fun o => ?_
      cases dget o.body.kids (.uuid u) with
      | none => exact logKept_raise _
      | some y => exact logKept_bind (logKept_readIn _) fun _ => logKept_pure _
    · simp only [if_neg h]
      by_cases hn : noCreate auto = true
      · simp only [if_pos hn]; exact logKept_pure _
      · simp only [if_neg hn]
        refine logKept_bind (logKept_alloc _) fun x => logKept_bind ?_ fun _ => logKept_pure _
        unfold setVersionList
        exact logKept_bind (fun _ => rfl) fun _ => fun _ => rfl

theorem logKept_treeFor (auto : Option Bool) (now : Str) (tvl : ObjId) (v : Str) (p : PPath) :
    M.Keeps (treeFor C auto now tvl v p) LogKept := by
  unfold treeFor
  refine logKept_bind ?_ fun l => ?_
  · unfold versionsAndPaths
    exact logKept_bind (logKept_ensure _) fun _ => logKept_bind (logKept_get _) fun _ => logKept_pure _
  · by_cases h : (v, p) ∈ l
    · simp only [if_pos h]
      refine logKept_bind ?_ fun x => logKept_pure _
      unfold getVersioned
      refine logKept_bind (logKept_ensure _) fun _ => logKept_bind (logKept_get _) fun o => ?_
      cases dget o.body.kids (.ver v p) with
      | none => exact logKept_raise _
      | some y => exact logKept_bind (logKept_readIn _) fun _ => logKept_pure _
    · simp only [if_neg h]
      by_cases hn : noCreate auto = true
      · simp only [if_pos hn]; exact logKept_pure _
      · simp only [if_neg hn]
        exact logKept_bind (logKept_alloc _) fun x => logKept_bind (logKept_setVersioned _ _ _ _ _) fun _ => logKept_pure _

theorem logKept_recordFor (auto : Option Bool) (dt : ObjId) (path : List Str) (id : Uuid) (v : Str) :
    M.Keeps (recordFor C auto dt path id v) LogKept := by
  unfold recordFor
  refine logKept_bind (logKept_get dt) fun o => ?_
  by_cases hk : (!o.kind.isMtree) = true
  · simp only [if_pos hk]; exact logKept_raise _
  · simp only [if_neg hk]
    refine logKept_bind ?_ fun b => ?_
    · unfold hasDataset
      exact logKept_bind (logKept_getObjectAt _ _) fun _ => logKept_pure _
    · cases b with
      | true =>
        simp only [if_true]
        unfold getRootRecord
        refine logKept_bind (logKept_getObjectAt _ _) fun x => ?_
        cases x with
        | none => exact logKept_pure _
        | some m =>
          refine logKept_bind (logKept_get m) fun o => ?_
          refine logKept_bind (M.Keeps.assert (R := LogKept) (fun _ => rfl) _) fun _ => ?_
          exact logKept_bind (logKept_ensure _) fun _ => logKept_pure _
      | false =>
        simp only [Bool.false_eq_true, if_false]
        by_cases hn : noCreate auto = true
        · simp only [if_pos hn]; exact logKept_pure _
        · simp only [if_neg hn]
          refine logKept_bind (logKept_alloc _) fun m => logKept_bind (logKept_alloc _) fun f => ?_
          refine logKept_bind (logKept_alloc _) fun x => logKept_bind ?_ fun _ => logKept_pure _
          exact logKept_addChildAt _ _ _

theorem logKept_entryFor (vl : ObjId) (v now : Str) (p : PPath) (x : ObjId) :
    M.Keeps (entryFor C vl v now p x) LogKept := by
  unfold entryFor
  refine logKept_bind ?_ fun l => ?_
  · unfold versionsAndPaths
    exact logKept_bind (logKept_ensure _) fun _ => logKept_bind (logKept_get _) fun _ => logKept_pure _
  · by_cases h : (v, p) ∈ l
    · simp only [if_pos h]; exact logKept_pure _
    · simp only [if_neg h]; exact logKept_setVersioned _ _ _ _ _

theorem logKept_rootRecord (auto : Option Bool) (now : Str) (tvl us : ObjId) (id : Uuid) (v : Str) (pre : PPath)
    (path : List Str) (root : Option Uuid) (rv : Option Str) :
    M.Keeps (rootRecord C auto now tvl us id v pre path root rv) LogKept := by
  have own : ∀ dt id v pre, M.Keeps (ownPart C auto now us dt id v pre path) LogKept := by
    intro dt id v pre
    unfold ownPart
    refine logKept_bind (logKept_listFor _ _ _) fun o => ?_
    cases o with
    | none => exact logKept_pure _
    | some vl =>
      refine logKept_bind (logKept_recordFor _ _ _ _ _) fun o => ?_
      cases o with
      | none => exact logKept_pure _
      | some m => exact logKept_bind (logKept_entryFor _ _ _ _ _) fun _ => logKept_pure _
  unfold rootRecord
  by_cases hp : path = []
  · rw [if_pos hp]
    refine logKept_bind (logKept_treeFor _ _ _ _ _) fun o => ?_
    cases o with
    | none => exact logKept_pure _
    | some dt => exact own _ _ _ _
  · rw [if_neg hp]
    cases root with
    | none => exact logKept_raise _
    | some u =>
      cases rv with
      | none => exact logKept_raise _
      | some rv =>
        refine logKept_bind ?_ fun o => ?_
        · unfold rootPart
          refine logKept_bind (logKept_listFor _ _ _) fun o => ?_
          cases o with
          | none => exact logKept_pure _
          | some vl =>
            refine logKept_bind (logKept_treeFor _ _ _ _ _) fun o => ?_
            cases o with
            | none => exact logKept_pure _
            | some dt =>
              refine logKept_bind (logKept_recordFor _ _ _ _ _) fun o => ?_
              cases o with
              | none => exact logKept_pure _
              | some m => exact logKept_bind (logKept_entryFor _ _ _ _ _) fun _ => logKept_pure _
        · cases o with
          | none => exact logKept_pure _
          | some dt => exact own _ _ _ _

/-- C35: no call for a root record, with or without auto-create, changes anything that is
stored in a repository, whatever the state of the process and the outcome. -/
theorem C35_repository (auto : Option Bool) (now : Str) (r : Realm) (id : Uuid) (v : Str) (pre : PPath)
    (path : List Str) (sub : Option (Uuid × Str)) (w : World) :
    (topRecord C auto now r id v pre path sub w).2.repo.log = w.repo.log := by
  refine (?_ : M.Keeps (topRecord C auto now r id v pre path sub) LogKept) w
  unfold topRecord
  have rest : ∀ t u, M.Keeps (do
      let m ← match sub with
        | some (sid, sv) => rootRecord C auto now t u sid sv pre path (some id) (some v)
        | none => rootRecord C auto now t u id v pre path none none
      pure (some (t, u), m) : W (Option (ObjId × ObjId) × Option ObjId)) LogKept := by
    intro t u
    cases sub with
    | none => exact logKept_bind (logKept_rootRecord _ _ _ _ _ _ _ _ _ _) fun _ => logKept_pure _
    | some x => exact logKept_bind (logKept_rootRecord _ _ _ _ _ _ _ _ _ _) fun _ => logKept_pure _
  refine logKept_bind ?_ fun o => ?_
  · unfold topLevel
    refine logKept_bind (logKept_alloc _) fun t => logKept_bind (logKept_alloc _) fun u => ?_
    have h : M.Keeps (do readIn C t; readIn C u; pure (some (t, u)) : W (Option (ObjId × ObjId))) LogKept :=
      logKept_bind (logKept_readIn t) fun _ => logKept_bind (logKept_readIn u) fun _ => logKept_pure _
    intro w
    have := h w
    unfold M.catchRuntime
    split
    · rename_i s' he; rw [he] at this; exact this
    · exact this
  · cases o with
    | some tu =>
      refine logKept_bind (logKept_pure _) fun o => ?_
      cases o with
      | none => exact logKept_pure _
      | some tu => exact rest _ _
    | none =>
      by_cases ha : auto = some true
      · simp only [if_pos ha]
        refine logKept_bind (logKept_alloc _) fun t => logKept_bind (logKept_alloc _) fun u => ?_
        refine logKept_bind (logKept_pure _) fun o => ?_
        cases o with
        | none => exact logKept_pure _
        | some tu => exact rest _ _
      · simp only [if_neg ha]
        refine logKept_bind (logKept_pure _) fun o => ?_
        cases o with
        | none => exact logKept_pure _
        | some tu => exact rest _ _

/-! ### What a request finds -/

/-- The elements a request needs, as they are found: the dataset tree with a record at the
path of the dataset, an entry for the dataset id, and for a sub-dataset a record of the root
dataset and an entry for its id. -/
def Elements (C : Cfg) (w : World) (tvl us : ObjId) (id : Uuid) (v : Str) (pre : PPath) (path : List Str)
    (root : Option Uuid) (rv : Option Str) : Prop :=
  ∃ tv, (if path = [] then some v else rv) = some tv ∧
    look C w.repo.log w.heap (.ver tv pre :: names (path ++ [rootRecordName])) [] (.mem tvl) ≠ .absent ∧
    look C w.repo.log w.heap [.uuid id] [] (.mem us) ≠ .absent ∧
    (path ≠ [] → look C w.repo.log w.heap [.ver tv pre, .name rootRecordName] [] (.mem tvl) ≠ .absent ∧
      ∃ u, root = some u ∧ look C w.repo.log w.heap [.uuid u] [] (.mem us) ≠ .absent)

theorem look_prefix {w : World} (hs : Fine C w) {i : ObjId} {k : Key} (hk : k ≠ .ft) (ks : List Key)
    (h : look C w.repo.log w.heap [k] [] (.mem i) = .absent) :
    look C w.repo.log w.heap (k :: ks) [] (.mem i) = .absent := by
  obtain ⟨b, hb⟩ := view_ok_of_look (hs.all i [] [])
  rw [look_cons hb] at h ⊢
  cases hd : dget b.kids k with
  | none => rfl
  | some x =>
    rw [hd] at h
    simp only at h
    exfalso
    cases hv : view C w.repo.log w.heap x.2 with
    | error e => rw [hv] at h; cases h
    | ok bv =>
      rw [hv] at h
      simp only at h
      rw [if_neg (by simp [hk]), look_nil _ hv] at h
      cases h

theorem Done.elements {w : World} (hs : Fine C w) {tvl us : ObjId} {id : Uuid} {v : Str} {pre : PPath}
    {path : List Str} {root : Option Uuid} {rv : Option Str} {m : ObjId}
    (h : Done w tvl us id v pre path root rv m) : Elements C w tvl us id v pre path root rv := by
  have key : ∀ {dt x : ObjId} {tv : Str} {q : List Str}, VerAt w tvl tv pre dt → RecordAt w dt q x →
      look C w.repo.log w.heap (.ver tv pre :: names (q ++ [rootRecordName])) [] (.mem tvl) ≠ .absent := by
    intro dt x tv q h1 h2
    obtain ⟨d, b, h3⟩ := look_here hs x []
    have h4 := h2.look hs []
    rw [List.append_nil, h3] at h4
    obtain ⟨n, ns, e⟩ := names_ne q
    rw [e] at h4 ⊢
    rw [h1.look hs, h4]
    simp
  obtain ⟨tv, dt, h1, h2, h3, h4⟩ := h
  obtain ⟨vl, y, h5, _⟩ := h3.entry
  refine ⟨tv, h1, key h2 h3.record, h5.here hs, fun hp => ?_⟩
  obtain ⟨u, m0, h6, h7⟩ := h4 hp
  obtain ⟨vl', y', h8, _⟩ := h7.entry
  exact ⟨key h2 h7.record, u, h6, h8.here hs⟩

/-- Without auto-create, nothing is returned only if something is missing. -/
theorem rootRecord_none {w : World} (hs : Sound C w) (auto : Option Bool) (now : Str) {tvl us : ObjId}
    (ht : tvl < w.next) (htk : (w.heap tvl).kind = .tvl) (hu : us < w.next)
    (huk : (w.heap us).kind = .uuidset) (id : Uuid) (v : Str) (pre : PPath) {path : List Str}
    (hp : ∀ n ∈ path, CompOk n) (root : Option Uuid) (rv : Option Str) {w' : World}
    (h : rootRecord C auto now tvl us id v pre path root rv w = (.ok none, w')) :
    noCreate auto = true ∧ ¬ Elements C w tvl us id v pre path root rv := by
  have own : ∀ {w1 : World} {dt : ObjId} {tv : Str} {p : PPath}, Sound C w1 → us < w1.next →
      (w1.heap us).kind = .uuidset → VerAt w1 tvl tv pre dt → (w1.heap tvl).kind = .tvl →
      ownPart C auto now us dt id v p path w1 = (.ok none, w') →
      noCreate auto = true ∧ (look C w1.repo.log w1.heap [.uuid id] [] (.mem us) = .absent ∨
        look C w1.repo.log w1.heap (.ver tv pre :: names (path ++ [rootRecordName])) [] (.mem tvl) = .absent) := by
    intro w1 dt tv p s1 hu1 huk1 hva htk1 h
    unfold ownPart at h
    obtain ⟨o, w2, h1, h⟩ := M.bind_ok h
    obtain ⟨s2, g2, l2, a2, n2, _, _⟩ := listFor_run s1 auto hu1 huk1 id h1
    cases o with
    | none =>
      obtain ⟨_, q1, q2⟩ := n2 rfl
      exact ⟨q1, Or.inl (Classical.byContradiction fun q => q2 q)⟩
    | some vl =>
      simp only at h
      obtain ⟨o, w3, h2, h⟩ := M.bind_ok h
      have hdt2 := Nat.lt_of_lt_of_le (hva.el_lt s1.fine) g2.grown.next
      have hk2 := (hva.grown g2.grown).treeKind s2 ((g2.grown.kind tvl hva.lt).trans htk1)
      obtain ⟨s3, g3, l3, a3, n3, _⟩ := recordFor_run s2 auto hdt2 hk2 hp id v h2
      cases o with
      | none =>
        obtain ⟨_, q1, q2⟩ := n3 rfl
        refine ⟨q1, Or.inr ?_⟩
        obtain ⟨n, ns, e⟩ := names_ne path
        rw [e] at q2 ⊢
        rw [hva.look s1.fine, (l2 q1).content dt (hva.el_lt s1.fine)]
        exact q2
      | some m =>
        simp only at h
        obtain ⟨_, w4, _, h⟩ := M.bind_ok h
        cases h
  unfold rootRecord at h
  by_cases hpe : path = []
  · rw [if_pos hpe] at h
    obtain ⟨o, w1, h1, h⟩ := M.bind_ok h
    obtain ⟨s1, g1, l1, a1, n1, _⟩ := treeFor_run hs auto now ht htk v pre h1
    cases o with
    | none =>
      obtain ⟨_, q1, q2⟩ := n1 rfl
      refine ⟨q1, ?_⟩
      rintro ⟨tv, e1, e2, _⟩
      rw [if_pos hpe] at e1
      cases e1
      exact q2 fun q => e2 (look_prefix hs.fine (by simp) _ q)
    | some dt =>
      simp only at h
      have hu1 := Nat.lt_of_lt_of_le hu g1.grown.next
      obtain ⟨q1, q2⟩ := own s1 hu1 ((g1.grown.kind us hu).trans huk) (a1 dt rfl) ((g1.grown.kind tvl ht).trans htk) h
      refine ⟨q1, ?_⟩
      rintro ⟨tv, e1, e2, e3, _⟩
      rw [if_pos hpe] at e1
      cases e1
      rw [(l1 q1).content tvl ht] at e2
      rw [(l1 q1).content us hu] at e3
      exact q2.elim e3 e2
  · rw [if_neg hpe] at h
    cases root with
    | none => cases h
    | some u =>
      cases rv with
      | none => cases h
      | some rv =>
        simp only at h
        obtain ⟨o, w1, h1, h⟩ := M.bind_ok h
        obtain ⟨p1, a1, _⟩ := rootPart_run hs auto now ht htk hu huk u rv pre h1
        cases o with
        | some dt =>
          simp only at h
          have g1 := p1.gained
          have hu1 := Nat.lt_of_lt_of_le hu g1.grown.next
          obtain ⟨q1, q2⟩ := own p1.sound hu1 ((g1.grown.kind us hu).trans huk) (a1 dt rfl).1
            ((g1.grown.kind tvl ht).trans htk) h
          refine ⟨q1, ?_⟩
          rintro ⟨tv, e1, e2, e3, _⟩
          rw [if_neg hpe] at e1
          cases e1
          rcases q2 with q2 | q2
          · have hfound : ∃ s d b, look C w.repo.log w.heap [.uuid id] [] (.mem us) = .found s d b := by
              cases hx : look C w.repo.log w.heap [.uuid id] [] (.mem us) with
              | missing => exact absurd hx (hs.fine.all us _ _)
              | absent => exact absurd hx e3
              | found s d b => exact ⟨s, d, b, rfl⟩
            obtain ⟨s, d, b, hx⟩ := hfound
            obtain ⟨b', hb, _⟩ := g1.held us hu _ _ _ _ _ hx
            rw [q2] at hb
            cases hb
          · rw [p1.same q1 tvl ht (by rw [htk]; simp) (by rw [htk]; simp)] at e2
            exact e2 q2
        | none =>
          unfold rootPart at h1
          obtain ⟨o, w2, h2, h1⟩ := M.bind_ok h1
          obtain ⟨s2, g2, l2, a2, n2, _⟩ := listFor_run hs auto hu huk u h2
          cases o with
          | none =>
            obtain ⟨_, q1, q2⟩ := n2 rfl
            refine ⟨q1, ?_⟩
            rintro ⟨tv, _, _, _, e4⟩
            obtain ⟨_, u', e5, e6⟩ := e4 hpe
            cases e5
            exact q2 e6
          | some vl =>
            simp only at h1
            obtain ⟨o, w3, h3, h1⟩ := M.bind_ok h1
            have ht2 := Nat.lt_of_lt_of_le ht g2.grown.next
            have htk2 := (g2.grown.kind tvl ht).trans htk
            obtain ⟨s3, g3, l3, a3, n3, _⟩ := treeFor_run s2 auto now ht2 htk2 rv pre h3
            cases o with
            | none =>
              obtain ⟨_, q1, q2⟩ := n3 rfl
              refine ⟨q1, ?_⟩
              rintro ⟨tv, e1, e2, _⟩
              rw [if_neg hpe] at e1
              cases e1
              refine q2 fun q => e2 (look_prefix hs.fine (by simp) _ ?_)
              rw [(l2 q1).content tvl ht]
              exact q
            | some dt =>
              simp only at h1
              obtain ⟨o, w4, h4, h1⟩ := M.bind_ok h1
              have hva := a3 dt rfl
              have hk3 := hva.treeKind s3 ((g3.grown.kind tvl ht2).trans htk2)
              obtain ⟨s4, g4, l4, a4, n4, _⟩ := recordFor_run s3 auto (hva.el_lt s3.fine) hk3 (by simp) u rv h4
              cases o with
              | none =>
                obtain ⟨_, q1, q2⟩ := n4 rfl
                refine ⟨q1, ?_⟩
                rintro ⟨tv, e1, _, _, e4⟩
                rw [if_neg hpe] at e1
                cases e1
                obtain ⟨e5, _⟩ := e4 hpe
                rw [((l2 q1).trans (l3 q1)).content tvl ht, hva.look s3.fine] at e5
                exact e5 q2
              | some m =>
                simp only at h1
                obtain ⟨_, w5, _, h1⟩ := M.bind_ok h1
                cases h1

/-! ### C35 -/

section Request

variable {w w' : World} (hs : Sound C w) (auto : Option Bool) (now : Str) {tvl us : ObjId}
  (ht : tvl < w.next) (htk : (w.heap tvl).kind = .tvl) (hu : us < w.next) (huk : (w.heap us).kind = .uuidset)
  (id : Uuid) (v : Str) (pre : PPath) {path : List Str} (hp : ∀ n ∈ path, CompOk n) (root : Option Uuid)
  (rv : Option Str)

include hs ht htk hu huk hp

/-- C35: a request without auto-create that does not fail returns a record if and only if
all elements it needs are there. -/
theorem C35_result {o : Option ObjId} (ha : auto = some false)
    (h : rootRecord C auto now tvl us id v pre path root rv w = (.ok o, w')) :
    o ≠ none ↔ Elements C w tvl us id v pre path root rv := by
  have hn : noCreate auto = true := by rw [ha]; rfl
  have hr := rootRecord_run hs auto now ht htk hu huk id v pre hp root rv h
  cases o with
  | none => exact ⟨fun q => absurd rfl q, fun q => absurd q (rootRecord_none hs auto now ht htk hu huk id v pre hp root rv h).2⟩
  | some m =>
    refine ⟨fun _ => ?_, fun _ => by simp⟩
    obtain ⟨tv, e1, e2, e3, e4⟩ := (hr.done m rfl).elements hr.part.sound.fine
    have hsame := hr.part.same hn tvl ht (by rw [htk]; simp) (by rw [htk]; simp)
    have hkey : ∀ u, look C w'.repo.log w'.heap [.uuid u] [] (.mem us) ≠ .absent →
        look C w.repo.log w.heap [.uuid u] [] (.mem us) ≠ .absent := by
      intro u q
      rcases hr.part.gained.fresh us hu _ (by simp) q with q | q
      · exact q
      · exfalso
        rcases q with q | q | q | q
        · rw [hn] at q; exact absurd q.2 (by simp)
        · rw [hn] at q; exact absurd q.2 (by simp)
        · rw [huk] at q; cases q
        · rw [hn] at q; exact absurd q.2 (by simp)
    refine ⟨tv, e1, by rw [hsame]; exact e2, hkey id e3, fun q => ?_⟩
    obtain ⟨e5, u, e6, e7⟩ := e4 q
    exact ⟨by rw [hsame]; exact e5, u, e6, hkey u e7⟩

/-- C35: the record that is returned is the one in the dataset tree. -/
theorem C35_returned {m : ObjId} (ha : auto = some false)
    (h : rootRecord C auto now tvl us id v pre path root rv w = (.ok (some m), w')) :
    ∃ tv, (if path = [] then some v else rv) = some tv ∧ ∀ ks,
      look C w.repo.log w.heap (.ver tv pre :: (names (path ++ [rootRecordName]) ++ ks)) [] (.mem tvl) =
        look C w'.repo.log w'.heap ks [] (.mem m) := by
  have hn : noCreate auto = true := by rw [ha]; rfl
  have hr := rootRecord_run hs auto now ht htk hu huk id v pre hp root rv h
  obtain ⟨tv, dt, h1, h2, h3, _⟩ := hr.done m rfl
  refine ⟨tv, h1, fun ks => ?_⟩
  have h4 := h3.record.look hr.part.sound.fine ks
  obtain ⟨n, ns, e⟩ := names_ne path
  rw [e] at h4 ⊢
  rw [hr.part.same hn tvl ht (by rw [htk]; simp) (by rw [htk]; simp), List.cons_append, h2.look hr.part.sound.fine,
    ← List.cons_append, h4]

/-- C35: when git does not fail, and the dataset trees and records of the request are
dataset trees and records, a request without auto-create does not fail; it returns nothing
if an element is missing. -/
theorem C35_missing (hf : w.repo.faults = []) (ha : auto = some false)
    (hroot : path ≠ [] → root ≠ none ∧ rv ≠ none)
    (htree : ∀ tv, (if path = [] then some v else rv) = some tv → ∀ s d b,
      look C w.repo.log w.heap [.ver tv pre] [] (.mem tvl) = .found s d b → d.kind = .mtree .mrr)
    (hrec : ∀ tv, (if path = [] then some v else rv) = some tv → ∀ q, q = path ∨ q = [] → ∀ s d b,
      look C w.repo.log w.heap (.ver tv pre :: names (q ++ [rootRecordName])) [] (.mem tvl) = .found s d b →
      d.kind = .mrr) :
    (Elements C w tvl us id v pre path root rv →
      ∃ m w', rootRecord C auto now tvl us id v pre path root rv w = (.ok (some m), w')) ∧
    (¬ Elements C w tvl us id v pre path root rv →
      ∃ w', rootRecord C auto now tvl us id v pre path root rv w = (.ok none, w')) := by
  have hn : noCreate auto = true := by rw [ha]; rfl
  obtain ⟨o, w', h⟩ := rootRecord_total hs hf hn now ht htk hu huk id v pre hp hroot htree hrec
  have hiff := C35_result hs auto now ht htk hu huk id v pre hp root rv ha h
  cases o with
  | none => exact ⟨fun q => absurd rfl (hiff.mpr q), fun _ => ⟨w', h⟩⟩
  | some m => exact ⟨fun _ => ⟨m, w', h⟩, fun q => absurd (hiff.mp (by simp)) q⟩

/-- C35, for what a request without auto-create does, in every outcome: the tree version
list and all objects other than version lists and UUID sets are as they were, the UUID set
has the same dataset ids, and everything that was found is still found.  Missing: the
version lists are as they were, which `C35_false` refutes. -/
theorem C35_unchanged_partial {r : Except PyErr (Option ObjId)} (ha : auto = some false)
    (h : rootRecord C auto now tvl us id v pre path root rv w = (r, w')) :
    SameContent C w.repo.log w.heap (.mem tvl) w'.repo.log w'.heap (.mem tvl) ∧
      (∀ j, j < w.next → (w.heap j).kind ≠ .vlist → (w.heap j).kind ≠ .uuidset →
        SameContent C w.repo.log w.heap (.mem j) w'.repo.log w'.heap (.mem j)) ∧
      (∀ u, look C w'.repo.log w'.heap [.uuid u] [] (.mem us) ≠ .absent ↔
        look C w.repo.log w.heap [.uuid u] [] (.mem us) ≠ .absent) ∧
      (∀ j, j < w.next → ∀ ks t s d b, look C w.repo.log w.heap ks t (.mem j) = .found s d b →
        ∃ b', look C w'.repo.log w'.heap ks t (.mem j) = .found s d b') ∧
      w'.repo.log = w.repo.log := by
  have hn : noCreate auto = true := by rw [ha]; rfl
  have hr := rootRecord_run hs auto now ht htk hu huk id v pre hp root rv h
  refine ⟨hr.part.same hn tvl ht (by rw [htk]; simp) (by rw [htk]; simp), hr.part.same hn, fun u => ⟨fun q => ?_, fun q => ?_⟩,
    fun j hj ks t s d b hx => ?_, hr.part.gained.grown.log⟩
  · rcases hr.part.gained.fresh us hu _ (by simp) q with q | q
    · exact q
    · exfalso
      rcases q with q | q | q | q
      · rw [hn] at q; exact absurd q.2 (by simp)
      · rw [hn] at q; exact absurd q.2 (by simp)
      · rw [huk] at q; cases q
      · rw [hn] at q; exact absurd q.2 (by simp)
  · cases hx : look C w.repo.log w.heap [.uuid u] [] (.mem us) with
    | missing => exact absurd hx (hs.fine.all us _ _)
    | absent => exact absurd hx q
    | found s d b =>
      obtain ⟨b', hb, _⟩ := hr.part.gained.held us hu _ _ _ _ _ hx
      rw [hb]; simp
  · obtain ⟨b', hb, _⟩ := hr.part.gained.held j hj _ _ _ _ _ hx
    exact ⟨b', hb⟩

/-- C35: nothing at all is changed by a request without auto-create, in every outcome, if
the version lists have entries for the records that the request passes. -/
theorem C35_unchanged {r : Except PyErr (Option ObjId)} (ha : auto = some false)
    (hown : ∀ tv, (if path = [] then some v else rv) = some tv →
      look C w.repo.log w.heap (.ver tv pre :: names (path ++ [rootRecordName])) [] (.mem tvl) ≠ .absent →
      look C w.repo.log w.heap [.uuid id] [] (.mem us) ≠ .absent →
      look C w.repo.log w.heap [.uuid id, .ver v (if path = [] then pre else metadataPath [[]])] [] (.mem us) ≠ .absent)
    (hroot : ∀ tv u, path ≠ [] → rv = some tv → root = some u →
      look C w.repo.log w.heap [.ver tv pre, .name rootRecordName] [] (.mem tvl) ≠ .absent →
      look C w.repo.log w.heap [.uuid u] [] (.mem us) ≠ .absent →
      look C w.repo.log w.heap [.uuid u, .ver tv pre] [] (.mem us) ≠ .absent)
    (h : rootRecord C auto now tvl us id v pre path root rv w = (r, w')) :
    ∀ j, j < w.next → SameContent C w.repo.log w.heap (.mem j) w'.repo.log w'.heap (.mem j) := by
  have hn : noCreate auto = true := by rw [ha]; rfl
  have hr := rootRecord_run hs auto now ht htk hu huk id v pre hp root rv h
  refine (hr.only hn fun tv htv => ⟨?_, fun u hpe hu' => ?_⟩).content
  · by_cases h1 : look C w.repo.log w.heap (.ver tv pre :: names (path ++ [rootRecordName])) [] (.mem tvl) = .absent
    · exact Or.inr (Or.inr h1)
    · by_cases h2 : look C w.repo.log w.heap [.uuid id] [] (.mem us) = .absent
      · exact Or.inr (Or.inl fun q => q h2)
      · exact Or.inl (hown tv htv h1 h2)
  · have htv' : rv = some tv := by unfold treeVersion at htv; rw [if_neg hpe] at htv; exact htv
    by_cases h1 : look C w.repo.log w.heap [.ver tv pre, .name rootRecordName] [] (.mem tvl) = .absent
    · exact Or.inr (Or.inr h1)
    · by_cases h2 : look C w.repo.log w.heap [.uuid u] [] (.mem us) = .absent
      · exact Or.inr (Or.inl fun q => q h2)
      · exact Or.inl (hroot tv u hpe htv' hu' h1 h2)

omit hs ht htk hu huk hp in
/-- C35: a request with `auto_create=None` is answered as one with `auto_create=True`, in every
state; only in `get_top_nodes_and_metadata_root_record` they differ, see `C35_none_top`. -/
theorem C35_none (w : World) :
    rootRecord C none now tvl us id v pre path root rv w =
      rootRecord C (some true) now tvl us id v pre path root rv w := rfl

omit hs ht htk hu huk hp in
/-- C35: `get_top_nodes_and_metadata_root_record` returns nothing when the top-level objects of
the repository cannot be read, unless `auto_create` is `True`: `None` is like `False` there. -/
theorem C35_none_top {r : Realm} (sub : Option (Uuid × Str)) (ha : auto ≠ some true)
    (h : topLevel C r w = (.ok none, w')) :
    topRecord C auto now r id v pre path sub w = (.ok (none, none), w') := by
  unfold topRecord
  rw [M.bind_of_ok h]
  simp only [if_neg ha]
  rfl

/-! ### C36 -/

/-- C36: a request for which `auto_create` is not `False` and that does not fail returns a record,
in every state. -/
theorem C36_created {o : Option ObjId} (ha : auto ≠ some false)
    (h : rootRecord C auto now tvl us id v pre path root rv w = (.ok o, w')) : ∃ m, o = some m := by
  cases o with
  | some m => exact ⟨m, rfl⟩
  | none =>
    have := (rootRecord_none hs auto now ht htk hu huk id v pre hp root rv h).1
    simp [noCreate, ha] at this

/-- C36: after a request that returned a record, the same request returns the same record
and changes nothing, with and without auto-create, at any later time, and also after
further records were requested in between. -/
theorem C36_again {m : ObjId} (h : rootRecord C auto now tvl us id v pre path root rv w = (.ok (some m), w'))
    (auto' : Option Bool) (now' : Str) :
    rootRecord C auto' now' tvl us id v pre path root rv w' = (.ok (some m), w') ∧
      ∀ auto2 now2 id2 v2 pre2 path2 root2 rv2 r2 w2, (∀ n ∈ path2, CompOk n) →
        rootRecord C auto2 now2 tvl us id2 v2 pre2 path2 root2 rv2 w' = (r2, w2) →
        rootRecord C auto' now' tvl us id v pre path root rv w2 = (.ok (some m), w2) := by
  have hr := rootRecord_run hs auto now ht htk hu huk id v pre hp root rv h
  have hd := hr.done m rfl
  refine ⟨rootRecord_at hr.part.sound.fine auto' now' hd, ?_⟩
  intro auto2 now2 id2 v2 pre2 path2 root2 rv2 r2 w2 hp2 h2
  have g := hr.part.gained.grown
  have hr2 := rootRecord_run hr.part.sound auto2 now2 (Nat.lt_of_lt_of_le ht g.next) ((g.kind tvl ht).trans htk)
    (Nat.lt_of_lt_of_le hu g.next) ((g.kind us hu).trans huk) id2 v2 pre2 hp2 root2 rv2 h2
  exact rootRecord_at hr2.part.sound.fine auto' now' (hd.grown hr.part.sound.fine hr2.part.gained.grown)

/-- C36: a request, with or without auto-create and in every outcome, keeps everything that
is found in any object under any keys, with its data and time stamp. -/
theorem C36_kept {r : Except PyErr (Option ObjId)}
    (h : rootRecord C auto now tvl us id v pre path root rv w = (r, w')) :
    ∀ j, j < w.next → ∀ ks t s d b, look C w.repo.log w.heap ks t (.mem j) = .found s d b →
      ∃ b', look C w'.repo.log w'.heap ks t (.mem j) = .found s d b' := by
  have hr := rootRecord_run hs auto now ht htk hu huk id v pre hp root rv h
  intro j hj ks t s d b hx
  obtain ⟨b', hb, _⟩ := hr.part.gained.held j hj _ _ _ _ _ hx
  exact ⟨b', hb⟩

/-- C36: the only version and path that may be new in the tree version list is the one of
the request, and the only dataset ids that may be new in the UUID set are those of the
request. -/
theorem C36_new {r : Except PyErr (Option ObjId)}
    (h : rootRecord C auto now tvl us id v pre path root rv w = (r, w')) :
    (∀ v2 p2, look C w'.repo.log w'.heap [.ver v2 p2] [] (.mem tvl) ≠ .absent →
      look C w.repo.log w.heap [.ver v2 p2] [] (.mem tvl) ≠ .absent ∨
        ((if path = [] then some v else rv) = some v2 ∧ p2 = pre)) ∧
    (∀ u, look C w'.repo.log w'.heap [.uuid u] [] (.mem us) ≠ .absent →
      look C w.repo.log w.heap [.uuid u] [] (.mem us) ≠ .absent ∨ u = id ∨ root = some u) := by
  have hr := rootRecord_run hs auto now ht htk hu huk id v pre hp root rv h
  have hne : tvl ≠ us := by rintro rfl; rw [htk] at huk; cases huk
  refine ⟨fun v2 p2 q => ?_, fun u q => ?_⟩
  · refine (hr.part.gained.fresh tvl ht _ (by simp) q).imp (fun q => q) fun q => ?_
    rcases q with ⟨⟨_, tv, q1, q2⟩, _⟩ | ⟨⟨q, _⟩, _⟩ | q | ⟨q, _⟩
    · injection q2 with q2 q3
      subst q2; exact ⟨q1, q3⟩
    · exact absurd q hne
    · rw [htk] at q; cases q
    · rw [htk] at q; exact absurd q (by simp [Kind.isMtree])
  · refine (hr.part.gained.fresh us hu _ (by simp) q).imp (fun q => q) fun q => ?_
    rcases q with ⟨⟨q, _⟩, _⟩ | ⟨⟨_, q | ⟨u', q1, q2⟩⟩, _⟩ | q | ⟨q, _⟩
    · exact absurd q.symm hne
    · injection q with q; exact Or.inl q
    · injection q2 with q2; subst q2; exact Or.inr q1
    · rw [huk] at q; cases q
    · rw [huk] at q; exact absurd q (by simp [Kind.isMtree])

/-! ### C37 -/

/-- C37, for records that are created: they carry the dataset id and version of the request.
Missing: a record that was there before carries them, too, which `C37_false` refutes. -/
theorem C37_created_partial {m : ObjId} {tv : Str} (htv : (if path = [] then some v else rv) = some tv)
    (hnone : look C w.repo.log w.heap (.ver tv pre :: names (path ++ [rootRecordName])) [] (.mem tvl) = .absent)
    (h : rootRecord C auto now tvl us id v pre path root rv w = (.ok (some m), w')) :
    (w'.heap m).mapped = true ∧ (w'.heap m).body.data = .mrr (some id) (some v) := by
  have hr := rootRecord_run hs auto now ht htk hu huk id v pre hp root rv h
  obtain ⟨tv', dt, _, _, h3, _⟩ := hr.done m rfl
  exact ⟨h3.record.mapped, (hr.made tv htv hnone m rfl).1⟩

/-- C37, for records that were there: the returned record carries what the record in the
dataset tree carried before the request. -/
theorem C37_stored_partial {m : ObjId} {tv : Str} (htv : (if path = [] then some v else rv) = some tv)
    {s : Str} {d : Data} {b : Bool}
    (hsome : look C w.repo.log w.heap (.ver tv pre :: names (path ++ [rootRecordName])) [] (.mem tvl) = .found s d b)
    (h : rootRecord C auto now tvl us id v pre path root rv w = (.ok (some m), w')) :
    (w'.heap m).mapped = true ∧ (w'.heap m).body.data = d := by
  have hr := rootRecord_run hs auto now ht htk hu huk id v pre hp root rv h
  obtain ⟨tv', dt, h1, h2, h3, _⟩ := hr.done m rfl
  have : tv' = tv := by
    have : some tv' = some tv := h1.symm.trans htv
    injection this
  subst this
  refine ⟨h3.record.mapped, ?_⟩
  obtain ⟨b', hb, _⟩ := hr.part.gained.held tvl ht _ _ _ _ _ hsome
  have h4 := h3.record.look hr.part.sound.fine []
  obtain ⟨n, ns, e⟩ := names_ne path
  rw [List.append_nil] at h4
  rw [e] at h4 hb
  rw [h2.look hr.part.sound.fine, h4, look_nil [] (view_mapped h3.record.mapped)] at hb
  injection hb

/-! ### C77 -/

/-- C77: a record that is created has empty dataset-level metadata and no metadata of files, whatever
other records hold. -/
theorem C77_fresh {m : ObjId} {tv : Str} (htv : (if path = [] then some v else rv) = some tv)
    (hnone : look C w.repo.log w.heap (.ver tv pre :: names (path ++ [rootRecordName])) [] (.mem tvl) = .absent)
    (h : rootRecord C auto now tvl us id v pre path root rv w = (.ok (some m), w')) :
    look C w'.repo.log w'.heap [.dlm] [] (.mem m) = .found [] (.metadata []) false ∧
      ∀ ks, look C w'.repo.log w'.heap (.ft :: ks) [] (.mem m) = .absent :=
  ((rootRecord_run hs auto now ht htk hu huk id v pre hp root rv h).made tv htv hnone m rfl).2

/-! ### C38 -/

/-- C38, inside one process: if the request makes the entry of the dataset id for this version
and path, the tree version list and the UUID set lead to the same object.  Missing: entries
that were there before, see `C38_false`. -/
theorem C38_entered_partial {m : ObjId} {tv : Str} (htv : (if path = [] then some v else rv) = some tv)
    (hnew : look C w.repo.log w.heap [.uuid id, .ver v (if path = [] then pre else metadataPath [[]])] [] (.mem us) = .absent)
    (hdiff : path ≠ [] → (v, metadataPath [[]]) ≠ (tv, pre))
    (h : rootRecord C auto now tvl us id v pre path root rv w = (.ok (some m), w')) :
    Leads w'.heap tvl (.ver tv pre :: names (path ++ [rootRecordName])) m ∧
      Leads w'.heap us [.uuid id, .ver v (if path = [] then pre else metadataPath [[]])] m := by
  have hr := rootRecord_run hs auto now ht htk hu huk id v pre hp root rv h
  obtain ⟨tv', dt, h1, h2, h3, _⟩ := hr.done m rfl
  have : tv' = tv := by
    have : some tv' = some tv := h1.symm.trans htv
    injection this
  subst this
  obtain ⟨vl, h4, h5⟩ := hr.entered tv' htv hnew (fun q => by
    have := hdiff q
    unfold entryPath
    rw [if_neg q]; exact this) m rfl
  obtain ⟨t, hd⟩ := h2.part
  obtain ⟨t', hd'⟩ := h4.part
  obtain ⟨t2, hd2⟩ := h5.part
  exact ⟨Leads.cons t dt h2.mapped hd h3.record.leads,
    Leads.cons t' vl h4.mapped hd' (Leads.cons t2 m h5.mapped hd2 (Leads.nil _))⟩

end Request

theorem Leads.lookBelow {w : World} (hs : Fine C w) {i m : ObjId} {path : List Key} (h : Leads w.heap i path m)
    (hp : ∀ k ∈ path, k ≠ .ft) (k : Key) (ks : List Key) (t : Str) :
    MM.look C w.repo.log w.heap (path ++ k :: ks) t (.mem i) = MM.look C w.repo.log w.heap (k :: ks) [] (.mem m) := by
  induction h generalizing t with
  | nil i => exact look_stamps hs k ks t []
  | cons t' c hm hd _ ih =>
    rw [List.cons_append]
    rw [look_part hm hd (hp _ (List.mem_cons_self ..))]
    exact ih (fun k hk => hp k (List.mem_cons_of_mem _ hk)) t'

/-- C38: as long as the tree version list and the UUID set of a process lead to the same
object, they show the same content of the record, whatever else has happened. -/
theorem C38_shared_partial {w : World} (hs : Fine C w) {tvl us m : ObjId} {tv v : Str} {pre p : PPath}
    {path : List Str} {id : Uuid}
    (h1 : Leads w.heap tvl (.ver tv pre :: names (path ++ [rootRecordName])) m)
    (h2 : Leads w.heap us [.uuid id, .ver v p] m) (k : Key) (ks : List Key) :
    look C w.repo.log w.heap (.ver tv pre :: names (path ++ [rootRecordName]) ++ k :: ks) [] (.mem tvl) =
      look C w.repo.log w.heap (.uuid id :: .ver v p :: k :: ks) [] (.mem us) := by
  rw [h1.lookBelow hs (by
    intro k hk
    rcases List.mem_cons.mp hk with rfl | hk
    · simp
    · obtain ⟨n, _, rfl⟩ := List.mem_map.mp hk
      simp) k ks []]
  exact (h2.lookBelow hs (by simp) k ks []).symm

/-! ### The top-level objects of a repository -/

/-- An object for a reference to something that can be read -/
theorem Sound.open {w : World} (hs : Sound C w) {r : Realm} (hr : r ≠ []) {l : Link} (hn : l.ref.isNone = false)
    (hfull : Full C w.repo.log w.heap (.sto r l)) :
    Sound C (MM.create (l.obj r) w) ∧
      SameContent C w.repo.log w.heap (.sto r l) w.repo.log (MM.create (l.obj r) w).heap (.mem w.next) := by
  have hself := create_self (l.obj r) w
  have hsame : SameContent C w.repo.log w.heap (.sto r l) w.repo.log (MM.create (l.obj r) w).heap (.mem w.next) := by
    have := look_unloaded (C := C) (L := w.repo.log) (h := (MM.create (l.obj r) w).heap)
      (h' := w.heap) (i := w.next) (r := r) (ref := l.ref)
      (by rw [hself]; rfl) (by rw [hself]; rfl) (by rw [hself]; rfl)
    rw [hself, kind_linkObj] at this
    exact this.symm
  have hmn : ∀ {p}, ((MM.create (l.obj r) w).heap p).mapped = true → p ≠ w.next := by
    rintro p hp rfl
    rw [hself] at hp; cases hp
  have hf := hs.fine
  refine ⟨⟨⟨?_, ?_, ?_, ?_, ?_⟩, ?_⟩, hsame⟩
  · intro p hp k hk
    have hpn := hmn hp
    rw [create_ne _ w hpn] at hp hk
    exact Nat.lt_succ_of_lt (hf.kids p hp k hk)
  · obtain ⟨rank, hrk⟩ := hf.ranked
    refine ⟨rank, fun p hp k hk => ?_⟩
    have hpn := hmn hp
    rw [create_ne _ w hpn] at hp hk
    exact hrk p hp k hk
  · intro j hj
    by_cases hjn : j = w.next
    · subst hjn
      rw [hself]
      refine ⟨r, l.ref, hr, rfl, rfl, Or.inr ?_⟩
      unfold Link.obj
      simp [hn, hr]
    · rw [create_ne _ w hjn] at hj ⊢
      exact hf.away j hj
  · intro j hj
    by_cases hjn : j = w.next
    · subst hjn; exact Full.of_same hsame hfull
    · have e := create_ne (l.obj r) w hjn
      rw [e] at hj
      refine Full.of_same ?_ (hf.full j hj)
      refine look_kept fun k hk => ?_
      rw [reach_unmapped hj hk]
      exact e
  · intro j hj
    have hjn := hmn hj
    rw [create_ne _ w hjn] at hj ⊢
    exact hf.formed j hj
  · intro j hj e he
    have hjn := hmn hj
    rw [create_ne _ w hjn] at hj he ⊢
    have hlt := hf.kids j hj e.2.2 (List.mem_map.mpr ⟨e, he, rfl⟩)
    rw [create_ne _ w (by oomega)]
    exact hs.typed j hj e he

/-- Both top-level objects of a repository can be read. -/
theorem topLevel_total {w : World} (hs : Sound C w) (hf : w.repo.faults = []) {r : Realm} (hr : r ≠ [])
    (h1 : Full C w.repo.log w.heap (.sto r tvlLink)) (h2 : Full C w.repo.log w.heap (.sto r uuidSetLink)) :
    ∃ w', topLevel C r w = (.ok (some (w.next, w.next + 1)), w') ∧ Sound C w' ∧ w'.repo = w.repo ∧
      w.next + 1 < w'.next ∧ (w'.heap w.next).kind = .tvl ∧ (w'.heap (w.next + 1)).kind = .uuidset ∧
      SameContent C w.repo.log w.heap (.sto r tvlLink) w'.repo.log w'.heap (.mem w.next) ∧
      SameContent C w.repo.log w.heap (.sto r uuidSetLink) w'.repo.log w'.heap (.mem (w.next + 1)) ∧
      (∀ j, j < w.next → SameContent C w.repo.log w.heap (.mem j) w'.repo.log w'.heap (.mem j)) := by
  obtain ⟨s1, c1⟩ := hs.open hr rfl h1
  have hf2 : Full C (MM.create (tvlLink.obj r) w).repo.log (MM.create (tvlLink.obj r) w).heap (.sto r uuidSetLink) :=
    Full.of_same (look_sto_heap r uuidSetLink) h2
  obtain ⟨s2, c2⟩ := s1.open hr rfl hf2
  generalize hw2 : MM.create (uuidSetLink.obj r) (MM.create (tvlLink.obj r) w) = w2 at s2 c2
  have hn2 : w2.next = w.next + 1 + 1 := by rw [← hw2]; rfl
  have hr2 : w2.repo = w.repo := by rw [← hw2]; rfl
  have ht2 : w2.heap w.next = tvlLink.obj r := by
    rw [← hw2, create_ne _ _ (Nat.ne_of_lt (Nat.lt_succ_self w.next)), create_self]
  have hu2 : w2.heap (w.next + 1) = uuidSetLink.obj r := by
    rw [← hw2]; exact create_self _ (MM.create (tvlLink.obj r) w)
  have hc1 : SameContent C w.repo.log w.heap (.sto r tvlLink) w2.repo.log w2.heap (.mem w.next) := by
    refine c1.trans ?_
    rw [← hw2]
    exact content_create s1.fine _ (Nat.lt_succ_self w.next)
  have hc2 : SameContent C w.repo.log w.heap (.sto r uuidSetLink) w2.repo.log w2.heap (.mem (w.next + 1)) := by
    rw [hr2]
    exact (look_sto_heap r uuidSetLink).trans c2
  have hc3 : ∀ j, j < w.next → SameContent C w.repo.log w.heap (.mem j) w2.repo.log w2.heap (.mem j) := by
    intro j hj
    refine (content_create hs.fine (tvlLink.obj r) hj).trans ?_
    rw [← hw2]
    exact content_create s1.fine _ (Nat.lt_succ_of_lt hj)
  have hlt : w.next < w2.next := by rw [hn2]; oomega
  have hlu : w.next + 1 < w2.next := by rw [hn2]; oomega
  obtain ⟨w3, h3, hr3⟩ := s2.fine.readTotal (by rw [hr2]; exact hf) w.next
  have l3 := s2.fine.readStep hlt
  rw [h3] at l3
  obtain ⟨w4, h4, hr4⟩ := l3.fine.readTotal (by rw [hr3, hr2]; exact hf) (w.next + 1)
  have l4 := l3.fine.readStep (Nat.lt_of_lt_of_le hlu l3.next)
  rw [h4] at l4
  have l := l3.trans l4
  refine ⟨w4, ?_, (s2.loads l), by rw [hr4, hr3, hr2], Nat.lt_of_lt_of_le hlu l.next, ?_, ?_,
    hc1.trans (l.content _ hlt), hc2.trans (l.content _ hlu),
    fun j hj => (hc3 j hj).trans (l.content j (Nat.lt_trans hj hlt))⟩
  · unfold topLevel
    rw [M.bind_of_ok (alloc_run _ w), M.bind_of_ok (alloc_run _ (MM.create (tvlLink.obj r) w))]
    have : (do readIn C w.next; readIn C (w.next + 1); pure (some (w.next, w.next + 1)) :
        W (Option (ObjId × ObjId))) w2 = (.ok (some (w.next, w.next + 1)), w4) := by
      rw [M.bind_of_ok h3, M.bind_of_ok h4]; rfl
    unfold M.catchRuntime
    rw [hw2]
    simp only [show (MM.create (tvlLink.obj r) w).next = w.next + 1 from rfl]
    rw [this]
  · rw [l.kind _ hlt, ht2]; exact kind_linkObj r tvlLink
  · rw [l.kind _ hlu, hu2]; exact kind_linkObj r uuidSetLink

/-! ### C39 -/

/-- C39, for repositories whose two top-level objects can be read: a later session, with or
without auto-create and in every outcome, gets top-level objects in which everything that
was published is found, with its data and time stamp.  This covers a stop between the
saving of the two objects, unless it is the first saving.  Missing: the first saving, see
`C39_false`. -/
theorem C39_kept_partial {w w' : World} (hs : Sound C w) (hf : w.repo.faults = []) {r : Realm} (hr : r ≠ [])
    (h1 : Full C w.repo.log w.heap (.sto r tvlLink)) (h2 : Full C w.repo.log w.heap (.sto r uuidSetLink))
    (auto : Option Bool) (now : Str) (id : Uuid) (v : Str) (pre : PPath) {path : List Str}
    (hp : ∀ n ∈ path, CompOk n) (sub : Option (Uuid × Str))
    {res : Except PyErr (Option (ObjId × ObjId) × Option ObjId)}
    (h : topRecord C auto now r id v pre path sub w = (res, w')) :
    ∃ t u, (∀ o, res = .ok o → o.1 = some (t, u)) ∧
      (∀ ks s d b, look C w.repo.log w.heap ks [] (.sto r tvlLink) = .found s d b →
        ∃ b', look C w'.repo.log w'.heap ks [] (.mem t) = .found s d b') ∧
      (∀ ks s d b, look C w.repo.log w.heap ks [] (.sto r uuidSetLink) = .found s d b →
        ∃ b', look C w'.repo.log w'.heap ks [] (.mem u) = .found s d b') := by
  obtain ⟨w1, ht, s1, _, hlt, hk1, hk2, c1, c2, _⟩ := topLevel_total hs hf hr h1 h2
  unfold topRecord at h
  rw [M.bind_of_ok ht] at h
  simp only at h
  rw [M.bind_of_ok (show (pure (some (w.next, w.next + 1)) : W (Option (ObjId × ObjId))) w1 =
    (.ok (some (w.next, w.next + 1)), w1) from rfl)] at h
  simp only at h
  refine ⟨w.next, w.next + 1, ?_⟩
  have key : ∀ {id v root rv} {x : Except PyErr (Option ObjId)} {w2 : World},
      rootRecord C auto now w.next (w.next + 1) id v pre path root rv w1 = (x, w2) →
      (∀ ks s d b, look C w.repo.log w.heap ks [] (.sto r tvlLink) = .found s d b →
        ∃ b', look C w2.repo.log w2.heap ks [] (.mem w.next) = .found s d b') ∧
      (∀ ks s d b, look C w.repo.log w.heap ks [] (.sto r uuidSetLink) = .found s d b →
        ∃ b', look C w2.repo.log w2.heap ks [] (.mem (w.next + 1)) = .found s d b') := by
    intro id v root rv x w2 hx
    have hk := C36_kept s1 auto now (by oomega) hk1 hlt hk2 id v pre hp root rv hx
    refine ⟨fun ks s d b hl => hk _ (by oomega) ks [] s d b ?_, fun ks s d b hl => hk _ hlt ks [] s d b ?_⟩
    · rw [← c1]; exact hl
    · rw [← c2]; exact hl
  cases sub with
  | none =>
    simp only at h
    cases hx : rootRecord C auto now w.next (w.next + 1) id v pre path none none w1 with
    | mk x w2 =>
      cases x with
      | error e =>
        rw [M.bind_of_error hx] at h
        cases h
        exact ⟨(fun o e => by cases e), key hx⟩
      | ok m =>
        rw [M.bind_of_ok hx] at h
        cases h
        exact ⟨(fun o e => by cases e; rfl), key hx⟩
  | some y =>
    obtain ⟨sid, sv⟩ := y
    simp only at h
    cases hx : rootRecord C auto now w.next (w.next + 1) sid sv pre path (some id) (some v) w1 with
    | mk x w2 =>
      cases x with
      | error e =>
        rw [M.bind_of_error hx] at h
        cases h
        exact ⟨(fun o e => by cases e), key hx⟩
      | ok m =>
        rw [M.bind_of_ok hx] at h
        cases h
        exact ⟨(fun o e => by cases e; rfl), key hx⟩

/-! ### Counterexamples -/

def Res.isAbsent : Res → Bool
  | .absent => true
  | _ => false

theorem Res.of_isAbsent {x : Res} (h : x.isAbsent = true) : x = .absent := by cases x <;> first | rfl | cases h

theorem Res.of_notAbsent {x : Res} (h : x.isAbsent = false) : x ≠ .absent := by rintro rfl; cases h

/-- The number of extractors of the metadata that is found -/
def Res.extractors : Res → Nat
  | .found _ (.metadata s) _ => s.length
  | _ => 0

/-- Another dataset id for the examples -/
def otherUuid : Uuid := ⟨2, by decide⟩

/-- An empty process asks with auto-create for the datasets `sampleUuid` in version `v1` and
`otherUuid` in version `v2`.  The tree version list is object 0, the UUID set object 1. -/
def twoRecords : Except PyErr (Option ObjId) × World :=
  (do
    let _ ← rootRecord sampleCfg (some true) c!"0.1" 0 1 sampleUuid c!"v1" ⟨[], []⟩ [] none none
    rootRecord sampleCfg (some true) c!"0.2" 0 1 otherUuid c!"v2" ⟨[], []⟩ [] none none : W (Option ObjId))
    (populate (start ⟨[], []⟩) [Body.empty .tvl, Body.empty .uuidset])

/-- A request without auto-create for the dataset `otherUuid` in version `v1`, which was never
added -/
def strayRequest : Except PyErr (Option ObjId) × World :=
  rootRecord sampleCfg (some false) c!"0.3" 0 1 otherUuid c!"v1" ⟨[], []⟩ [] none none twoRecords.2

/-- C35 does not hold: a request without auto-create adds an entry to a version list. -/
theorem C35_false : ∃ (w w' : World) (m : ObjId),
    rootRecord sampleCfg (some false) c!"0.3" 0 1 otherUuid c!"v1" ⟨[], []⟩ [] none none w = (.ok (some m), w') ∧
      look sampleCfg w.repo.log w.heap [.uuid otherUuid, .ver c!"v1" ⟨[], []⟩] [] (.mem 1) = .absent ∧
      look sampleCfg w'.repo.log w'.heap [.uuid otherUuid, .ver c!"v1" ⟨[], []⟩] [] (.mem 1) ≠ .absent := by
  have h : okVal strayRequest = some ((okVal strayRequest).bind fun x => x) := by decide +kernel
  have h2 : ((okVal strayRequest).bind fun x => x).isSome = true := by decide +kernel
  obtain ⟨m, hm⟩ := Option.isSome_iff_exists.mp h2
  rw [hm] at h
  exact ⟨twoRecords.2, strayRequest.2, m, of_okVal h, Res.of_isAbsent (by decide +kernel),
    Res.of_notAbsent (by decide +kernel)⟩

/-- A process without any record asks with `auto_create=None`: a record is returned when the
top-level objects are given, and nothing when they are to be read from an empty repository. -/
example : ((okVal (rootRecord sampleCfg none c!"0.1" 0 1 sampleUuid c!"v1" ⟨[], []⟩ [] none none
      (populate (start ⟨[], []⟩) [Body.empty .tvl, Body.empty .uuidset]))).bind fun x => x).isSome = true ∧
    okVal (topLevel sampleCfg sampleRealm (start ⟨[], []⟩)) = some none ∧
    okVal (topRecord sampleCfg none c!"0.1" sampleRealm sampleUuid c!"v1" ⟨[], []⟩ [] none (start ⟨[], []⟩)) =
      some (none, none) := by
  refine ⟨by decide +kernel, by decide +kernel, by decide +kernel⟩

/-- The dataset id and version of a root record -/
def Obj.record (o : Obj) : Option (Option Uuid × Option Str) :=
  match o.body.data with
  | .mrr id v => some (id, v)
  | _ => none

/-- C37 does not hold: the record that is returned for a dataset id belongs to another
dataset with the same version. -/
theorem C37_false : ∃ (w w' : World) (m : ObjId),
    rootRecord sampleCfg (some false) c!"0.3" 0 1 otherUuid c!"v1" ⟨[], []⟩ [] none none w = (.ok (some m), w') ∧
      (w'.heap m).record = some (some sampleUuid, some c!"v1") ∧ sampleUuid ≠ otherUuid := by
  have h : okVal strayRequest = some ((okVal strayRequest).bind fun x => x) := by decide +kernel
  have h3 : (((okVal strayRequest).bind fun x => x).map fun m => (strayRequest.2.heap m).record) =
      some (some (some sampleUuid, some c!"v1")) := by decide +kernel
  obtain ⟨m, hm, hr⟩ := Option.map_eq_some_iff.mp h3
  rw [hm] at h
  exact ⟨twoRecords.2, strayRequest.2, m, of_okVal h, hr, by decide⟩

/-- One session: get the root record of `sampleUuid` with auto-create, do something with it,
and save the tree version list and the UUID set. -/
def oneSession (v : Str) (x : ObjId → W Unit) (both : Bool) : W Unit := do
  let y ← topRecord sampleCfg (some true) c!"0.1" sampleRealm sampleUuid v ⟨[], []⟩ [] none
  match y with
  | (some (t, u), some m) => do
    x m
    let _ ← writeAs sampleCfg .own 20 (some sampleRealm) false t
    if both then do
      let _ ← writeAs sampleCfg .own 20 (some sampleRealm) false u
      pure ()
    else pure ()
  | _ => M.raise .runtime

/-- Add an extractor run to the dataset-level metadata of a record. -/
def addSomeRun (m : ObjId) : W Unit := do
  let d ← getDlm sampleCfg m
  addExtractorRun sampleCfg d c!"ext" ⟨.int 1, .str c!"name", .str c!"mail", ⟨.str c!"1.0", []⟩, .obj []⟩

/-- A first session that makes a record, and a second one that adds metadata to it -/
def firstSession : Except PyErr Unit × World := oneSession c!"v1" (fun _ => pure ()) true (start ⟨[], []⟩)

def secondSession : Except PyErr Unit × World :=
  oneSession c!"v1" addSomeRun true (start ⟨firstSession.2.repo.log, []⟩)

/-- C38 does not hold: after two sessions that ended without an error, the published tree
version list has the new metadata, and the published UUID set has the record without it. -/
theorem C38_false : isOk firstSession = true ∧ isOk secondSession = true ∧
    look sampleCfg secondSession.2.repo.log secondSession.2.heap
        [.ver c!"v1" ⟨[], []⟩, .name rootRecordName, .dlm] [] (.sto sampleRealm tvlLink) ≠
      look sampleCfg secondSession.2.repo.log secondSession.2.heap
        [.uuid sampleUuid, .ver c!"v1" ⟨[], []⟩, .dlm] [] (.sto sampleRealm uuidSetLink) ∧
    look sampleCfg secondSession.2.repo.log secondSession.2.heap
        [.uuid sampleUuid, .ver c!"v1" ⟨[], []⟩, .dlm] [] (.sto sampleRealm uuidSetLink) ≠ .absent := by
  refine ⟨by decide +kernel, by decide +kernel, fun h => ?_, Res.of_notAbsent (by decide +kernel)⟩
  have := congrArg Res.extractors h
  revert this
  decide +kernel

/-- A first session that stops after the tree version list was saved, and a later one for
another version -/
def stoppedSession : Except PyErr Unit × World := oneSession c!"v1" addSomeRun false (start ⟨[], []⟩)

def laterSession : Except PyErr Unit × World :=
  oneSession c!"v2" (fun _ => pure ()) true (start ⟨stoppedSession.2.repo.log, []⟩)

/-- C39 does not hold: the version that was saved before the stop is gone after the later
session. -/
theorem C39_false : isOk stoppedSession = true ∧ isOk laterSession = true ∧
    (look sampleCfg stoppedSession.2.repo.log stoppedSession.2.heap
        [.ver c!"v1" ⟨[], []⟩, .name rootRecordName, .dlm] [] (.sto sampleRealm tvlLink)).extractors = 1 ∧
    look sampleCfg laterSession.2.repo.log laterSession.2.heap
        [.ver c!"v1" ⟨[], []⟩] [] (.sto sampleRealm tvlLink) = .absent ∧
    look sampleCfg laterSession.2.repo.log laterSession.2.heap
        [.ver c!"v2" ⟨[], []⟩] [] (.sto sampleRealm tvlLink) ≠ .absent :=
  ⟨by decide +kernel, by decide +kernel, by decide +kernel, Res.of_isAbsent (by decide +kernel),
    Res.of_notAbsent (by decide +kernel)⟩

/-- A later session in which the first git command fails once -/
def unluckySession : Except PyErr Unit × World :=
  oneSession c!"v2" (fun _ => pure ()) true (start ⟨firstSession.2.repo.log, [.fail 0]⟩)

/-- C39 does not hold either when both objects were saved, and a git command fails once
while a later session reads them: the session goes on with empty objects, and replaces what
was published. -/
theorem C39_fault_false : isOk firstSession = true ∧ isOk unluckySession = true ∧
    look sampleCfg firstSession.2.repo.log firstSession.2.heap
        [.ver c!"v1" ⟨[], []⟩] [] (.sto sampleRealm tvlLink) ≠ .absent ∧
    look sampleCfg unluckySession.2.repo.log unluckySession.2.heap
        [.ver c!"v1" ⟨[], []⟩] [] (.sto sampleRealm tvlLink) = .absent :=
  ⟨by decide +kernel, by decide +kernel, Res.of_notAbsent (by decide +kernel), Res.of_isAbsent (by decide +kernel)⟩

/-! ### Non-trivial cases -/

/-- Everything at a stored place can be read, checked. -/
def storedFull (C : Cfg) (L : Log) (r : Realm) : Nat → Link → Bool
  | 0, _ => false
  | n + 1, l => match strictFetch C L r l.kind l.ref with
    | .error _ => false
    | .ok b => b.kids.all fun e => storedFull C L r n e.2.2

theorem full_of_check {L : Log} {h : Heap} {r : Realm} (n : Nat) : ∀ {l : Link}, storedFull C L r n l = true →
    Full C L h (.sto r l) := by
  induction n with
  | zero => intro l h; cases h
  | succ n ih =>
    intro l hl ks t
    unfold storedFull at hl
    cases hb : strictFetch C L r l.kind l.ref with
    | error e => rw [hb] at hl; cases hl
    | ok b =>
      rw [hb] at hl
      simp only [List.all_eq_true] at hl
      have hv : view C L h (.sto r l) = .ok (b.map (.sto r)) := by
        simp only [view, hb]; rfl
      cases ks with
      | nil => rw [look_nil t hv]; simp
      | cons k ks =>
        rw [look_cons hv, Body.dget_map]
        cases hd : dget b.kids k with
        | none => simp
        | some x =>
          simp only [Option.map_some]
          have hf := ih (hl (k, x) (mem_of_dget hd))
          obtain ⟨bv, hbv⟩ := view_ok_of_look (hf [] [])
          rw [hbv]
          simp only
          by_cases hft : k = .ft ∧ bv.blank = true
          · rw [if_pos hft]; simp
          · rw [if_neg hft]; exact hf ks x.1

theorem start_sound (s : Repo) : Sound C (start s) := by
  refine ⟨⟨?_, ⟨fun _ => 0, ?_⟩, ?_, ?_, ?_⟩, ?_⟩
  · intro p _ k hk; cases hk
  · intro p _ k hk; cases hk
  · intro j hj; cases hj
  · intro j hj; cases hj
  · intro j _; exact formed_of_check rfl
  · intro j _ e he; cases he

/-- The hypotheses of the theorems on requests hold for new top-level objects.  A request with
auto-create for a sub-dataset succeeds, and so does one without auto-create after it, for
which the hypotheses hold again. -/
example : ∃ (w w1 : World) (m : ObjId), Sound sampleCfg w ∧ (0 : ObjId) < w.next ∧ (w.heap 0).kind = .tvl ∧
    (1 : ObjId) < w.next ∧ (w.heap 1).kind = .uuidset ∧ (∀ n ∈ [c!"sub"], CompOk n) ∧
    rootRecord sampleCfg (some true) c!"0.1" 0 1 otherUuid c!"v2" ⟨[], []⟩ [c!"sub"] (some sampleUuid) (some c!"v1") w =
      (.ok (some m), w1) ∧ w.repo.faults = [] ∧
    look sampleCfg w.repo.log w.heap
      (.ver c!"v1" ⟨[], []⟩ :: names ([c!"sub"] ++ [rootRecordName])) [] (.mem 0) = .absent ∧
    look sampleCfg w.repo.log w.heap [.uuid otherUuid, .ver c!"v2" ⟨[], []⟩] [] (.mem 1) = .absent ∧
    Elements sampleCfg w1 0 1 otherUuid c!"v2" ⟨[], []⟩ [c!"sub"] (some sampleUuid) (some c!"v1") ∧
    ¬ Elements sampleCfg w1 0 1 otherUuid c!"v3" ⟨[], []⟩ [] none none := by
  obtain ⟨s1, g1⟩ := (start_sound (C := sampleCfg) ⟨[], []⟩).create (b := Body.empty .tvl)
    (formed_of_check (by decide)) (fun e he => by cases he)
  obtain ⟨s2, g2⟩ := s1.create (b := Body.empty .uuidset) (formed_of_check (by decide)) (fun e he => by cases he)
  have hp : ∀ n ∈ [c!"sub"], CompOk n := by
    intro n hn
    cases List.mem_singleton.mp hn
    exact ⟨by decide, by decide, by decide⟩
  have h := of_okVal (x := rootRecord sampleCfg (some true) c!"0.1" 0 1 otherUuid c!"v2" ⟨[], []⟩ [c!"sub"]
    (some sampleUuid) (some c!"v1") (populate (start ⟨[], []⟩) [Body.empty .tvl, Body.empty .uuidset]))
    (a := some 10) (by decide +kernel)
  have hr := rootRecord_run s2 (some true) c!"0.1" (tvl := 0) (us := 1) (by decide) (by decide) (by decide) (by decide)
    otherUuid c!"v2" ⟨[], []⟩ hp (some sampleUuid) (some c!"v1") h
  refine ⟨_, _, 10, s2, by decide, by decide, by decide, by decide, hp, h, rfl,
    Res.of_isAbsent (by decide +kernel), Res.of_isAbsent (by decide +kernel),
    (hr.done _ rfl).elements hr.part.sound.fine, ?_⟩
  rintro ⟨tv, h1, h2, _⟩
  cases h1
  exact h2 (Res.of_isAbsent (by decide +kernel))

/-- The hypotheses of `C39_kept_partial` hold for a new process after a session that saved
both top-level objects. -/
example : Sound sampleCfg (start ⟨firstSession.2.repo.log, []⟩) ∧
    Full sampleCfg firstSession.2.repo.log (start ⟨firstSession.2.repo.log, []⟩).heap (.sto sampleRealm tvlLink) ∧
    Full sampleCfg firstSession.2.repo.log (start ⟨firstSession.2.repo.log, []⟩).heap (.sto sampleRealm uuidSetLink) ∧
    look sampleCfg firstSession.2.repo.log (start ⟨firstSession.2.repo.log, []⟩).heap
      [.ver c!"v1" ⟨[], []⟩] [] (.sto sampleRealm tvlLink) ≠ .absent :=
  ⟨start_sound _, full_of_check 9 (by decide +kernel), full_of_check 9 (by decide +kernel),
    Res.of_notAbsent (by decide +kernel)⟩

end MM
