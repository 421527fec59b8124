/-
Looking up, adding and removing elements of trees.
-/
import Verif.Walk

namespace MM

variable {C : Cfg}

/-! ### Looking along loaded objects -/

/-- If all objects that are reached stay the same, the content stays the same. -/
theorem look_kept {L : Log} {h h' : Heap} {i : ObjId} (hk : ∀ j, Reach h i j → h' j = h j) :
    SameContent C L h (.mem i) L h' (.mem i) := by
  intro ks t
  refine look_congr (fun n => ∀ j, n = .mem j → Reach h i j) ?_ ks t (.mem i)
    (by rintro _ ⟨⟩; exact Reach.refl _)
  intro n hn
  cases n with
  | sto r l => exact Or.inl (look_sto_heap r l)
  | mem j =>
    right
    have hr := hn j rfl
    have e := hk j hr
    refine ⟨by simp only [view, e], ?_⟩
    intro b' hb x hx k hxk
    by_cases hm : (h j).mapped = true
    · rw [view_mapped hm] at hb
      cases hb
      rw [Body.map_kids] at hx
      obtain ⟨y, hy, rfl⟩ := List.mem_map.mp hx
      simp only at hxk
      cases hxk
      exact hr.trans (Reach.step j _ _ hm (List.mem_map.mpr ⟨y, hy, rfl⟩) (Reach.refl _))
    · obtain ⟨r, ref, a, _, _, _, rfl⟩ := (view_away (by simpa using hm)).mp hb
      rw [Body.map_kids] at hx
      obtain ⟨y, _, rfl⟩ := List.mem_map.mp hx
      simp at hxk

/-- Loaded tree nodes file their children without time stamps. -/
def HeapFormed (h : Heap) : Prop := ∀ j, (h j).mapped = true → Formed (h j).body

theorem look_name {L : Log} {h : Heap} (hp : HeapFormed h) {i c : ObjId} {n t : Str}
    (hm : (h i).mapped = true) (hd : dget (h i).body.kids (.name n) = some (t, c)) (ks : List Key)
    (t0 : Str) : look C L h (.name n :: ks) t0 (.mem i) = look C L h ks [] (.mem c) := by
  have hfm := hp i hm
  have ht : t = [] := hfm.stamps (stamped_tree (fits_name (hfm.fits _ (mem_of_dget hd)))) _ (mem_of_dget hd)
  have hv := view_mapped (C := C) (L := L) hm
  rw [look_cons_some hv (by rw [Body.dget_map, hd]; rfl) (by simp), ht]

theorem look_name_none {L : Log} {h : Heap} {i : ObjId} {k : Key}
    (hm : (h i).mapped = true) (hd : dget (h i).body.kids k = none) (ks : List Key)
    (t0 : Str) : look C L h (k :: ks) t0 (.mem i) = .absent :=
  look_cons_none (view_mapped (C := C) (L := L) hm) (by rw [Body.dget_map, hd]; rfl)

theorem look_self {L : Log} {h : Heap} {i : ObjId} (hm : (h i).mapped = true) (t : Str) :
    look C L h [] t (.mem i) = .found t (h i).body.data (h i).body.blank := by
  rw [look_nil t (view_mapped (C := C) (L := L) hm), Body.map_data]
  unfold Body.blank Body.map
  simp

/-- Following a path in memory does not change what is found. -/
theorem Leads.look {L : Log} {h : Heap} (hp : HeapFormed h) {i m : ObjId} {q : List Str}
    (hl : Leads h i (names q) m) (ks : List Key) :
    MM.look C L h (names q ++ ks) [] (.mem i) = MM.look C L h ks [] (.mem m) := by
  induction q generalizing i with
  | nil => cases hl; rfl
  | cons n q ih =>
    cases hl with
    | cons t c hm hd hl =>
      have := look_name (C := C) (L := L) hp hm hd (names q ++ ks) []
      rw [← ih hl, ← this]
      rfl

/-- The data of what is looked at belongs to the class of the object. -/
theorem view_class {L : Log} {h : Heap} {i : ObjId} {b : Body Node}
    (hv : view C L h (.mem i) = .ok b) : b.data.kind = (h i).kind := by
  by_cases hm : (h i).mapped = true
  · rw [view_mapped hm] at hv; cases hv; rfl
  · obtain ⟨r, ref, a, _, _, h3, rfl⟩ := (view_away (by simpa using hm)).mp hv
    rw [Body.map_data]
    have hfe := (strictFetch_ok h3).1
    unfold fetch at hfe
    split at hfe
    · split at hfe
      · split at hfe
        · cases hfe
        · cases hfe; exact Data.kind_empty _
      · cases hfe
    · split at hfe
      · cases hl : ref.loc with
        | none => rw [hl] at hfe; cases hfe
        | some loc => rw [hl] at hfe; exact (decode_links hfe).1
      · cases hfe

theorem fetch_formed {L : Log} {r : Realm} {k : Kind} {ref : Ref} {a : Body Link}
    (hfe : fetch C L r k ref = .ok a) : Formed a := by
  unfold fetch at hfe
  split at hfe
  · split at hfe
    · split at hfe
      · cases hfe
      · cases hfe
        refine ⟨List.nodup_nil, ?_, ?_⟩
        · intro e he; cases he
        · intro _ e he; cases he
    · cases hfe
  · split at hfe
    · cases hl : ref.loc with
      | none => rw [hl] at hfe; cases hfe
      | some loc => rw [hl] at hfe; exact decode_formed hfe
    · cases hfe

theorem Formed.map {κ μ : Type} {b : Body κ} (hf : Formed b) (f : κ → μ) : Formed (b.map f) := by
  refine ⟨?_, ?_, ?_⟩
  · have : dkeys (b.map f).kids = dkeys b.kids := by
      unfold dkeys Body.map; rw [List.map_map]; rfl
    rw [this]; exact hf.keys
  · intro e he
    rw [Body.map_kids] at he
    obtain ⟨y, hy, rfl⟩ := List.mem_map.mp he
    exact hf.fits y hy
  · intro hk e he
    rw [Body.map_kids] at he
    obtain ⟨y, hy, rfl⟩ := List.mem_map.mp he
    exact hf.stamps hk y hy

theorem view_formed {L : Log} {h : Heap} (hp : HeapFormed h) {i : ObjId} {b : Body Node}
    (hv : view C L h (.mem i) = .ok b) : Formed b := by
  by_cases hm : (h i).mapped = true
  · rw [view_mapped hm] at hv; cases hv; exact (hp i hm).map _
  · obtain ⟨r, ref, a, _, _, h3, rfl⟩ := (view_away (by simpa using hm)).mp hv
    exact (fetch_formed (strictFetch_ok h3).1).map _

/-- Nothing is found under a name in an object that is not a tree. -/
theorem look_not_tree {L : Log} {h : Heap} (hp : HeapFormed h) {i : ObjId}
    (hf : Full C L h (.mem i)) (hk : (h i).kind.isMtree = false) (n : Str) (ks : List Key) :
    look C L h (.name n :: ks) [] (.mem i) = .absent := by
  obtain ⟨b, hb⟩ := view_ok_of_look (hf [] [])
  refine look_cons_none hb ?_
  cases hd : dget b.kids (.name n) with
  | none => rfl
  | some e =>
    have := (view_formed hp hb).fits _ (mem_of_dget hd)
    rw [view_class hb] at this
    rw [fits_name this] at hk
    cases hk

theorem Fine.plain {w : World} (hf : Fine C w) : HeapFormed w.heap := hf.formed

/-! ### Looking up -/

theorem getChild_any {w : World} (hs : Fine C w) {i : ObjId} (hi : i < w.next) (n : Str) :
    Loads C w (getChild C i n w).2 := by
  have hl := hs.loadsStep hi
  unfold getChild
  cases he : ensureMapped C i w with
  | mk r w1 =>
    rw [he] at hl
    cases r with
    | error e => rw [M.bind_of_error he]; exact hl
    | ok b => rw [M.bind_of_ok he, M.bind_of_ok (getObj_run i w1)]; exact hl

theorem getChild_ok {w w' : World} (hs : Fine C w) {i : ObjId} (hi : i < w.next) {n : Str}
    {r : Option ObjId} (h : getChild C i n w = (.ok r, w')) :
    Loads C w w' ∧ (w'.heap i).mapped = true ∧
      r = (dget (w'.heap i).body.kids (.name n)).map Prod.snd := by
  unfold getChild at h
  obtain ⟨b, w1, h1, h⟩ := M.bind_ok h
  obtain ⟨hl, hm⟩ := hs.loaded hi h1
  rw [M.bind_of_ok (getObj_run i w1)] at h
  cases h
  exact ⟨hl, hm, rfl⟩

theorem getChild_total {w : World} (hs : Fine C w) (hf : w.repo.faults = []) (i : ObjId) (n : Str) :
    ∃ r w', getChild C i n w = (.ok r, w') ∧ w'.repo = w.repo := by
  obtain ⟨b, w1, h1, h2⟩ := hs.loads hf i
  unfold getChild
  rw [M.bind_of_ok h1, M.bind_of_ok (getObj_run i w1)]
  exact ⟨_, w1, rfl, h2⟩

theorem getObjectAt_any (p : List Str) : ∀ {w : World}, Fine C w → ∀ {i : ObjId}, i < w.next →
    Loads C w (getObjectAt C p i w).2 := by
  induction p with
  | nil => intro w hs i hi; exact Loads.refl hs
  | cons n p ih =>
    intro w hs i hi
    unfold getObjectAt
    rw [M.bind_of_ok (getObj_run i w)]
    split
    · have hl := getChild_any hs hi n
      cases he : getChild C i n w with
      | mk r w1 =>
        cases r with
        | error e => rw [M.bind_of_error he]; rw [he] at hl; exact hl
        | ok r =>
          rw [M.bind_of_ok he]
          obtain ⟨hl, hm, hr⟩ := getChild_ok hs hi he
          cases r with
          | none => exact hl
          | some j =>
            cases hd : dget (w1.heap i).body.kids (.name n) with
            | none => rw [hd] at hr; cases hr
            | some x =>
              rw [hd] at hr; cases hr
              exact hl.trans (ih hl.fine (hl.fine.kids i hm _ (dget_sub hd)))
    · exact Loads.refl hs

theorem getObjectAt_total (p : List Str) : ∀ {w : World}, Fine C w → w.repo.faults = [] →
    ∀ {i : ObjId}, i < w.next → ∃ r w', getObjectAt C p i w = (.ok r, w') ∧ w'.repo = w.repo := by
  induction p with
  | nil => intro w hs _ i hi; exact ⟨_, w, rfl, rfl⟩
  | cons n p ih =>
    intro w hs hf i hi
    unfold getObjectAt
    rw [M.bind_of_ok (getObj_run i w)]
    split
    · obtain ⟨r, w1, he, hre⟩ := getChild_total hs hf i n
      rw [M.bind_of_ok he]
      obtain ⟨hl, hm, hr⟩ := getChild_ok hs hi he
      cases r with
      | none => exact ⟨_, w1, rfl, hre⟩
      | some j =>
        cases hd : dget (w1.heap i).body.kids (.name n) with
        | none => rw [hd] at hr; cases hr
        | some x =>
          rw [hd] at hr; cases hr
          obtain ⟨r2, w2, h2, hre2⟩ := ih hl.fine (by rw [hre]; exact hf) (hl.fine.kids i hm _ (dget_sub hd))
          exact ⟨r2, w2, h2, hre2.trans hre⟩
    · exact ⟨_, w, rfl, rfl⟩

/-- A lookup that finds an object has followed the path. -/
theorem getObjectAt_some (p : List Str) : ∀ {w w' : World}, Fine C w → ∀ {i j : ObjId}, i < w.next →
    getObjectAt C p i w = (.ok (some j), w') → Leads w'.heap i (names p) j ∧ j < w'.next := by
  induction p with
  | nil => intro w w' hs i j hi h; cases h; exact ⟨Leads.nil i, hi⟩
  | cons n p ih =>
    intro w w' hs i j hi h
    unfold getObjectAt at h
    rw [M.bind_of_ok (getObj_run i w)] at h
    split at h
    · obtain ⟨r, w1, he, h⟩ := M.bind_ok h
      obtain ⟨hl, hm, hr⟩ := getChild_ok hs hi he
      cases r with
      | none => cases h
      | some c =>
        simp only at h
        cases hd : dget (w1.heap i).body.kids (.name n) with
        | none => rw [hd] at hr; cases hr
        | some x =>
          obtain ⟨t, c'⟩ := x
          rw [hd] at hr; cases hr
          have hc := hl.fine.kids i hm c' (dget_sub hd)
          obtain ⟨h1, h2⟩ := ih hl.fine hc h
          have hl2 := getObjectAt_any p hl.fine hc
          rw [h] at hl2
          have hi1 : i < w1.next := Nat.lt_of_lt_of_le hi hl.next
          refine ⟨Leads.cons t c' ?_ ?_ h1, h2⟩
          · rw [hl2.loaded i hi1 hm]; exact hm
          · rw [hl2.loaded i hi1 hm]; exact hd
    · cases h

/-- A lookup that finds nothing: nothing is there. -/
theorem getObjectAt_none (p : List Str) : ∀ {w w' : World}, Fine C w → ∀ {i : ObjId}, i < w.next →
    getObjectAt C p i w = (.ok none, w') →
    ∀ ks, look C w.repo.log w.heap (names p ++ ks) [] (.mem i) = .absent := by
  induction p with
  | nil => intro w w' hs i hi h; cases h
  | cons n p ih =>
    intro w w' hs i hi h ks
    unfold getObjectAt at h
    rw [M.bind_of_ok (getObj_run i w)] at h
    split at h
    · obtain ⟨r, w1, he, h⟩ := M.bind_ok h
      obtain ⟨hl, hm, hr⟩ := getChild_ok hs hi he
      rw [hl.content i hi]
      cases r with
      | none =>
        cases hd : dget (w1.heap i).body.kids (.name n) with
        | none => exact look_name_none hm hd _ _
        | some x => rw [hd] at hr; cases hr
      | some c =>
        simp only at h
        cases hd : dget (w1.heap i).body.kids (.name n) with
        | none => rw [hd] at hr; cases hr
        | some x =>
          obtain ⟨t, c'⟩ := x
          rw [hd] at hr; cases hr
          have hc := hl.fine.kids i hm c' (dget_sub hd)
          have := look_name (C := C) (L := w1.repo.log) hl.fine.plain hm hd (names p ++ ks) []
          rw [← ih hl.fine hc h ks, ← this]
          rfl
    · rename_i hk
      exact look_not_tree hs.plain (hs.all i) (by simpa using hk) n _

/-- Following a path through loaded tree nodes is what the lookup does. -/
theorem getObjectAt_leads {w : World} (hp : HeapFormed w.heap) {i j : ObjId} {p : List Str}
    (hl : Leads w.heap i (names p) j) : getObjectAt C p i w = (.ok (some j), w) := by
  induction p generalizing i with
  | nil => cases hl; rfl
  | cons n p ih =>
    cases hl with
    | cons t c hm hd hl =>
      have hk : (w.heap i).kind.isMtree = true := fits_name ((hp i hm).fits _ (mem_of_dget hd))
      unfold getObjectAt
      rw [M.bind_of_ok (getObj_run i w), if_pos hk]
      have : getChild C i n w = (.ok (some c), w) := by
        unfold getChild
        rw [M.bind_of_ok (ensureMapped_mapped hm), M.bind_of_ok (getObj_run i w), hd]
        rfl
      rw [M.bind_of_ok this]
      exact ih hl

/-! ### Adding -/

theorem change_run (i : ObjId) (b : Body ObjId) (w : World) : change i b w = (.ok (), edit i b w) := by
  unfold change touch edit
  rw [M.bind_of_ok (updObj_run _ _ _), updObj_run]
  congr 2
  funext j
  by_cases h : j = i
  · subst h; simp
  · simp [Heap.set_ne h]

theorem edit_next (i : ObjId) (b : Body ObjId) (w : World) : (edit i b w).next = w.next := rfl

/-- The object under which a chain of new nodes starts. -/
def chainStart (child lo : ObjId) (rest : List Str) : ObjId := if rest = [] then child else lo

/-- New tree nodes, each with one child, the last one with the object that is added. -/
inductive Chain (h : Heap) (k : Kind) (child : ObjId) : ObjId → List Str → Prop
  | done (e : ObjId) : Chain h k child e []
  | node (e : ObjId) (n : Str) (rest : List Str) :
      h e = Obj.new ⟨Data.empty k, [(.name n, [], chainStart child (e + 1) rest)]⟩ →
      Chain h k child (e + 1) rest → Chain h k child e (n :: rest)

theorem Chain.congr {h h' : Heap} {k : Kind} {child lo : ObjId} {rest : List Str}
    (hc : Chain h k child lo rest) (he : ∀ j, lo ≤ j → h' j = h j) : Chain h' k child lo rest := by
  induction hc with
  | done e => exact Chain.done e
  | node e n rest h1 _ ih =>
    exact Chain.node e n rest (by rw [he e (Nat.le_refl _)]; exact h1)
      (ih fun j hj => he j (by oomega))

/-- Names that `add_child` accepts -/
theorem addChild_free {w : World} {i : ObjId} {n : Str} (hn : CompOk n) (hm : (w.heap i).mapped = true)
    (hd : dget (w.heap i).body.kids (.name n) = none) (child : ObjId) :
    addChild C i n child w =
      (.ok (), edit i ⟨(w.heap i).body.data, (w.heap i).body.kids ++ [(.name n, [], child)]⟩ w) := by
  unfold addChild
  have h1 : decide (n ≠ c!".") = true := decide_eq_true hn.2.1
  have h2 : (!n.contains '/') = true := by simp [hn.2.2]
  rw [h1, h2, M.bind_of_ok (M.assert_true w), M.bind_of_ok (M.assert_true w),
    M.bind_of_ok (ensureMapped_mapped hm), M.bind_of_ok (getObj_run i w), hd]
  exact change_run _ _ _

theorem getChild_mapped {w : World} {i : ObjId} (hm : (w.heap i).mapped = true) (n : Str) :
    getChild C i n w = (.ok ((dget (w.heap i).body.kids (.name n)).map Prod.snd), w) := by
  unfold getChild
  rw [M.bind_of_ok (ensureMapped_mapped hm), M.bind_of_ok (getObj_run i w)]
  rfl

/-- Adding below a new node creates the missing nodes and succeeds. -/
theorem addChildAt_fresh {k : Kind} {child : ObjId} (rest : List Str) :
    rest ≠ [] → (∀ n ∈ rest, CompOk n) → ∀ {e : ObjId} {w : World}, e + 1 = w.next →
    w.heap e = Obj.new (Body.empty k) →
    ∃ w', addChildAt C child rest e w = (.ok (), w') ∧ w'.repo = w.repo ∧ w'.caches = w.caches ∧
      w'.next = e + rest.length ∧ (∀ j, j < e → w'.heap j = w.heap j) ∧
      (∀ j, w'.next ≤ j → w'.heap j = w.heap j) ∧ Chain w'.heap k child e rest := by
  induction rest with
  | nil => intro h; exact absurd rfl h
  | cons n rest ih =>
    intro _ hok e w he hw
    have hm : (w.heap e).mapped = true := by rw [hw]; rfl
    have hd : dget (w.heap e).body.kids (.name n) = none := by rw [hw]; rfl
    have hg := getChild_mapped (C := C) hm n
    rw [hd] at hg
    have hn := hok n (List.mem_cons_self ..)
    cases rest with
    | nil =>
      unfold addChildAt
      rw [M.bind_of_ok hg]
      refine ⟨_, addChild_free hn hm hd child, rfl, rfl, ?_, ?_, ?_, ?_⟩
      · unfold edit; simp only [List.length_singleton]; exact he.symm
      · intro j hj; exact edit_ne _ _ (by oomega)
      · intro j hj
        refine edit_ne _ _ ?_
        rw [edit_next] at hj
        oomega
      · refine Chain.node e n [] ?_ (Chain.done _)
        rw [edit_self, hw]; rfl
    | cons n2 rest =>
      unfold addChildAt
      rw [M.bind_of_ok hg]
      simp only [Option.map_none]
      rw [M.bind_of_ok (getObj_run e w)]
      have hk : (w.heap e).kind = k := by rw [hw]; exact Data.kind_empty k
      rw [hk]
      have ha : alloc (Obj.new (Body.empty k)) w = (.ok w.next, create (Obj.new (Body.empty k)) w) := rfl
      rw [M.bind_of_ok ha]
      have hne : e ≠ w.next := by oomega
      have hce : (create (Obj.new (Body.empty k)) w).heap e = w.heap e := create_ne _ _ hne
      have hadd := addChild_free (C := C) (w := create (Obj.new (Body.empty k)) w) (i := e) hn
        (by rw [hce]; exact hm) (by rw [hce]; exact hd) w.next
      rw [M.bind_of_ok hadd]
      obtain ⟨w', h1, h2, h3, h4, h5, h6, h7⟩ := ih (by simp)
        (fun x hx => hok x (List.mem_cons_of_mem _ hx)) (e := w.next)
        (w := edit e ⟨((create (Obj.new (Body.empty k)) w).heap e).body.data,
          ((create (Obj.new (Body.empty k)) w).heap e).body.kids ++ [(.name n, [], w.next)]⟩
          (create (Obj.new (Body.empty k)) w)) rfl
        (by rw [edit_ne _ _ (fun h => hne h.symm), create_self])
      refine ⟨w', h1, h2, h3, ?_, ?_, ?_, ?_⟩
      · rw [h4, ← he]; simp only [List.length_cons]; oomega
      · intro j hj
        rw [h5 j (by oomega), edit_ne _ _ (by oomega), create_ne _ _ (by oomega)]
      · intro j hj
        rw [h6 j hj]
        rw [h4] at hj
        rw [edit_ne _ _ (by simp only [List.length_cons] at hj; oomega),
          create_ne _ _ (by simp only [List.length_cons] at hj; oomega)]
      · refine Chain.node e n (n2 :: rest) ?_ (by rw [he]; exact h7)
        rw [h5 e (by oomega), edit_self, hce, hw, he]
        rfl

/-- What a successful `add_child_at` did after loading: the last existing node of the
path got a new child. -/
structure AddedAt (i : ObjId) (q : List Str) (n : Str) (rest : List Str) (m child : ObjId)
    (w w' : World) : Prop where
  lead : Leads w.heap i (names q) m
  mapped : (w.heap m).mapped = true
  tree : (w.heap m).kind.isMtree = true
  free : dget (w.heap m).body.kids (.name n) = none
  node : w'.heap m = { w.heap m with body := ⟨(w.heap m).body.data, (w.heap m).body.kids ++ [(.name n, [], chainStart child w.next rest)]⟩, savedOn := [] }
  old : ∀ j, j ≠ m → j < w.next → w'.heap j = w.heap j
  high : ∀ j, w'.next ≤ j → w'.heap j = w.heap j
  chain : Chain w'.heap (w.heap m).kind child w.next rest
  next : w'.next = w.next + rest.length
  log : w'.repo.log = w.repo.log
  caches : w'.caches = w.caches

theorem addChildAt_ok {child : ObjId} (p : List Str) : (∀ n ∈ p, CompOk n) → ∀ {i : ObjId}
    {w w' : World}, Fine C w → i < w.next → (w.heap i).kind.isMtree = true →
    addChildAt C child p i w = (.ok (), w') →
    ∃ w1 q n rest m, p = q ++ n :: rest ∧ Loads C w w1 ∧ AddedAt i q n rest m child w1 w' := by
  induction p with
  | nil => intro _ i w w' _ _ _ h; cases h
  | cons n p ih =>
    intro hok i w w' hs hi hk h
    have hn := hok n (List.mem_cons_self ..)
    cases p with
    | nil =>
      unfold addChildAt at h
      obtain ⟨r, w1, hg, h⟩ := M.bind_ok h
      obtain ⟨hl, hm, hr⟩ := getChild_ok hs hi hg
      have hi1 : i < w1.next := Nat.lt_of_lt_of_le hi hl.next
      have hadd : ∀ {w'}, addChild C i n child w1 = (.ok (), w') → ∃ w1 q n' rest m,
          [n] = q ++ n' :: rest ∧ Loads C w w1 ∧ AddedAt i q n' rest m child w1 w' := by
        intro w' h
        cases hd : dget (w1.heap i).body.kids (.name n) with
        | none =>
          rw [addChild_free hn hm hd] at h
          cases h
          refine ⟨w1, [], n, [], i, rfl, hl, ⟨Leads.nil i, hm, ?_, hd, ?_, ?_, ?_, Chain.done _, rfl, rfl, rfl⟩⟩
          · rw [hl.kind i hi]; exact hk
          · rw [edit_self]; rfl
          · intro j hj _; exact edit_ne _ _ hj
          · intro j hj
            rw [edit_next] at hj
            exact edit_ne _ _ (by oomega)
        | some x =>
          unfold addChild at h
          obtain ⟨_, s1, a1, h⟩ := M.bind_ok h
          obtain ⟨_, e1⟩ := M.assert_ok a1
          rw [e1] at h
          obtain ⟨_, s2, a2, h⟩ := M.bind_ok h
          obtain ⟨_, e2⟩ := M.assert_ok a2
          rw [e2] at h
          rw [M.bind_of_ok (ensureMapped_mapped hm), M.bind_of_ok (getObj_run i w1), hd] at h
          cases h
      cases r with
      | none => exact hadd h
      | some e =>
        simp only at h
        rw [M.bind_of_ok (getObj_run e w1)] at h
        split at h
        · cases h
        · exact hadd h
    | cons n2 p =>
      unfold addChildAt at h
      obtain ⟨r, w1, hg, h⟩ := M.bind_ok h
      obtain ⟨hl, hm, hr⟩ := getChild_ok hs hi hg
      have hi1 : i < w1.next := Nat.lt_of_lt_of_le hi hl.next
      cases hd : dget (w1.heap i).body.kids (.name n) with
      | some x =>
        obtain ⟨t, e⟩ := x
        rw [hd] at hr
        subst hr
        simp only [Option.map_some] at h
        rw [M.bind_of_ok (getObj_run e w1)] at h
        have he : e < w1.next := hl.fine.kids i hm e (dget_sub hd)
        split at h
        · rename_i hke
          obtain ⟨w2, q, n', rest, m, e1, hl2, ha⟩ :=
            ih (fun x hx => hok x (List.mem_cons_of_mem _ hx)) hl.fine he hke h
          refine ⟨w2, n :: q, n', rest, m, by rw [e1]; rfl, hl.trans hl2, { ha with lead := ?_ }⟩
          have e2 := hl2.loaded i hi1 hm
          exact Leads.cons t e (by rw [e2]; exact hm) (by rw [e2]; exact hd) ha.lead
        · cases h
      | none =>
        rw [hd] at hr
        subst hr
        simp only [Option.map_none] at h
        rw [M.bind_of_ok (getObj_run i w1)] at h
        have hki : (w1.heap i).kind.isMtree = true := by rw [hl.kind i hi]; exact hk
        obtain ⟨k, hkk⟩ : ∃ k, (w1.heap i).kind = k := ⟨_, rfl⟩
        rw [hkk] at h
        have hal : alloc (Obj.new (Body.empty k)) w1 = (.ok w1.next, create (Obj.new (Body.empty k)) w1) := rfl
        rw [M.bind_of_ok hal] at h
        have hne : i ≠ w1.next := by oomega
        have hce : (create (Obj.new (Body.empty k)) w1).heap i = w1.heap i := create_ne _ _ hne
        have hadd := addChild_free (C := C) (w := create (Obj.new (Body.empty k)) w1) (i := i) hn
          (by rw [hce]; exact hm) (by rw [hce]; exact hd) w1.next
        rw [M.bind_of_ok hadd] at h
        obtain ⟨w2, h1, h2, h3, h4, h5, h6, h7⟩ := addChildAt_fresh (C := C) (k := k) (child := child) (n2 :: p)
          (by simp) (fun x hx => hok x (List.mem_cons_of_mem _ hx)) (e := w1.next)
          (w := edit i ⟨((create (Obj.new (Body.empty k)) w1).heap i).body.data,
            ((create (Obj.new (Body.empty k)) w1).heap i).body.kids ++ [(.name n, [], w1.next)]⟩
            (create (Obj.new (Body.empty k)) w1)) rfl
          (by rw [edit_ne _ _ (fun h => hne h.symm), create_self])
        rw [h1] at h
        cases h
        refine ⟨w1, [], n, n2 :: p, i, rfl, hl, ⟨Leads.nil i, hm, hki, hd, ?_, ?_, ?_, by rw [hkk]; exact h7, h4,
          by rw [h2]; rfl, by rw [h3]; rfl⟩⟩
        · rw [h5 i hi1, edit_self, hce]; rfl
        · intro j hj hlt
          rw [h5 j hlt, edit_ne _ _ hj, create_ne _ _ (by oomega)]
        · intro j hj
          rw [h6 j hj]
          rw [h4] at hj
          simp only [List.length_cons] at hj
          rw [edit_ne _ _ (by oomega), create_ne _ _ (by oomega)]

/-- A failing `add_child_at` only loaded objects. -/
theorem addChildAt_error {child : ObjId} (p : List Str) : (∀ n ∈ p, CompOk n) → ∀ {i : ObjId}
    {w w' : World} {e : PyErr}, Fine C w → i < w.next →
    addChildAt C child p i w = (.error e, w') → Loads C w w' := by
  induction p with
  | nil => intro _ i w w' e hs _ h; cases h; exact Loads.refl hs
  | cons n p ih =>
    intro hok i w w' er hs hi h
    have hn := hok n (List.mem_cons_self ..)
    have hany := getChild_any hs hi n
    cases p with
    | nil =>
      unfold addChildAt at h
      rcases M.bind_error h with hg | ⟨r, w1, hg, h⟩
      · rw [hg] at hany; exact hany
      · obtain ⟨hl, hm, hr⟩ := getChild_ok hs hi hg
        have hadd : addChild C i n child w1 = (.error er, w') → Loads C w w' := by
          intro h
          cases hd : dget (w1.heap i).body.kids (.name n) with
          | none => rw [addChild_free hn hm hd] at h; cases h
          | some x =>
            unfold addChild at h
            have a1 : decide (n ≠ c!".") = true := decide_eq_true hn.2.1
            have a2 : (!n.contains '/') = true := by simp [hn.2.2]
            rw [a1, a2, M.bind_of_ok (M.assert_true w1), M.bind_of_ok (M.assert_true w1),
              M.bind_of_ok (ensureMapped_mapped hm), M.bind_of_ok (getObj_run i w1), hd] at h
            cases h
            exact hl
        cases r with
        | none => exact hadd h
        | some e =>
          simp only at h
          rw [M.bind_of_ok (getObj_run e w1)] at h
          split at h
          · cases h; exact hl
          · exact hadd h
    | cons n2 p =>
      unfold addChildAt at h
      rcases M.bind_error h with hg | ⟨r, w1, hg, h⟩
      · rw [hg] at hany; exact hany
      · obtain ⟨hl, hm, hr⟩ := getChild_ok hs hi hg
        have hi1 : i < w1.next := Nat.lt_of_lt_of_le hi hl.next
        cases hd : dget (w1.heap i).body.kids (.name n) with
        | some x =>
          obtain ⟨t, e⟩ := x
          rw [hd] at hr
          subst hr
          simp only [Option.map_some] at h
          rw [M.bind_of_ok (getObj_run e w1)] at h
          split at h
          · exact hl.trans (ih (fun x hx => hok x (List.mem_cons_of_mem _ hx)) hl.fine
              (hl.fine.kids i hm e (dget_sub hd)) h)
          · cases h; exact hl
        | none =>
          rw [hd] at hr
          subst hr
          simp only [Option.map_none] at h
          rw [M.bind_of_ok (getObj_run i w1)] at h
          obtain ⟨k, hkk⟩ : ∃ k, (w1.heap i).kind = k := ⟨_, rfl⟩
          rw [hkk] at h
          have hal : alloc (Obj.new (Body.empty k)) w1 = (.ok w1.next, create (Obj.new (Body.empty k)) w1) := rfl
          rw [M.bind_of_ok hal] at h
          have hne : i ≠ w1.next := by oomega
          have hce : (create (Obj.new (Body.empty k)) w1).heap i = w1.heap i := create_ne _ _ hne
          have hadd := addChild_free (C := C) (w := create (Obj.new (Body.empty k)) w1) (i := i) hn
            (by rw [hce]; exact hm) (by rw [hce]; exact hd) w1.next
          rw [M.bind_of_ok hadd] at h
          obtain ⟨w2, h1, _⟩ := addChildAt_fresh (C := C) (k := k) (child := child) (n2 :: p)
            (by simp) (fun x hx => hok x (List.mem_cons_of_mem _ hx)) (e := w1.next)
            (w := edit i ⟨((create (Obj.new (Body.empty k)) w1).heap i).body.data,
              ((create (Obj.new (Body.empty k)) w1).heap i).body.kids ++ [(.name n, [], w1.next)]⟩
              (create (Obj.new (Body.empty k)) w1)) rfl
            (by rw [edit_ne _ _ (fun h => hne h.symm), create_self])
          rw [h1] at h
          cases h

end MM
