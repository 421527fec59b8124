/-
What the steps of finding or creating a root record do.
-/
import Verif.Common
import Verif.Props.Maps
import Verif.Props.Listing
import Verif.Copy

namespace MM

variable {C : Cfg}

/-! ### Which objects can contain which -/

/-- The classes in the order in which they can contain each other -/
def Kind.level : Kind → Nat
  | .text => 0
  | .metadata => 0
  | .mtree .text => 1
  | .mtree .metadata => 1
  | .mrr => 2
  | .mtree .mrr => 3
  | .vlist => 4
  | .tvl => 4
  | .uuidset => 5

theorem KidOk.level {p c : Kind} {k : Key} (h : KidOk p k c) :
    c.level ≤ p.level ∧ (p = .vlist ∨ p = .tvl → c.level ≤ 3) := by
  cases p with
  | mtree leaf =>
    cases k <;> try exact absurd h id
    rcases h with h | h <;> subst h <;> cases leaf <;> simp [Kind.level, Leaf.kind]
  | mrr =>
    cases k <;> first | exact absurd h id | (cases h; simp [Kind.level])
  | vlist =>
    cases k <;> try exact absurd h id
    rcases h with h | h <;> subst h <;> simp [Kind.level]
  | tvl =>
    cases k <;> try exact absurd h id
    rcases h with h | h <;> subst h <;> simp [Kind.level]
  | uuidset =>
    cases k <;> first | exact absurd h id | (cases h; simp [Kind.level])
  | text => cases k <;> exact absurd h id
  | metadata => cases k <;> exact absurd h id

theorem Typed.sub {h : Heap} (ht : Typed h) {p c : ObjId} (hm : (h p).mapped = true) (hc : c ∈ (h p).body.subs) :
    ∃ k, KidOk (h p).kind k (h c).kind := by
  obtain ⟨e, he, rfl⟩ := List.mem_map.mp hc
  exact ⟨e.1, ht p hm e he⟩

theorem Typed.level {h : Heap} (ht : Typed h) {a b : ObjId} (hr : Reach h a b) :
    (h b).kind.level ≤ (h a).kind.level := by
  induction hr with
  | refl => exact Nat.le_refl _
  | step p c b hm hc _ ih =>
    obtain ⟨k, hk⟩ := ht.sub hm hc
    exact Nat.le_trans ih hk.level.1

theorem Typed.below {h : Heap} (ht : Typed h) {a b : ObjId} (ha : (h a).kind = .vlist ∨ (h a).kind = .tvl)
    (hr : Reach h a b) : b = a ∨ (h b).kind.level ≤ 3 := by
  cases hr with
  | refl => exact Or.inl rfl
  | step p c b hm hc hr =>
    obtain ⟨k, hk⟩ := ht.sub hm hc
    exact Or.inr (Nat.le_trans (ht.level hr) (hk.level.2 ha))

/-! ### What holds in a process, with the classes of the parts -/

/-- The process is as it should be, and all parts have the right classes. -/
structure Sound (C : Cfg) (w : World) : Prop where
  fine : Fine C w
  typed : Typed w.heap

theorem Sound.loads {w w' : World} (hs : Sound C w) (hl : Loads C w w') : Sound C w' :=
  ⟨hl.fine, hl.typed hs.typed⟩

/-- Objects were loaded, created, or got further parts. -/
structure Grown (w w' : World) : Prop where
  next : w.next ≤ w'.next
  log : w'.repo.log = w.repo.log
  kind : ∀ j, j < w.next → (w'.heap j).kind = (w.heap j).kind
  mapped : ∀ j, j < w.next → (w.heap j).mapped = true → (w'.heap j).mapped = true
  data : ∀ j, j < w.next → (w.heap j).mapped = true → (w'.heap j).body.data = (w.heap j).body.data
  kids : ∀ j, j < w.next → (w.heap j).mapped = true → ∀ k x, dget (w.heap j).body.kids k = some x →
    dget (w'.heap j).body.kids k = some x

theorem Grown.refl (w : World) : Grown w w :=
  ⟨Nat.le_refl _, rfl, fun _ _ => rfl, fun _ _ h => h, fun _ _ _ => rfl, fun _ _ _ _ _ h => h⟩

theorem Grown.trans {a b c : World} (h : Grown a b) (h' : Grown b c) : Grown a c := by
  have hlt : ∀ j, j < a.next → j < b.next := fun j hj => Nat.lt_of_lt_of_le hj h.next
  exact ⟨Nat.le_trans h.next h'.next, h'.log.trans h.log,
    fun j hj => (h'.kind j (hlt j hj)).trans (h.kind j hj),
    fun j hj hm => h'.mapped j (hlt j hj) (h.mapped j hj hm),
    fun j hj hm => (h'.data j (hlt j hj) (h.mapped j hj hm)).trans (h.data j hj hm),
    fun j hj hm k x hd => h'.kids j (hlt j hj) (h.mapped j hj hm) k x (h.kids j hj hm k x hd)⟩

theorem Loads.grown {w w' : World} (hl : Loads C w w') : Grown w w' :=
  ⟨hl.next, hl.log, hl.kind, fun j hj hm => by rw [hl.loaded j hj hm]; exact hm,
   fun j hj hm => by rw [hl.loaded j hj hm], fun j hj hm k x hd => by rw [hl.loaded j hj hm]; exact hd⟩

theorem Grown.leads {w w' : World} (h : Grown w w') (hf : Fine C w) {a j : ObjId} {ks : List Key} (ha : a < w.next)
    (hl : Leads w.heap a ks j) : Leads w'.heap a ks j := by
  induction hl with
  | nil => exact Leads.nil _
  | cons t c hm hd _ ih =>
    exact Leads.cons t c (h.mapped _ ha hm) (h.kids _ ha hm _ _ hd) (ih (hf.kids _ hm c (dget_sub hd)))

/-- A new object -/
theorem Sound.create {w : World} (hs : Sound C w) {b : Body ObjId} (hf : Formed b)
    (hk : ∀ e ∈ b.kids, e.2.2 < w.next ∧ KidOk b.data.kind e.1 (w.heap e.2.2).kind) :
    Sound C (MM.create (Obj.new b) w) ∧ Grown w (MM.create (Obj.new b) w) := by
  have hsub : ∀ k ∈ b.subs, k < w.next := by
    intro k hk'
    obtain ⟨e, he, rfl⟩ := List.mem_map.mp hk'
    exact (hk e he).1
  have hne : ∀ j, j < w.next → (MM.create (Obj.new b) w).heap j = w.heap j := fun j hj =>
    create_ne _ w (by oomega)
  refine ⟨⟨hs.fine.create rfl hf hsub, ?_⟩, ⟨Nat.le_succ _, rfl, fun j hj => by rw [hne j hj],
    fun j hj hm => by rw [hne j hj]; exact hm, fun j hj hm => by rw [hne j hj],
    fun j hj hm k x hd => by rw [hne j hj]; exact hd⟩⟩
  intro p hp e he
  by_cases hpn : p = w.next
  · subst hpn
    rw [create_self] at he ⊢
    obtain ⟨h1, h2⟩ := hk e he
    rw [hne _ h1]; exact h2
  · rw [create_ne _ w hpn] at hp he ⊢
    rw [hne _ (hs.fine.kids p hp _ (List.mem_map.mpr ⟨e, he, rfl⟩))]
    exact hs.typed p hp e he

/-- A loaded object got one more part. -/
theorem Sound.extend {w : World} (hs : Sound C w) {i : ObjId} (hm : (w.heap i).mapped = true)
    {k : Key} {t : Str} {x : ObjId} {b : Body ObjId} (hdata : b.data = (w.heap i).body.data) (hform : Formed b)
    (hget : dget b.kids k = some (t, x))
    (hother : ∀ k', k' ≠ k → dget b.kids k' = dget (w.heap i).body.kids k')
    (hnone : dget (w.heap i).body.kids k = none) (hx : x < w.next) (hxi : ¬ Reach w.heap x i)
    (hkid : KidOk (w.heap i).kind k (w.heap x).kind) :
    Sound C (MM.edit i b w) ∧ Grown w (MM.edit i b w) := by
  have hmem : ∀ e ∈ b.kids, (e.1 = k ∧ e.2.2 = x) ∨ e ∈ (w.heap i).body.kids := by
    intro e he
    have hde := dget_of_mem hform.keys (show (e.1, e.2) ∈ b.kids from he)
    by_cases hek : e.1 = k
    · rw [hek, hget] at hde
      injection hde with hde
      exact Or.inl ⟨hek, by rw [← hde]⟩
    · rw [hother _ hek] at hde
      exact Or.inr (mem_of_dget hde)
  have hsub : ∀ c ∈ b.subs, c = x ∨ c ∈ (w.heap i).body.subs := by
    intro c hc
    obtain ⟨e, he, rfl⟩ := List.mem_map.mp hc
    rcases hmem e he with h | h
    · exact Or.inl h.2
    · exact Or.inr (List.mem_map.mpr ⟨e, h, rfl⟩)
  have hkind : ∀ j, ((MM.edit i b w).heap j).kind = (w.heap j).kind := by
    intro j
    by_cases hj : j = i
    · subst hj; rw [edit_self]; unfold Obj.kind; simp only [hdata]
    · rw [edit_ne b w hj]
  refine ⟨⟨hs.fine.edit hm hform ?_ ?_, ?_⟩, Nat.le_refl _, rfl, fun j _ => hkind j, ?_, ?_, ?_⟩
  · intro c hc
    rcases hsub c hc with rfl | h
    · exact hx
    · exact hs.fine.kids i hm c h
  · intro c hc
    rcases hsub c hc with rfl | h
    · exact hxi
    · exact hs.fine.irrefl hm h
  · intro p hp e he
    rw [hkind, hkind]
    by_cases hpi : p = i
    · subst hpi
      rw [edit_self] at he
      rcases hmem e he with ⟨h1, h2⟩ | h
      · rw [h1, h2]; exact hkid
      · exact hs.typed p hm e h
    · rw [edit_ne b w hpi] at hp he
      exact hs.typed p hp e he
  · intro j _ hj
    by_cases hji : j = i
    · subst hji; rw [edit_self]; exact hj
    · rw [edit_ne b w hji]; exact hj
  · intro j _ hj
    by_cases hji : j = i
    · subst hji; rw [edit_self]; exact hdata
    · rw [edit_ne b w hji]
  · intro j _ hj k' y hd
    by_cases hji : j = i
    · subst hji
      rw [edit_self]
      by_cases hk : k' = k
      · subst hk; rw [hnone] at hd; cases hd
      · exact (hother k' hk).trans hd
    · rw [edit_ne b w hji]; exact hd

/-- An object was added to a tree. -/
theorem Sound.added {leaf : Leaf} {i : ObjId} {q : List Str} {n : Str} {rest : List Str} {m child : ObjId} {w w' : World}
    (hs : Sound C w) (ha : AddedAt i q n rest m child w w') (hi : i < w.next) (hik : (w.heap i).kind = .mtree leaf)
    (hc : child < w.next) (hck : (w.heap child).kind = leaf.kind) (hcm : ¬ Reach w.heap child m) :
    Sound C w' ∧ Grown w w' := by
  have hle := ha.next_le
  have hm := ha.lt hs.fine hi
  have hmk : (w.heap m).kind = .mtree leaf := by
    have key : ∀ (q : List Str) (a : ObjId), (w.heap a).kind = .mtree leaf → Leads w.heap a (names q) m →
        (w.heap m).kind.isMtree = true → (w.heap m).kind = .mtree leaf := by
      intro q
      induction q with
      | nil => intro a hk hl _; cases hl; exact hk
      | cons x q ih =>
        intro a hk hl ht
        cases hl with
        | cons t c hma hd hl =>
          have := hs.typed a hma _ (mem_of_dget hd)
          rw [hk] at this
          rcases this with h | h
          · exact ih c h hl ht
          · cases q with
            | nil => cases hl; rw [h] at ht; cases leaf <;> cases ht
            | cons y q =>
              cases hl with
              | cons t' c' hm' hd' _ =>
                have h2 := hs.typed c hm' _ (mem_of_dget hd')
                rw [h] at h2
                cases leaf <;> exact absurd h2 id
    exact key q i hik ha.lead ha.tree
  have hkold : ∀ j, j < w.next → (w'.heap j).kind = (w.heap j).kind := by
    intro j hj
    by_cases hjm : j = m
    · subst hjm; rw [ha.node]; rfl
    · rw [ha.old j hjm hj]
  have hstart : KidOk (.mtree leaf) (.name n) (w'.heap (chainStart child w.next rest)).kind := by
    cases rest with
    | nil =>
      show _ ∨ _
      right
      show (w'.heap child).kind = _
      rw [hkold child hc]; exact hck
    | cons r1 rest =>
      left
      show (w'.heap w.next).kind = _
      have h := ha.chain
      cases h with
      | node _ _ _ h _ =>
        rw [h, hmk]; rfl
  refine ⟨⟨ha.fine hs.fine hi hc hcm, ?_⟩, hle, ha.log, hkold, ?_, ?_, ?_⟩
  · intro p hp e he
    by_cases hpm : p = m
    · subst hpm
      rw [hkold p hm, hmk]
      rw [ha.node] at he
      rcases List.mem_append.mp he with he | he
      · rw [hkold _ (hs.fine.kids p ha.mapped _ (List.mem_map.mpr ⟨e, he, rfl⟩)), ← hmk]
        exact hs.typed p ha.mapped e he
      · rw [List.mem_singleton.mp he]; exact hstart
    · by_cases hpl : p < w.next
      · rw [ha.old p hpm hpl] at hp he ⊢
        rw [hkold _ (hs.fine.kids p hp _ (List.mem_map.mpr ⟨e, he, rfl⟩))]
        exact hs.typed p hp e he
      · by_cases hpn : p < w'.next
        · have key : ∀ (rest : List Str) (lo : ObjId), Chain w'.heap (.mtree leaf) child lo rest → lo ≤ p →
              p < lo + rest.length → KidOk (w'.heap p).kind e.1 (w'.heap e.2.2).kind := by
            intro rest
            induction rest with
            | nil => intro lo _ h1 h2; exact absurd h2 (by simpa using h1)
            | cons x rest ih =>
              intro lo hch h1 h2
              cases hch with
              | node _ _ _ hob hch =>
                by_cases hpe : p = lo
                · subst hpe
                  rw [hob] at he ⊢
                  rw [List.mem_singleton.mp he]
                  show _ ∨ _
                  cases rest with
                  | nil => right; show (w'.heap child).kind = _; rw [hkold child hc]; exact hck
                  | cons y rest =>
                    left
                    show (w'.heap (p + 1)).kind = _
                    cases hch with
                    | node _ _ _ h _ => rw [h]; rfl
                · exact ih (lo + 1) hch (by oomega) (by simp only [List.length_cons] at h2; oomega)
          have hch := ha.chain
          rw [hmk] at hch
          exact key rest w.next hch (Nat.not_lt.mp hpl) (by rw [← ha.next]; exact hpn)
        · rw [ha.high p (Nat.not_lt.mp hpn)] at hp he ⊢
          have := hs.fine.kids p hp _ (List.mem_map.mpr ⟨e, he, rfl⟩)
          rw [hkold _ this]
          exact hs.typed p hp e he
  · intro j hj hmj
    by_cases hjm : j = m
    · subst hjm; exact ha.mapped'
    · rw [ha.old j hjm hj]; exact hmj
  · intro j hj hmj
    by_cases hjm : j = m
    · subst hjm; rw [ha.node]
    · rw [ha.old j hjm hj]
  · intro j hj hmj k x hd
    by_cases hjm : j = m
    · subst hjm
      have : k ≠ .name n := by rintro rfl; rw [ha.free] at hd; cases hd
      rw [ha.kid_ne this]; exact hd
    · rw [ha.old j hjm hj]; exact hd

/-! ### The steps -/

theorem alloc_run (o : Obj) (w : World) : alloc o w = (.ok w.next, create o w) := rfl

theorem formed_empty (k : Kind) : Formed (Body.empty k : Body ObjId) :=
  ⟨List.nodup_nil, (fun e he => by cases he), (fun _ e he => by cases he)⟩

theorem uuids_any {w : World} (hs : Fine C w) {i : ObjId} (hi : i < w.next) : Loads C w (uuids C i w).2 := by
  unfold uuids
  have hst := hs.loadsStep hi
  cases h1 : ensureMapped C i w with
  | mk r w1 =>
    rw [h1] at hst
    cases r with
    | error e1 => rw [M.bind_of_error h1]; exact hst
    | ok b => rw [M.bind_of_ok h1, M.bind_of_ok (getObj_run i w1)]; exact hst

theorem uuids_ok {w w' : World} (hs : Fine C w) {i : ObjId} (hi : i < w.next) {l : List Uuid}
    (h : uuids C i w = (.ok l, w')) : Loads C w w' ∧ (w'.heap i).mapped = true := by
  unfold uuids at h
  obtain ⟨b, w1, h1, h2⟩ := M.bind_ok h
  rw [M.bind_of_ok (getObj_run i w1)] at h2
  cases h2
  exact hs.loaded hi h1

theorem verPaths_ok {w w' : World} (hs : Fine C w) {i : ObjId} (hi : i < w.next) {l : List (Str × PPath)}
    (h : versionsAndPaths C i w = (.ok l, w')) : Loads C w w' ∧ (w'.heap i).mapped = true := by
  unfold versionsAndPaths at h
  obtain ⟨b, w1, h1, h2⟩ := M.bind_ok h
  rw [M.bind_of_ok (getObj_run i w1)] at h2
  cases h2
  exact hs.loaded hi h1

/-- Nothing under a key of a loaded object -/
theorem dget_of_absent {w : World} (hs : Fine C w) {i : ObjId} (hm : (w.heap i).mapped = true) {k : Key} (hk : k ≠ .ft)
    (h : look C w.repo.log w.heap [k] [] (.mem i) = .absent) : dget (w.heap i).body.kids k = none := by
  cases hd : dget (w.heap i).body.kids k with
  | none => rfl
  | some x => exact absurd h ((look_entry hs hm hk).mpr ⟨x, mem_of_dget hd⟩)

theorem look_of_dget {w : World} (hs : Fine C w) {i : ObjId} (hm : (w.heap i).mapped = true) {k : Key} (hk : k ≠ .ft)
    {x : Str × ObjId} (h : dget (w.heap i).body.kids k = some x) :
    look C w.repo.log w.heap [k] [] (.mem i) ≠ .absent :=
  (look_entry hs hm hk).mpr ⟨x, mem_of_dget h⟩

/-- How getting the version list of a dataset id ends -/
inductive ListCase (C : Cfg) (auto : Option Bool) (us : ObjId) (u : Uuid) (w : World) :
    Except PyErr (Option ObjId) → World → Prop
  | failed (w' : World) : Loads C w w' → ListCase C auto us u w (.error .runtime) w'
  | none (w' : World) : Loads C w w' → noCreate auto = true →
      look C w.repo.log w.heap [.uuid u] [] (.mem us) = .absent → ListCase C auto us u w (.ok none) w'
  | found (w' : World) (t : Str) (vl : ObjId) : Loads C w w' → (w'.heap us).mapped = true →
      dget (w'.heap us).body.kids (.uuid u) = some (t, vl) → ListCase C auto us u w (.ok (some vl)) w'
  | made (w1 : World) : Loads C w w1 → (w1.heap us).mapped = true → noCreate auto = false →
      look C w.repo.log w.heap [.uuid u] [] (.mem us) = .absent →
      dget (w1.heap us).body.kids (.uuid u) = .none →
      ListCase C auto us u w (.ok (some w1.next)) (MM.edit us ⟨(w1.heap us).body.data,
        dset (w1.heap us).body.kids (.uuid u) ([], w1.next)⟩ (MM.create (Obj.new (Body.empty .vlist)) w1))

theorem listFor_case {w : World} (hs : Fine C w) (auto : Option Bool) {us : ObjId} (hu : us < w.next) (u : Uuid) :
    ListCase C auto us u w (listFor C auto us u w).1 (listFor C auto us u w).2 := by
  unfold listFor
  cases h1 : uuids C us w with
  | mk r w1 =>
    have hst := uuids_any hs hu
    rw [h1] at hst
    cases r with
    | error e =>
      rw [M.bind_of_error h1]
      have : e = .runtime := by
        unfold uuids at h1
        cases h2 : ensureMapped C us w with
        | mk r2 w2 =>
          cases r2 with
          | error e2 => rw [M.bind_of_error h2] at h1; cases h1; exact hs.loadError h2
          | ok b => rw [M.bind_of_ok h2, M.bind_of_ok (getObj_run us w2)] at h1; cases h1
      subst this
      exact .failed w1 hst
    | ok l =>
      rw [M.bind_of_ok h1]
      obtain ⟨_, hm⟩ := uuids_ok hs hu h1
      obtain ⟨_, hmem, _⟩ := C34_list hs hu h1
      have hu1 : us < w1.next := Nat.lt_of_lt_of_le hu hst.next
      by_cases hin : u ∈ l
      · rw [if_pos hin]
        have hg := C34_get hst.fine hu1 u
        have hany : Loads C w1 (getVersionList C us u w1).2 := by
          rw [getVersionList_part]
          have := part_any hst.fine .key hu1 (.uuid u)
          cases h : part C .key us (.uuid u) w1 with
          | mk r w' =>
            rw [h] at this
            cases r with
            | error e => rw [M.bind_of_error h]; exact this
            | ok x => rw [M.bind_of_ok h]; exact this
        cases h2 : getVersionList C us u w1 with
        | mk r2 w2 =>
          rw [h2] at hg hany
          cases r2 with
          | error e =>
            rw [M.bind_of_error h2]
            rcases hg.2.2.1 e rfl with h3 | ⟨_, h3⟩
            · subst h3; exact .failed w2 (hst.trans hany)
            · rw [← hst.content us hu] at h3
              exact absurd h3 ((hmem u).mp hin)
          | ok x =>
            rw [M.bind_of_ok h2]
            rw [getVersionList_part] at h2
            obtain ⟨y, w3, h3, h4⟩ := M.bind_ok h2
            cases h4
            obtain ⟨_, hm2, hd⟩ := part_ok hst.fine hu1 h3
            exact .found _ y.1 y.2 (hst.trans hany) hm2 hd
      · rw [if_neg hin]
        have habs : look C w.repo.log w.heap [.uuid u] [] (.mem us) = .absent :=
          Classical.byContradiction fun h => hin ((hmem u).mpr h)
        by_cases hc : noCreate auto = true
        · rw [if_pos hc]
          exact .none w1 hst hc habs
        · rw [if_neg hc, M.bind_of_ok (alloc_run _ w1), M.bind_of_ok (setVersionList_run ..)]
          have hne : us ≠ w1.next := by oomega
          have h5 : (MM.create (Obj.new (Body.empty .vlist)) w1).heap us = w1.heap us := create_ne _ _ hne
          simp only [h5]
          exact .made w1 hst hm (by simpa using hc) habs
            (dget_of_absent hst.fine hm (by simp) (by rw [← hst.content us hu]; exact habs))

/-- How getting the dataset tree of a version ends -/
inductive TreeCase (C : Cfg) (auto : Option Bool) (now : Str) (tvl : ObjId) (v : Str) (p : PPath) (w : World) :
    Except PyErr (Option ObjId) → World → Prop
  | failed (w' : World) : Loads C w w' → TreeCase C auto now tvl v p w (.error .runtime) w'
  | none (w' : World) : Loads C w w' → noCreate auto = true →
      look C w.repo.log w.heap [.ver v p] [] (.mem tvl) = .absent → TreeCase C auto now tvl v p w (.ok none) w'
  | found (w' : World) (t : Str) (dt : ObjId) : Loads C w w' → (w'.heap tvl).mapped = true →
      dget (w'.heap tvl).body.kids (.ver v p) = some (t, dt) → TreeCase C auto now tvl v p w (.ok (some dt)) w'
  | made (w1 : World) : Loads C w w1 → (w1.heap tvl).mapped = true → noCreate auto = false →
      look C w.repo.log w.heap [.ver v p] [] (.mem tvl) = .absent →
      dget (w1.heap tvl).body.kids (.ver v p) = .none →
      TreeCase C auto now tvl v p w (.ok (some w1.next)) (MM.edit tvl ⟨(w1.heap tvl).body.data,
        vset (w1.heap tvl).body.kids v p (now, w1.next)⟩ (MM.create (Obj.new (Body.empty (.mtree .mrr))) w1))

theorem verPaths_error {w w' : World} (hs : Fine C w) {i : ObjId} {e : PyErr}
    (h : versionsAndPaths C i w = (.error e, w')) : e = .runtime := by
  unfold versionsAndPaths at h
  cases h2 : ensureMapped C i w with
  | mk r2 w2 =>
    cases r2 with
    | error e2 => rw [M.bind_of_error h2] at h; cases h; exact hs.loadError h2
    | ok b => rw [M.bind_of_ok h2, M.bind_of_ok (getObj_run i w2)] at h; cases h

theorem treeFor_case {w : World} (hs : Fine C w) (auto : Option Bool) (now : Str) {tvl : ObjId} (hu : tvl < w.next)
    (v : Str) (p : PPath) :
    TreeCase C auto now tvl v p w (treeFor C auto now tvl v p w).1 (treeFor C auto now tvl v p w).2 := by
  unfold treeFor
  cases h1 : versionsAndPaths C tvl w with
  | mk r w1 =>
    have hst := versionsAndPaths_any hs hu
    rw [h1] at hst
    cases r with
    | error e =>
      rw [M.bind_of_error h1, verPaths_error hs h1]
      exact .failed w1 hst
    | ok l =>
      rw [M.bind_of_ok h1]
      obtain ⟨_, hm⟩ := verPaths_ok hs hu h1
      obtain ⟨_, hmem, _⟩ := C32_list hs hu h1
      have hu1 : tvl < w1.next := Nat.lt_of_lt_of_le hu hst.next
      by_cases hin : (v, p) ∈ l
      · rw [if_pos hin]
        have hg := C32_get hst.fine hu1 v p
        have hany := getVersioned_any hst.fine hu1 v p
        cases h2 : getVersioned C tvl v p w1 with
        | mk r2 w2 =>
          rw [h2] at hg hany
          cases r2 with
          | error e =>
            rw [M.bind_of_error h2]
            rcases hg.2.2.1 e rfl with h3 | ⟨_, h3⟩
            · subst h3; exact .failed w2 (hst.trans hany)
            · rw [← hst.content tvl hu] at h3
              exact absurd h3 ((hmem v p).mp hin)
          | ok x =>
            rw [M.bind_of_ok h2]
            rw [getVersioned_part] at h2
            obtain ⟨y, w3, h3, h4⟩ := M.bind_ok h2
            cases h4
            obtain ⟨_, hm2, hd⟩ := part_ok hst.fine hu1 h3
            exact .found _ y.1 y.2 (hst.trans hany) hm2 hd
      · rw [if_neg hin]
        have habs : look C w.repo.log w.heap [.ver v p] [] (.mem tvl) = .absent :=
          Classical.byContradiction fun h => hin ((hmem v p).mpr h)
        by_cases hc : noCreate auto = true
        · rw [if_pos hc]
          exact .none w1 hst hc habs
        · rw [if_neg hc, M.bind_of_ok (alloc_run _ w1)]
          have hne : tvl ≠ w1.next := by oomega
          have h5 : (MM.create (Obj.new (Body.empty (.mtree .mrr))) w1).heap tvl = w1.heap tvl := create_ne _ _ hne
          have hset : setVersioned C tvl v now p w1.next (MM.create (Obj.new (Body.empty (.mtree .mrr))) w1) =
              (.ok (), MM.edit tvl ⟨(w1.heap tvl).body.data, vset (w1.heap tvl).body.kids v p (now, w1.next)⟩
                (MM.create (Obj.new (Body.empty (.mtree .mrr))) w1)) := by
            unfold setVersioned
            rw [M.bind_of_ok (ensureMapped_mapped (by rw [h5]; exact hm)), M.bind_of_ok (getObj_run tvl _), change_run, h5]
          rw [M.bind_of_ok hset]
          exact .made w1 hst hm (by simpa using hc) habs
            (dget_of_absent hst.fine hm (by simp) (by rw [← hst.content tvl hu]; exact habs))

/-- How entering a record in a version list ends -/
inductive EntryCase (C : Cfg) (vl : ObjId) (v now : Str) (p : PPath) (x : ObjId) (w : World) :
    Except PyErr Unit → World → Prop
  | failed (w' : World) : Loads C w w' → EntryCase C vl v now p x w (.error .runtime) w'
  | known (w' : World) (y : Str × ObjId) : Loads C w w' → (w'.heap vl).mapped = true →
      dget (w'.heap vl).body.kids (.ver v p) = some y → EntryCase C vl v now p x w (.ok ()) w'
  | entered (w1 : World) : Loads C w w1 → (w1.heap vl).mapped = true →
      look C w.repo.log w.heap [.ver v p] [] (.mem vl) = .absent →
      dget (w1.heap vl).body.kids (.ver v p) = none →
      EntryCase C vl v now p x w (.ok ()) (MM.edit vl ⟨(w1.heap vl).body.data,
        vset (w1.heap vl).body.kids v p (now, x)⟩ w1)

theorem entryFor_case {w : World} (hs : Fine C w) {vl : ObjId} (hu : vl < w.next) (v now : Str) (p : PPath) (x : ObjId) :
    EntryCase C vl v now p x w (entryFor C vl v now p x w).1 (entryFor C vl v now p x w).2 := by
  unfold entryFor
  cases h1 : versionsAndPaths C vl w with
  | mk r w1 =>
    have hst := versionsAndPaths_any hs hu
    rw [h1] at hst
    cases r with
    | error e =>
      rw [M.bind_of_error h1, verPaths_error hs h1]
      exact .failed w1 hst
    | ok l =>
      rw [M.bind_of_ok h1]
      obtain ⟨_, hm⟩ := verPaths_ok hs hu h1
      obtain ⟨_, hmem, _⟩ := C32_list hs hu h1
      by_cases hin : (v, p) ∈ l
      · rw [if_pos hin]
        have hne := (hmem v p).mp hin
        rw [hst.content vl hu] at hne
        obtain ⟨y, hy⟩ := (look_entry hst.fine hm (by simp)).mp hne
        exact .known w1 y hst hm (dget_of_mem (hst.fine.formed vl hm).keys hy)
      · rw [if_neg hin]
        have habs : look C w.repo.log w.heap [.ver v p] [] (.mem vl) = .absent :=
          Classical.byContradiction fun h => hin ((hmem v p).mpr h)
        have hset : setVersioned C vl v now p x w1 =
            (.ok (), MM.edit vl ⟨(w1.heap vl).body.data, vset (w1.heap vl).body.kids v p (now, x)⟩ w1) := by
          unfold setVersioned
          rw [M.bind_of_ok (ensureMapped_mapped hm), M.bind_of_ok (getObj_run vl _), change_run]
        rw [hset]
        exact .entered w1 hst hm habs
          (dget_of_absent hst.fine hm (by simp) (by rw [← hst.content vl hu]; exact habs))

/-- The objects of a new root record -/
def madeRecord (id : Uuid) (v : Str) (w : World) : World :=
  MM.create (Obj.new ⟨.mrr (some id) (some v), mrrKids (some w.next) (some (w.next + 1))⟩)
    (MM.create (Obj.new (Body.empty (.mtree .metadata))) (MM.create (Obj.new (Body.empty .metadata)) w))

/-- How getting the root record at a path ends -/
inductive RecordCase (C : Cfg) (auto : Option Bool) (dt : ObjId) (path : List Str) (id : Uuid) (v : Str) (w : World) :
    Except PyErr (Option ObjId) → World → Prop
  | failed (w' : World) (e : PyErr) : Loads C w w' →
      (e = .runtime ∨ (e = .type ∧ (w.heap dt).kind.isMtree = false) ∨
        (e = .assertion ∧ look C w.repo.log w.heap (names (path ++ [rootRecordName])) [] (.mem dt) ≠ .absent)) →
      RecordCase C auto dt path id v w (.error e) w'
  | none (w' : World) : Loads C w w' → noCreate auto = true → (w.heap dt).kind.isMtree = true →
      (∀ ks, look C w.repo.log w.heap (names (path ++ [rootRecordName]) ++ ks) [] (.mem dt) = .absent) →
      RecordCase C auto dt path id v w (.ok none) w'
  | found (w' : World) (m : ObjId) : Loads C w w' → (w.heap dt).kind.isMtree = true →
      Leads w'.heap dt (names (path ++ [rootRecordName])) m → (w'.heap m).mapped = true →
      (w'.heap m).kind = .mrr → RecordCase C auto dt path id v w (.ok (some m)) w'
  | made (w0 w1 w' : World) (q : List Str) (n : Str) (rest : List Str) (node : ObjId) : Loads C w w0 →
      noCreate auto = false → (w.heap dt).kind.isMtree = true →
      (∀ ks, look C w.repo.log w.heap (names (path ++ [rootRecordName]) ++ ks) [] (.mem dt) = .absent) →
      path ++ [rootRecordName] = q ++ n :: rest → Loads C (madeRecord id v w0) w1 →
      AddedAt dt q n rest node (w0.next + 2) w1 w' →
      RecordCase C auto dt path id v w (.ok (some (w0.next + 2))) w'
  | refused (w0 w' : World) (e : PyErr) : Loads C w w0 → noCreate auto = false → (w.heap dt).kind.isMtree = true →
      (∀ ks, look C w.repo.log w.heap (names (path ++ [rootRecordName]) ++ ks) [] (.mem dt) = .absent) →
      Loads C (madeRecord id v w0) w' → RecordCase C auto dt path id v w (.error e) w'

theorem formed_record (id : Uuid) (v : Str) (m f : ObjId) :
    Formed (⟨.mrr (some id) (some v), mrrKids (some m) (some f)⟩ : Body ObjId) := by
  refine ⟨nodup_mrrKids (some m) (some f), fun e he => ?_, fun _ e he => (mem_mrrKids (dlm := some m) (ft := some f) he).2⟩
  rcases List.mem_cons.mp he with h | he
  · rw [h]; rfl
  · rw [List.mem_singleton.mp he]; rfl

theorem madeRecord_spec {w : World} (hs : Fine C w) (id : Uuid) (v : Str) :
    Fine C (madeRecord id v w) ∧ (madeRecord id v w).next = w.next + 3 ∧ (madeRecord id v w).repo = w.repo ∧
      (∀ j, j < w.next → (madeRecord id v w).heap j = w.heap j) ∧
      (madeRecord id v w).heap w.next = Obj.new (Body.empty .metadata) ∧
      (madeRecord id v w).heap (w.next + 1) = Obj.new (Body.empty (.mtree .metadata)) ∧
      (madeRecord id v w).heap (w.next + 2) =
        Obj.new ⟨.mrr (some id) (some v), mrrKids (some w.next) (some (w.next + 1))⟩ := by
  have h1 := hs.create (o := Obj.new (Body.empty .metadata)) rfl (formed_empty _) (by intro k hk; cases hk)
  have h2 := h1.create (o := Obj.new (Body.empty (.mtree .metadata))) rfl (formed_empty _) (by intro k hk; cases hk)
  have h3 := h2.create (o := Obj.new ⟨.mrr (some id) (some v), mrrKids (some w.next) (some (w.next + 1))⟩) rfl
    (formed_record id v _ _) (by
      intro k hk
      have : k = w.next ∨ k = w.next + 1 := by
        rcases List.mem_cons.mp hk with h | hk
        · exact Or.inl h
        · exact Or.inr (List.mem_singleton.mp hk)
      show k < w.next + 1 + 1
      oomega)
  refine ⟨h3, rfl, rfl, ?_, ?_, ?_, ?_⟩
  · intro j hj
    unfold madeRecord
    rw [create_ne _ _ (by show j ≠ w.next + 1 + 1; oomega), create_ne _ _ (by show j ≠ w.next + 1; oomega),
      create_ne _ _ (by oomega)]
  · unfold madeRecord
    rw [create_ne _ _ (by show w.next ≠ w.next + 1 + 1; oomega), create_ne _ _ (by show w.next ≠ w.next + 1; oomega),
      create_self]
  · unfold madeRecord
    rw [create_ne _ _ (by show w.next + 1 ≠ w.next + 1 + 1; oomega)]
    exact create_self _ (MM.create (Obj.new (Body.empty .metadata)) w)
  · exact create_self _ (MM.create (Obj.new (Body.empty (.mtree .metadata))) (MM.create (Obj.new (Body.empty .metadata)) w))

theorem recordFor_case {w : World} (hs : Fine C w) (auto : Option Bool) {dt : ObjId} (hd : dt < w.next)
    {path : List Str} (hp : ∀ n ∈ path, CompOk n) (id : Uuid) (v : Str) :
    RecordCase C auto dt path id v w (recordFor C auto dt path id v w).1 (recordFor C auto dt path id v w).2 := by
  unfold recordFor
  rw [M.bind_of_ok (getObj_run dt w)]
  by_cases hk' : (w.heap dt).kind.isMtree = false
  · rw [if_pos (by simp [hk'])]
    exact .failed w _ (Loads.refl hs) (Or.inr (Or.inl ⟨rfl, hk'⟩))
  have hk : (w.heap dt).kind.isMtree = true := by simpa using hk'
  rw [if_neg (by simp [hk])]
  have hst := getObjectAt_any (C := C) (path ++ [rootRecordName]) hs hd
  cases h1 : getObjectAt C (path ++ [rootRecordName]) dt w with
  | mk r w0 =>
    rw [h1] at hst
    cases r with
    | error e =>
      have hh : hasDataset C dt path w = (.error e, w0) := M.bind_of_error h1
      rw [M.bind_of_error hh]
      exact .failed w0 e hst (Or.inl (getObjectAt_error _ hs hd h1))
    | ok c =>
      have hh : hasDataset C dt path w = (.ok c.isSome, w0) := by
        unfold hasDataset
        rw [M.bind_of_ok h1]; rfl
      rw [M.bind_of_ok hh]
      have hd0 : dt < w0.next := Nat.lt_of_lt_of_le hd hst.next
      cases c with
      | some m =>
        obtain ⟨hlead, hm⟩ := getObjectAt_some _ hs hd h1
        rw [if_pos (show (some m).isSome = true from rfl)]
        have hg : getObjectAt C (path ++ [rootRecordName]) dt w0 = (.ok (some m), w0) :=
          getObjectAt_leads hst.fine.plain hlead
        unfold getRootRecord
        rw [M.bind_of_ok hg]
        simp only
        rw [M.bind_of_ok (getObj_run m w0)]
        have hthere : look C w.repo.log w.heap (names (path ++ [rootRecordName])) [] (.mem dt) ≠ .absent := by
          rw [hst.content dt hd]
          have := hlead.look (C := C) (L := w0.repo.log) hst.fine.plain []
          rw [List.append_nil] at this
          rw [this]
          obtain ⟨b, hb⟩ := view_ok_of_look (hst.fine.all m [] [])
          rw [look_nil _ hb]
          simp
        by_cases hmk : (w0.heap m).kind = .mrr
        · rw [decide_eq_true hmk, M.bind_of_ok (M.assert_true w0)]
          have hst2 := hst.fine.loadsStep hm
          cases he : ensureMapped C m w0 with
          | mk r2 w2 =>
            rw [he] at hst2
            cases r2 with
            | error e =>
              rw [M.bind_of_error he]
              exact .failed w2 e (hst.trans hst2) (Or.inl (hst.fine.loadError he))
            | ok b =>
              rw [M.bind_of_ok he]
              obtain ⟨_, hmm⟩ := hst.fine.loaded hm he
              exact .found w2 m (hst.trans hst2) hk (hst2.grown.leads hst.fine hd0 hlead) hmm
                ((hst2.kind m hm).trans hmk)
        · rw [decide_eq_false hmk]
          exact .failed w0 _ hst (Or.inr (Or.inr ⟨rfl, hthere⟩))
      | none =>
        have habs := getObjectAt_none _ hs hd h1
        rw [if_neg (by simp)]
        by_cases hc : noCreate auto = true
        · rw [if_pos hc]
          exact .none w0 hst hc hk habs
        · have hc' : noCreate auto = false := by simpa using hc
          rw [if_neg hc, M.bind_of_ok (alloc_run _ w0), M.bind_of_ok (alloc_run _ _), M.bind_of_ok (alloc_run _ _)]
          obtain ⟨hf3, hn3, _, hold, _⟩ := madeRecord_spec hst.fine id v
          have hd3 : dt < (madeRecord id v w0).next := Nat.lt_of_lt_of_le hd0 (by rw [hn3]; exact Nat.le_add_right _ _)
          have hk3 : ((madeRecord id v w0).heap dt).kind.isMtree = true := by
            rw [hold dt hd0, hst.kind dt hd]; exact hk
          show RecordCase C auto dt path id v w
            ((addDataset C dt path (w0.next + 2) >>= fun _ => pure (some (w0.next + 2)) : W _) (madeRecord id v w0)).1
            ((addDataset C dt path (w0.next + 2) >>= fun _ => pure (some (w0.next + 2)) : W _) (madeRecord id v w0)).2
          cases ha : addDataset C dt path (w0.next + 2) (madeRecord id v w0) with
          | mk r3 w3 =>
            cases r3 with
            | error e =>
              rw [M.bind_of_error ha]
              have h4 := addChildAt_error (C := C) _ (compOk_dataset hp) hf3 hd3 ha
              exact .refused w0 w3 e hst hc' hk habs h4
            | ok u =>
              rw [M.bind_of_ok ha]
              obtain ⟨w1, q, n, rest, node, e1, hl, had⟩ := addChildAt_ok (C := C) _ (compOk_dataset hp) hf3 hd3 hk3 ha
              exact .made w0 w1 w3 q n rest node hst hc' hk habs e1 hl had

end MM
