/-
When content stays the same although objects are loaded, purged or changed.
-/
import Verif.Read

namespace MM

/-! ### References inside of stored objects -/

/-- A reference inside of a stored object, as the mappers read it. -/
def LinkOk (l : Link) : Prop :=
  l.kind ≠ .tvl ∧ (l.kind = .mtree .mrr → l.ref.cls = c!"MTreeNode" ∨ l.ref.cls = c!"DatasetTree")

theorem mem_vset {α : Type} {l : List (Key × α)} {v : Str} {p : PPath} {x : α} {e : Key × α}
    (h : e ∈ vset l v p x) : e = (.ver v p, x) ∨ e ∈ l := by
  unfold vset at h
  simp only at h
  split at h
  · exact mem_dset h
  · split at h
    · rcases List.mem_append.mp h with h | h
      · exact Or.inr h
      · exact Or.inl (List.mem_singleton.mp h)
    · rcases List.mem_append.mp h with h | h
      · exact Or.inr (List.mem_of_mem_take h)
      · rcases List.mem_cons.mp h with h | h
        · exact Or.inl h
        · right
          exact List.mem_reverse.mp (List.takeWhile_sublist _ |>.subset (List.mem_reverse.mp h))

theorem mem_fromItems {α β : Type} [DecidableEq α] {l : List (α × β)} {e : α × β}
    (h : e ∈ fromItems l) : e ∈ l := by
  have key : ∀ (l : List (α × β)) (acc : List (α × β)),
      e ∈ l.foldl (fun acc e => dset acc e.1 e.2) acc → e ∈ acc ∨ e ∈ l := by
    intro l
    induction l with
    | nil => intro acc h; exact Or.inl h
    | cons a l ih =>
      intro acc h
      rcases ih _ h with h | h
      · rcases mem_dset h with h | h
        · right; rw [h]; exact List.mem_cons_self ..
        · exact Or.inl h
      · exact Or.inr (List.mem_cons_of_mem _ h)
  rcases key l [] h with h | h
  · cases h
  · exact h

theorem eachOk_mem {α β : Type} {f : α → Except PyErr β} {as : List α} {bs : List β} {b : β}
    (h : eachOk f as = .ok bs) (hb : b ∈ bs) : ∃ a ∈ as, f a = .ok b := by
  induction as generalizing bs with
  | nil => cases h; cases hb
  | cons a as ih =>
    unfold eachOk at h
    obtain ⟨b0, h0, h⟩ := ok_bind h
    obtain ⟨bs', h1, h⟩ := ok_bind h
    cases h
    rcases List.mem_cons.mp hb with hb | hb
    · subst hb; exact ⟨a, List.mem_cons_self .., h0⟩
    · obtain ⟨x, hx, e⟩ := ih h1 hb
      exact ⟨x, List.mem_cons_of_mem _ hx, e⟩

theorem vrecs_links {j : Json} {ks : List (Key × (Str × Link))} (h : vrecsFromJson j = .ok ks) :
    ∀ e ∈ ks, LinkOk e.2.2 := by
  unfold vrecsFromJson at h
  obtain ⟨js, _, h⟩ := ok_bind h
  obtain ⟨rs, h2, h⟩ := ok_bind h
  cases h
  have hrs : ∀ e ∈ rs, LinkOk e.2.2.2 := by
    intro e he
    obtain ⟨j', _, hj⟩ := eachOk_mem h2 he
    unfold vrecFromJson at hj
    obtain ⟨rj, _, hj⟩ := ok_bind hj
    obtain ⟨ref, _, hj⟩ := ok_bind hj
    obtain ⟨link, hl, hj⟩ := ok_bind hj
    obtain ⟨_, _, hj⟩ := ok_bind hj
    obtain ⟨_, _, hj⟩ := ok_bind hj
    obtain ⟨_, _, hj⟩ := ok_bind hj
    cases hj
    show LinkOk link
    unfold vrecLink at hl
    split at hl
    · rename_i hc; cases hl; exact ⟨by simp, fun _ => hc.symm⟩
    · split at hl
      · cases hl; exact ⟨by simp, by simp⟩
      · cases hl
  have key : ∀ (rs : List (Str × PPath × Str × Link)) (acc : List (Key × (Str × Link))),
      (∀ e ∈ rs, LinkOk e.2.2.2) → (∀ e ∈ acc, LinkOk e.2.2) →
      ∀ e ∈ rs.foldl (fun acc e => vset acc e.1 e.2.1 e.2.2) acc, LinkOk e.2.2 := by
    intro rs
    induction rs with
    | nil => intro acc _ h2 e he; exact h2 e he
    | cons a rs ih =>
      intro acc h1 h2
      refine ih _ (fun e he => h1 e (List.mem_cons_of_mem _ he)) ?_
      intro e he
      rcases mem_vset he with he | he
      · rw [he]; exact h1 a (List.mem_cons_self ..)
      · exact h2 e he
  exact key rs [] hrs (by simp)

theorem mrrLink_ok {k : Kind} {j : Json} {l : Link} (h : mrrLink k j = .ok (some l)) :
    l.kind = k ∧ l.ref.isNone = false := by
  unfold mrrLink at h
  obtain ⟨ref, _, h⟩ := ok_bind h
  split at h
  · cases h
  · rename_i hn; cases h; exact ⟨rfl, by simpa using hn⟩

theorem decode_links {C : Cfg} {L : Log} {r : Realm} {k : Kind} {loc : Str} {b : Body Link}
    (h : decode C L r k loc = .ok b) : b.data.kind = k ∧ ∀ e ∈ b.kids, LinkOk e.2.2 := by
  cases k with
  | text => simp only [decode] at h; obtain ⟨s, _, h⟩ := ok_bind h; cases h; exact ⟨rfl, by simp⟩
  | metadata =>
    simp only [decode] at h
    obtain ⟨s, _, h⟩ := ok_bind h
    obtain ⟨ref, _, h⟩ := ok_bind h
    cases hl : ref.loc with
    | none => rw [hl] at h; cases h
    | some l =>
      rw [hl] at h
      obtain ⟨s, _, h⟩ := ok_bind h
      obtain ⟨m, _, h⟩ := ok_bind h
      cases h
      exact ⟨rfl, by simp⟩
  | mtree leaf =>
    simp only [decode] at h
    obtain ⟨es, _, h⟩ := ok_bind h
    obtain ⟨es', _, h⟩ := ok_bind h
    cases h
    refine ⟨rfl, fun e he => ?_⟩
    obtain ⟨e', _, rfl⟩ := List.mem_map.mp (mem_fromItems he)
    unfold childOf
    simp only
    split
    · exact ⟨by simp, fun _ => Or.inl rfl⟩
    · exact ⟨by cases leaf <;> simp [Leaf.kind], by cases leaf <;> simp [Leaf.kind]⟩
  | mrr =>
    simp only [decode] at h
    obtain ⟨j, _, h⟩ := ok_bind h
    unfold mrrFromJson at h
    obtain ⟨_, _, h⟩ := ok_bind h
    obtain ⟨dlm, h1, h⟩ := ok_bind h
    obtain ⟨_, _, h⟩ := ok_bind h
    obtain ⟨ft, h2, h⟩ := ok_bind h
    obtain ⟨_, _, h⟩ := ok_bind h
    obtain ⟨_, _, h⟩ := ok_bind h
    obtain ⟨_, _, h⟩ := ok_bind h
    obtain ⟨_, _, h⟩ := ok_bind h
    cases h
    refine ⟨rfl, fun e he => ?_⟩
    simp only [mrrKids] at he
    rcases List.mem_append.mp he with he | he
    · cases dlm with
      | none => cases he
      | some d =>
        rw [List.mem_singleton.mp he]
        have := (mrrLink_ok h1).1
        exact ⟨by simp [this], by simp [this]⟩
    · cases ft with
      | none => cases he
      | some d =>
        rw [List.mem_singleton.mp he]
        have := (mrrLink_ok h2).1
        exact ⟨by simp [this], by simp [this]⟩
  | vlist =>
    simp only [decode] at h
    obtain ⟨j, _, h⟩ := ok_bind h
    obtain ⟨ks, h1, h⟩ := ok_bind h
    cases h
    exact ⟨rfl, vrecs_links h1⟩
  | tvl =>
    simp only [decode] at h
    obtain ⟨j, _, h⟩ := ok_bind h
    obtain ⟨ks, h1, h⟩ := ok_bind h
    cases h
    exact ⟨rfl, vrecs_links h1⟩
  | uuidset =>
    simp only [decode] at h
    obtain ⟨es, _, h⟩ := ok_bind h
    obtain ⟨es', _, h⟩ := ok_bind h
    obtain ⟨ks, h1, h⟩ := ok_bind h
    cases h
    refine ⟨rfl, fun e he => ?_⟩
    obtain ⟨e', _, h2⟩ := eachOk_mem h1 (mem_fromItems he)
    unfold uuidEntry at h2
    obtain ⟨u, _, h2⟩ := ok_bind h2
    cases h2
    exact ⟨by simp, by simp⟩

theorem nodup_vset {α : Type} {l : List (Key × α)} {v : Str} {p : PPath} {x : α}
    (h : (dkeys l).Nodup) : (dkeys (vset l v p x)).Nodup := by
  by_cases hm : Key.ver v p ∈ dkeys l
  · have : (dget l (.ver v p)).isSome = true := dget_isSome.mpr hm
    unfold vset
    simp only [this, if_true]
    exact nodup_dset h _ _
  · have hp := (vset_perm x hm).map Prod.fst
    refine hp.symm.nodup ?_
    show ((Key.ver v p, x) :: l).map Prod.fst |>.Nodup
    rw [List.map_cons]
    exact List.nodup_cons.mpr ⟨hm, h⟩

theorem nodup_fromItems {α β : Type} [DecidableEq α] (l : List (α × β)) :
    (dkeys (fromItems l)).Nodup := by
  have key : ∀ (l acc : List (α × β)), (dkeys acc).Nodup →
      (dkeys (l.foldl (fun acc e => dset acc e.1 e.2) acc)).Nodup := by
    intro l
    induction l with
    | nil => intro acc h; exact h
    | cons a l ih => intro acc h; exact ih _ (nodup_dset h _ _)
  exact key l [] List.nodup_nil

theorem nodup_vrecs {j : Json} {ks : List (Key × (Str × Link))} (h : vrecsFromJson j = .ok ks) :
    (dkeys ks).Nodup := by
  unfold vrecsFromJson at h
  obtain ⟨js, _, h⟩ := ok_bind h
  obtain ⟨rs, h2, h⟩ := ok_bind h
  cases h
  have key : ∀ (rs : List (Str × PPath × Str × Link)) (acc : List (Key × (Str × Link))),
      (dkeys acc).Nodup →
      (dkeys (rs.foldl (fun acc e => vset acc e.1 e.2.1 e.2.2) acc)).Nodup := by
    intro rs
    induction rs with
    | nil => intro acc h; exact h
    | cons a rs ih => intro acc h; exact ih _ (nodup_vset h)
  exact key rs [] List.nodup_nil

/-- What is read holds every key once. -/
theorem decode_nodup {C : Cfg} {L : Log} {r : Realm} {k : Kind} {loc : Str} {b : Body Link}
    (h : decode C L r k loc = .ok b) : (dkeys b.kids).Nodup := by
  cases k with
  | text => simp only [decode] at h; obtain ⟨s, _, h⟩ := ok_bind h; cases h; exact List.nodup_nil
  | metadata =>
    simp only [decode] at h
    obtain ⟨s, _, h⟩ := ok_bind h
    obtain ⟨ref, _, h⟩ := ok_bind h
    cases hl : ref.loc with
    | none => rw [hl] at h; cases h
    | some l =>
      rw [hl] at h
      obtain ⟨s, _, h⟩ := ok_bind h
      obtain ⟨m, _, h⟩ := ok_bind h
      cases h
      exact List.nodup_nil
  | mtree leaf =>
    simp only [decode] at h
    obtain ⟨es, _, h⟩ := ok_bind h
    obtain ⟨es', _, h⟩ := ok_bind h
    cases h
    exact nodup_fromItems _
  | mrr =>
    simp only [decode] at h
    obtain ⟨j, _, h⟩ := ok_bind h
    unfold mrrFromJson at h
    obtain ⟨_, _, h⟩ := ok_bind h
    obtain ⟨dlm, h1, h⟩ := ok_bind h
    obtain ⟨_, _, h⟩ := ok_bind h
    obtain ⟨ft, h2, h⟩ := ok_bind h
    obtain ⟨_, _, h⟩ := ok_bind h
    obtain ⟨_, _, h⟩ := ok_bind h
    obtain ⟨_, _, h⟩ := ok_bind h
    obtain ⟨_, _, h⟩ := ok_bind h
    cases h
    cases dlm <;> cases ft <;> simp [mrrKids, dkeys]
  | vlist =>
    simp only [decode] at h
    obtain ⟨j, _, h⟩ := ok_bind h
    obtain ⟨ks, h1, h⟩ := ok_bind h
    cases h
    exact nodup_vrecs h1
  | tvl =>
    simp only [decode] at h
    obtain ⟨j, _, h⟩ := ok_bind h
    obtain ⟨ks, h1, h⟩ := ok_bind h
    cases h
    exact nodup_vrecs h1
  | uuidset =>
    simp only [decode] at h
    obtain ⟨es, _, h⟩ := ok_bind h
    obtain ⟨es', _, h⟩ := ok_bind h
    obtain ⟨ks, h1, h⟩ := ok_bind h
    cases h
    exact nodup_fromItems _

theorem LinkOk.normRef {l : Link} (h : LinkOk l) : normRef l.kind l.ref = l.ref := normRef_ne h.1 _

/-- A direct reference that is not a none reference is a hash. -/
theorem LinkOk.refOk {l : Link} (h : LinkOk l) (hd : l.ref.direct = true)
    (hn : l.ref.isNone = false) : RefOk l.kind l.ref := by
  refine ⟨?_, h.2⟩
  unfold Ref.direct at hd
  cases hl : l.ref.loc with
  | none => rw [hl] at hd; cases hd
  | some s =>
    rw [hl] at hd
    simp only [Bool.or_eq_true, beq_iff_eq] at hd
    refine ⟨s, rfl, ?_⟩
    rcases hd with hd | hd
    · exact Or.inl hd
    · have : l.ref.isNone = true := isNone_iff.mpr (by rw [hl, hd])
      rw [this] at hn; cases hn

/-! ### Unloaded objects -/

/-- All parts of two lists correspond, because they are the same. -/
theorem all2_self {ρ : Node → Node → Prop} {r : Realm} (hρ : ∀ l, ρ (.sto r l) (.sto r l))
    (ks : List (Key × (Str × Link))) :
    All2 (fun e e' => e.1 = e'.1 ∧ e.2.1 = e'.2.1 ∧ ρ e.2.2 e'.2.2)
      (ks.map fun e => (e.1, e.2.1, Node.sto r e.2.2)) (ks.map fun e => (e.1, e.2.1, Node.sto r e.2.2)) := by
  induction ks with
  | nil => exact All2.nil
  | cons x l ih => exact All2.cons ⟨rfl, rfl, hρ _⟩ ih

/-- Places that show the same stored object have the same content. -/
theorem look_of_view {C : Cfg} {L : Log} {h h' : Heap} {n m : Node} {r : Realm} {k : Kind} {ref : Ref}
    (hn : view C L h n = (strictFetch C L r k ref).map (Body.map (.sto r)))
    (hm : view C L h' m = (strictFetch C L r k ref).map (Body.map (.sto r))) :
    SameContent C L h n L h' m := by
  intro ks t
  refine look_bisim (fun a b => (a = n ∧ b = m) ∨ ∃ r l, a = .sto r l ∧ b = .sto r l) ?_ ks t _ _
    (Or.inl ⟨rfl, rfl⟩)
  have key : ∀ a b : Node, ∀ r k ref,
      view C L h a = (strictFetch C L r k ref).map (Body.map (.sto r)) →
      view C L h' b = (strictFetch C L r k ref).map (Body.map (.sto r)) →
      (∃ e e', view C L h a = .error e ∧ view C L h' b = .error e') ∨
      ∃ x y, view C L h a = .ok x ∧ view C L h' b = .ok y ∧ x.data = y.data ∧
        All2 (fun e e' => e.1 = e'.1 ∧ e.2.1 = e'.2.1 ∧
          ((e.2.2 = n ∧ e'.2.2 = m) ∨ ∃ r l, e.2.2 = .sto r l ∧ e'.2.2 = .sto r l)) x.kids y.kids := by
    intro a b r k ref ha hb
    cases hs : strictFetch C L r k ref with
    | error e => rw [hs] at ha hb; exact Or.inl ⟨e, e, ha, hb⟩
    | ok x =>
      rw [hs] at ha hb
      refine Or.inr ⟨_, _, ha, hb, rfl, ?_⟩
      rw [Body.map_kids]
      exact all2_self (ρ := fun a b => (a = n ∧ b = m) ∨ ∃ r l, a = .sto r l ∧ b = .sto r l)
        (fun l => Or.inr ⟨r, l, rfl, rfl⟩) x.kids
  rintro a b (⟨rfl, rfl⟩ | ⟨r', l, rfl, rfl⟩)
  · exact key _ _ r k ref hn hm
  · exact key _ _ r' l.kind l.ref rfl rfl

theorem view_unloaded {C : Cfg} {L : Log} {h : Heap} {i : ObjId} {r : Realm} {ref : Ref}
    (hm : (h i).mapped = false) (hr : (h i).realm = some r) (hf : (h i).ref = some ref) :
    view C L h (.mem i) = (strictFetch C L r (h i).kind ref).map (Body.map (.sto r)) := by
  simp only [view]
  rw [if_neg (by simp [hm]), hr, hf]

/-- The content of an unloaded object is what its reference means. -/
theorem look_unloaded {C : Cfg} {L : Log} {h h' : Heap} {i : ObjId} {r : Realm} {ref : Ref}
    (hm : (h i).mapped = false) (hr : (h i).realm = some r) (hf : (h i).ref = some ref) :
    SameContent C L h (.mem i) L h' (.sto r ⟨(h i).kind, ref⟩) :=
  look_of_view (view_unloaded hm hr hf) rfl

theorem kind_linkObj (r : Realm) (l : Link) : (l.obj r).kind = l.kind := by
  unfold Link.obj Obj.kind Body.empty; exact Data.kind_empty _

/-! ### Changes of a single object -/

/-- If the content of one object stays the same, and only new objects are changed
besides it, the content of all old objects stays the same. -/
theorem look_frame {C : Cfg} {L : Log} {h h' : Heap} {A : ObjId → Prop} {i : ObjId}
    (hs : ∀ j, ¬ A j → j ≠ i → h' j = h j)
    (hk : ∀ p, (h p).mapped = true → ∀ k ∈ (h p).body.subs, ¬ A k)
    (hi : SameContent C L h (.mem i) L h' (.mem i)) (j : ObjId) (hj : ¬ A j) :
    SameContent C L h (.mem j) L h' (.mem j) := by
  intro ks t
  refine look_congr (fun n => ∀ j, n = .mem j → ¬ A j) ?_ ks t (.mem j) (by rintro _ ⟨⟩; exact hj)
  intro n hn
  cases n with
  | sto r l => exact Or.inl (look_sto_heap r l)
  | mem j =>
    have hA := hn j rfl
    by_cases hji : j = i
    · subst hji; exact Or.inl hi
    · right
      have e : view C L h (.mem j) = view C L h' (.mem j) := by
        simp only [view, hs j hA hji]
      refine ⟨e, ?_⟩
      intro b hb x hx k hxk
      by_cases hm : (h j).mapped = true
      · rw [view_mapped hm] at hb
        cases hb
        rw [Body.map_kids] at hx
        obtain ⟨y, hy, rfl⟩ := List.mem_map.mp hx
        simp only at hxk
        cases hxk
        exact hk j hm _ (List.mem_map.mpr ⟨y, hy, rfl⟩)
      · obtain ⟨r, ref, a, _, _, _, rfl⟩ := (view_away (by simpa using hm)).mp hb
        rw [Body.map_kids] at hx
        obtain ⟨y, _, rfl⟩ := List.mem_map.mp hx
        simp at hxk

/-- Everything about a loaded object can be read if everything about its parts can. -/
theorem full_of_subs {C : Cfg} {L : Log} {h : Heap} {i : ObjId} (hm : (h i).mapped = true)
    (hk : ∀ k ∈ (h i).body.subs, Full C L h (.mem k)) : Full C L h (.mem i) := by
  intro ks t
  have hv := view_mapped (C := C) (L := L) hm
  cases ks with
  | nil => rw [look_nil t hv]; simp
  | cons k ks =>
    rw [look_cons hv, Body.dget_map]
    cases hd : dget (h i).body.kids k with
    | none => simp
    | some e =>
      simp only [Option.map_some]
      have hf := hk e.2 (List.mem_map.mpr ⟨_, mem_of_dget hd, rfl⟩)
      obtain ⟨b, hb⟩ := view_ok_of_look (hf [] [])
      rw [hb]
      simp only
      split
      · simp
      · exact hf ks e.1

/-! ### Reading -/

theorem direct_mem {C : Cfg} {L : Log} {r : Realm} {k : Kind} {ref : Ref} {b : Body Link}
    (h : strictFetch C L r k ref = .ok b) {e : Key × (Str × Link)} (he : e ∈ b.kids) :
    e.2.2.ref.direct = true := by
  have := (strictFetch_ok h).2.1
  rw [List.all_eq_true] at this
  exact this e he

theorem fetch_some {C : Cfg} {L : Log} {r : Realm} {k : Kind} {ref : Ref} {loc : Str}
    (hn : ref.isNone = false) (ha : k.accepts ref.cls = true) (hl : ref.loc = some loc) :
    fetch C L r k ref = decode C L r k loc := by
  unfold fetch
  rw [if_neg (by simp [hn]), if_pos ha, hl]

/-- What reading an object did to the content: nothing. -/
theorem read_content {C : Cfg} {i : ObjId} {w w' : World} {res : Except PyErr Bool}
    (hi : i < w.next) (hm : (w.heap i).mapped = false)
    (hfull : Full C w.repo.log w.heap (.mem i))
    (hc : ReadCase C i w w' res) :
    SameContent C w.repo.log w.heap (.mem i) w.repo.log w'.heap (.mem i) := by
  obtain ⟨b0, hv0⟩ := view_ok_of_look (hfull [] [])
  obtain ⟨r0, ref0, a, hr0, hf0, ha, hb0⟩ := (view_away hm).mp hv0
  cases hc with
  | failed e h1 => rw [h1]; exact SameContent.refl _ _ _ _
  | none r ref hr hf hn hcls hlog hca hnx hh =>
    rw [hr0] at hr; cases hr
    rw [hf0] at hf; cases hf
    have hfe := (strictFetch_ok ha).1
    unfold fetch at hfe
    rw [if_pos hn, if_pos hcls] at hfe
    split at hfe
    · cases hfe
    · rename_i hmrr
      cases hfe
      have hm' : (w'.heap i).mapped = true := by rw [hh]; simp
      have hv' := view_mapped (C := C) (L := w.repo.log) hm'
      have hbody : (w'.heap i).body = (w.heap i).body.purged := by rw [hh]; simp
      rw [hbody] at hv'
      have hd : (Data.empty (w.heap i).kind) = (w.heap i).body.data.purged := by
        unfold Obj.kind at hmrr ⊢
        generalize (w.heap i).body.data = d at hmrr
        cases d <;> first | rfl | exact absurd rfl hmrr
      subst hb0
      intro ks t
      cases ks with
      | nil =>
        rw [look_nil t hv0, look_nil t hv']
        simp [Body.blank, Body.map, Body.empty, Body.purged, hd]
      | cons k ks =>
        rw [look_cons_none hv0 (by simp [Body.map, Body.empty]),
          look_cons_none hv' (by simp [Body.map, Body.purged])]
  | read r ref loc b is so hr hf hn hloc hs hacc hdec hlog hca hnx hold hbig hkids hnew hso hobj hdis =>
    rw [hr0] at hr; cases hr
    rw [hf0] at hf; cases hf
    have hab : a = b := by
      have := (strictFetch_ok ha).1
      rw [fetch_some hn hacc hloc, hdec] at this
      cases this; rfl
    subst hab
    have hm' : (w'.heap i).mapped = true := by rw [hobj]
    have hv' := view_mapped (C := C) (L := w.repo.log) hm'
    have hbody : (w'.heap i).body = ⟨a.data, is⟩ := by rw [hobj]
    rw [hbody] at hv'
    subst hb0
    intro ks t
    refine look_bisim (fun n m => (n = .mem i ∧ m = .mem i) ∨ (∃ r l, n = .sto r l ∧ m = .sto r l) ∨
      ∃ l j, n = .sto r0 l ∧ m = .mem j ∧ w'.heap j = l.obj r0) ?_ ks t _ _ (Or.inl ⟨rfl, rfl⟩)
    rintro n m (⟨rfl, rfl⟩ | ⟨r, l, rfl, rfl⟩ | ⟨l, j, rfl, rfl, hj⟩)
    · refine Or.inr ⟨_, _, hv0, hv', rfl, ?_⟩
      rw [Body.map_kids, Body.map_kids]
      simp only
      generalize a.kids = ls at hkids
      clear hv' hbody hobj hnew hfull hv0 ha hdec hdis
      induction hkids with
      | nil => exact All2.nil
      | cons h1 _ ih =>
        refine All2.cons ⟨h1.1, h1.2.1, Or.inr (Or.inr ⟨_, _, rfl, rfl, h1.2.2.2.2 ?_⟩)⟩ ih
        have := h1.2.2.1
        intro e
        rw [e] at this
        exact absurd hi (Nat.not_lt.mpr this)
    · cases hsf : strictFetch C w.repo.log r l.kind l.ref with
      | error e => exact Or.inl ⟨e, e, by simp only [view, hsf]; rfl, by simp only [view, hsf]; rfl⟩
      | ok x =>
        refine Or.inr ⟨_, _, view_sto.mpr ⟨x, hsf, rfl⟩, view_sto.mpr ⟨x, hsf, rfl⟩, rfl, ?_⟩
        rw [Body.map_kids]
        exact all2_self (ρ := fun n m => (n = .mem i ∧ m = .mem i) ∨
          (∃ r l, n = .sto r l ∧ m = .sto r l) ∨
          ∃ l j, n = .sto r0 l ∧ m = .mem j ∧ w'.heap j = l.obj r0)
          (fun l => Or.inr (Or.inl ⟨_, _, rfl, rfl⟩)) x.kids
    · have hk : (w'.heap j).kind = l.kind := by rw [hj, kind_linkObj]
      have hvj : view C w.repo.log w'.heap (.mem j) =
          (strictFetch C w.repo.log r0 l.kind l.ref).map (Body.map (.sto r0)) := by
        rw [view_unloaded (r := r0) (ref := l.ref) (by rw [hj]; rfl) (by rw [hj]; rfl) (by rw [hj]; rfl), hk]
      cases hsf : strictFetch C w.repo.log r0 l.kind l.ref with
      | error e => exact Or.inl ⟨e, e, by simp only [view, hsf]; rfl, by rw [hvj, hsf]; rfl⟩
      | ok x =>
        refine Or.inr ⟨_, _, view_sto.mpr ⟨x, hsf, rfl⟩, by rw [hvj, hsf]; rfl, rfl, ?_⟩
        rw [Body.map_kids]
        exact all2_self (ρ := fun n m => (n = .mem i ∧ m = .mem i) ∨
          (∃ r l, n = .sto r l ∧ m = .sto r l) ∨
          ∃ l j, n = .sto r0 l ∧ m = .mem j ∧ w'.heap j = l.obj r0)
          (fun l => Or.inr (Or.inl ⟨_, _, rfl, rfl⟩)) x.kids

/-! ### Caches -/

/-- After code that succeeds, the same realms are cached as before. -/
def KeysOk {α : Type} (x : W α) : Prop :=
  ∀ w w' a, x w = (.ok a, w') → dkeys w'.caches = dkeys w.caches

namespace KeysOk
variable {α β : Type}

theorem pure (a : α) : KeysOk (Pure.pure a : W α) := by intro w w' x h; cases h; rfl

theorem raise (e : PyErr) : KeysOk (M.raise e : W α) := by intro w w' x h; cases h

theorem bind {x : W α} {f : α → W β} (hx : KeysOk x) (hf : ∀ a, KeysOk (f a)) :
    KeysOk (x >>= f) := by
  intro w w' b h
  obtain ⟨a, w1, h1, h2⟩ := M.bind_ok h
  exact (hf a _ _ _ h2).trans (hx _ _ _ h1)

theorem forEach {f : α → W β} {l : List α} (hf : ∀ a ∈ l, KeysOk (f a)) : KeysOk (M.forEach f l) := by
  induction l with
  | nil => exact pure _
  | cons a l ih =>
    rw [M.forEach_cons]
    exact bind (hf a (List.mem_cons_self ..)) fun b =>
      bind (ih fun x hx => hf x (List.mem_cons_of_mem _ hx)) fun bs => pure _

theorem ofExcept (x : Except PyErr α) : KeysOk (M.ofExcept x : W α) := by
  cases x
  · exact raise _
  · exact pure _

theorem get : KeysOk (M.get : W World) := by intro w w' x h; cases h; rfl

theorem getObj (i : ObjId) : KeysOk (MM.getObj i) := by intro w w' x h; cases h; rfl

theorem updObj (i : ObjId) (f : Obj → Obj) : KeysOk (MM.updObj i f) := by
  intro w w' x h; cases h; rfl

theorem liftG (g : G α) : KeysOk (MM.liftG g) := by
  intro w w' x h
  obtain ⟨s, _, rfl⟩ := liftG_ok h
  rfl

theorem addRef (b : Bool) (h : Option Str) : KeysOk (MM.addRef b h) := by
  intro w w' x hx
  unfold MM.addRef at hx
  cases h with
  | none => cases hx
  | some h =>
    simp only at hx
    split at hx
    · cases hx; rfl
    · cases hx; rfl

theorem dkeys_dset_mem {d : List (Realm × List Str)} {k : Realm} {x : List Str} {y : List Str}
    (h : dget d k = some y) : dkeys (dset d k x) = dkeys d := by
  induction d with
  | nil => cases h
  | cons e d ih =>
    obtain ⟨a, b⟩ := e
    by_cases hk : a = k
    · simp [dset, dkeys, hk]
    · simp only [dget, if_neg hk] at h
      have := ih h
      simp only [dkeys, dset, if_neg hk, List.map_cons] at this ⊢
      rw [this]

theorem flushCache (C : Cfg) (r : Realm) : KeysOk (MM.flushCache C r) := by
  intro w w' x h
  unfold MM.flushCache at h
  rw [M.bind_of_ok (M.get_run w)] at h
  cases hd : dget w.caches r with
  | none => rw [hd] at h; cases h; rfl
  | some bs =>
    rw [hd] at h
    obtain ⟨a, w1, h1, h2⟩ := M.bind_ok h
    obtain ⟨s, _, rfl⟩ := liftG_ok h1
    cases h2
    exact dkeys_dset_mem (y := bs) hd

theorem saveBlob (C : Cfg) (r : Realm) (s : Str) : KeysOk (MM.saveBlob C r s) := by
  intro w w' x h
  unfold MM.saveBlob at h
  rw [M.bind_of_ok (M.get_run w)] at h
  cases hd : dget w.caches r with
  | none => rw [hd] at h; exact liftG _ _ _ _ h
  | some bs =>
    rw [hd] at h
    simp only at h
    unfold cacheBlob at h
    rw [M.bind_of_ok (M.get_run w)] at h
    have fin : ∀ w1, dkeys w1.caches = dkeys w.caches →
        ((do
          M.modify fun w : World => { w with caches := dset w.caches r ((dget w.caches r).getD [] ++ [s]) }
          Pure.pure (C.hash (.blob s))) : W Str) w1 = (.ok x, w') → dkeys w'.caches = dkeys w.caches := by
      intro w1 hw1 h
      rw [M.bind_of_ok (M.modify_run _ w1)] at h
      cases h
      have : r ∈ dkeys w1.caches := by
        rw [hw1]; exact List.mem_map.mpr ⟨(r, bs), mem_of_dget hd, rfl⟩
      cases hd1 : dget w1.caches r with
      | none => exact absurd this (dget_eq_none.mp hd1)
      | some y => exact (dkeys_dset_mem hd1).trans hw1
    split at h
    · obtain ⟨_, w1, h1, h2⟩ := M.bind_ok h
      exact fin w1 (flushCache C r _ _ _ h1) h2
    · exact fin w rfl h

theorem saveMetadata (C : Cfg) (r : Realm) (m : Sets) : KeysOk (MM.saveMetadata C r m) := by
  unfold MM.saveMetadata
  exact bind (saveBlob _ _ _) fun h => bind (addRef _ _) fun _ => bind (saveBlob _ _ _) fun h' => pure _

theorem fileTreeWrite {C : Cfg} {r : Realm} {wr : W Ref} (hw : KeysOk wr) :
    KeysOk (MM.fileTreeWrite C (some r) wr) := by
  intro w w' x h
  unfold MM.fileTreeWrite at h
  simp only at h
  obtain ⟨_, w1, h1, h⟩ := M.bind_ok h
  obtain ⟨ref, w2, h2, h⟩ := M.bind_ok h
  obtain ⟨_, w3, h3, h⟩ := M.bind_ok h
  have e1 : r ∉ dkeys w.caches ∧ dkeys w1.caches = dkeys w.caches ++ [r] := by
    unfold cacheRealm at h1
    cases hd : dget w.caches r with
    | some bs => rw [hd] at h1; cases h1
    | none =>
      rw [hd] at h1
      cases h1
      exact ⟨dget_eq_none.mp hd, by simp [dkeys]⟩
  have e2 := hw _ _ _ h2
  have e3 : dkeys w3.caches = dkeys w.caches := by
    unfold flushRealm at h3
    rw [M.bind_of_ok (M.get_run w2)] at h3
    cases hd : dget w2.caches r with
    | none => rw [hd] at h3; cases h3
    | some bs =>
      rw [hd] at h3
      obtain ⟨_, w4, h4, h5⟩ := M.bind_ok h3
      cases h5
      have e4 := flushCache C r _ _ _ h4
      rw [e2, e1.2] at e4
      have key : ∀ (d : List (Realm × List Str)) (ks : List Realm), r ∉ ks → dkeys d = ks ++ [r] →
          dkeys (ddel d r) = ks := by
        intro d
        induction d with
        | nil => intro ks _ h; simp [dkeys] at h
        | cons a d ih =>
          obtain ⟨a1, a2⟩ := a
          intro ks hr h
          cases ks with
          | nil =>
            simp only [dkeys, List.map_cons, List.nil_append, List.cons.injEq, List.map_eq_nil_iff] at h
            obtain ⟨rfl, rfl⟩ := h
            simp [ddel, dkeys]
          | cons k ks =>
            simp only [dkeys, List.map_cons, List.cons_append, List.cons.injEq] at h
            obtain ⟨rfl, h⟩ := h
            have hne : a1 ≠ r := fun e => hr (e ▸ List.mem_cons_self ..)
            have := ih ks (fun hm => hr (List.mem_cons_of_mem _ hm)) h
            simp only [ddel, if_neg hne, dkeys, List.map_cons]
            rw [← this]
            rfl
      exact key _ _ e1.1 e4
  split at h
  · cases h; exact e3
  · obtain ⟨_, w4, h4, h5⟩ := M.bind_ok h
    cases h5
    exact (addRef _ _ _ _ _ h4).trans e3

theorem ite {p : Prop} [Decidable p] {x y : W α} (hx : KeysOk x) (hy : KeysOk y) :
    KeysOk (if p then x else y) := by split <;> assumption

theorem element {wr : ObjId → W Ref} (hw : ∀ i, KeysOk (wr i)) (i : ObjId) :
    KeysOk (writeElement wr i) := by
  unfold writeElement
  refine bind (getObj i) fun o => ite ?_ (hw i)
  unfold proxyWrite
  exact bind (hw i) fun ref => ite (pure _) (bind (addRef _ _) fun _ => pure _)

theorem versionList {C : Cfg} {wr : ObjId → W Ref} (hw : ∀ i, KeysOk (wr i)) (r : Realm)
    (ks : List (Key × (Str × ObjId))) : KeysOk (writeVersionList C wr r ks) := by
  unfold writeVersionList
  exact bind (forEach fun e _ => bind (element hw _) fun _ => pure _) fun js => liftG _

theorem mapOut {C : Cfg} {wr : Bool → ObjId → W Ref} (hw : ∀ f i, KeysOk (wr f i)) (r : Realm)
    (force : Bool) (b : Body ObjId) : KeysOk (MM.mapOut C wr r force b) := by
  unfold MM.mapOut
  cases b.data with
  | text s => exact bind (liftG _) fun _ => pure _
  | metadata m => exact saveMetadata _ _ _
  | mtree l =>
    exact ite (pure _) (bind (forEach fun e _ => bind (hw _ _) fun _ => bind (getObj _) fun _ => pure _)
      fun _ => bind (liftG _) fun _ => pure _)
  | mrr id v =>
    refine bind ?_ fun ft => bind ?_ fun dlm => bind (liftG _) fun _ => pure _
    · unfold writeFtPart
      split
      · exact pure _
      · exact bind (fileTreeWrite (hw _ _)) fun ref => ite (pure _) (bind (addRef _ _) fun _ => pure _)
    · unfold writeDlmPart
      split
      · exact pure _
      · exact bind (hw _ _) fun ref => bind (addRef _ _) fun _ => pure _
  | vlist => exact bind (versionList (hw false) _ _) fun _ => pure _
  | tvl => exact bind (versionList (hw false) _ _) fun _ => bind (liftG _) fun _ => pure _
  | uuidset =>
    exact bind (forEach fun e _ => bind (hw _ _) fun _ => pure _)
      fun _ => bind (liftG _) fun _ => bind (liftG _) fun _ => pure _

/-- Writing leaves no cache behind when it succeeds. -/
theorem writeOut (C : Cfg) : ∀ (n : Nat) (dest : Option Realm) (force : Bool) (i : ObjId),
    KeysOk (MM.writeOut C n dest force i) := by
  intro n
  induction n with
  | zero => intro dest force i; exact raise _
  | succ n ih =>
    intro dest force i
    unfold MM.writeOut
    refine bind (getObj i) fun o => ite ?_ ?_
    · split
      · exact raise _
      · refine ite (raise _) (bind (updObj _ _) fun _ => bind get fun w => bind (ofExcept _) fun saved =>
          ite ?_ (bind (mapOut (fun f j => ih _ f j) _ _ _) fun ref => bind (updObj _ _) fun _ => pure _))
        split
        · exact pure _
        · exact raise _
    · split
      · split
        · exact ite (pure _) (raise _)
        · exact raise _
      · exact raise _

end KeysOk

theorem caches_writeOut {C : Cfg} {n : Nat} {dest : Option Realm} {force : Bool} {i : ObjId}
    {w w' : World} {ref : Ref} (h : writeOut C n dest force i w = (.ok ref, w'))
    (hc : w.caches = []) : w'.caches = [] := by
  have := KeysOk.writeOut C n dest force i w w' ref h
  rw [hc] at this
  exact List.map_eq_nil_iff.mp this

end MM
