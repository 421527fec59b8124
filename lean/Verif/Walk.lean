/-
Loading objects on the way while walking through containers, for the methods of the
classes.
-/
import Verif.Session
import Verif.Classes

namespace MM

variable {C : Cfg}

/-! ### Consistent processes -/

/-- The keys of the dictionaries of a class. -/
def Key.fits : Kind → Key → Bool
  | .mtree _, .name _ => true
  | .mrr, .dlm => true
  | .mrr, .ft => true
  | .vlist, .ver _ _ => true
  | .tvl, .ver _ _ => true
  | .uuidset, .uuid _ => true
  | _, _ => false

/-- Only version lists keep time stamps. -/
def Kind.stamped : Kind → Bool
  | .vlist => true
  | .tvl => true
  | _ => false

/-- An object as its class builds it: every key is used once and has the right type. -/
structure Formed {κ : Type} (b : Body κ) : Prop where
  keys : (dkeys b.kids).Nodup
  fits : ∀ e ∈ b.kids, Key.fits b.data.kind e.1 = true
  stamps : b.data.kind.stamped = false → ∀ e ∈ b.kids, e.2.1 = []

/-- What holds in a process: parts are existing objects, no object contains itself,
objects that are not loaded can be loaded, and loaded objects are as their classes
build them. -/
structure Fine (C : Cfg) (w : World) : Prop where
  kids : ∀ p, (w.heap p).mapped = true → ∀ k ∈ (w.heap p).body.subs, k < w.next
  ranked : ∃ rank, Ranked rank w.heap
  away : ∀ j, (w.heap j).mapped = false → ∃ r ref, r ≠ [] ∧ (w.heap j).realm = some r ∧
    (w.heap j).ref = some ref ∧ (ref.isNone = true ∨ r ∈ (w.heap j).savedOn)
  full : ∀ j, (w.heap j).mapped = false → Full C w.repo.log w.heap (.mem j)
  formed : ∀ j, (w.heap j).mapped = true → Formed (w.heap j).body

/-- Loaded objects are as their classes build them. -/
def AllFormed (w : World) : Prop := ∀ j, (w.heap j).mapped = true → Formed (w.heap j).body

theorem Sane.fine {r : Realm} (hr : r ≠ []) {w : World} (hs : Sane C r w) (hf : AllFormed w) :
    Fine C w := by
  refine ⟨hs.kids, hs.ranked, ?_, fun j _ => hs.full j, hf⟩
  intro j hm
  obtain ⟨ref, _, h1, h2, _⟩ := hs.fetched hm
  exact ⟨r, ref, hr, h1, h2, Or.inr (hs.away j hm)⟩

/-- The content of every object can be read. -/
theorem Fine.all {w : World} (hf : Fine C w) (j : ObjId) : Full C w.repo.log w.heap (.mem j) := by
  obtain ⟨rank, hr⟩ := hf.ranked
  have key : ∀ n j, rank j < n → Full C w.repo.log w.heap (.mem j) := by
    intro n
    induction n with
    | zero => intro j hj; exact absurd hj (Nat.not_lt_zero _)
    | succ n ih =>
      intro j hj
      by_cases hm : (w.heap j).mapped = true
      · exact full_of_subs hm fun k hk => ih k (Nat.lt_of_lt_of_le (hr j hm k hk) (Nat.le_of_lt_succ hj))
      · exact hf.full j (by simpa using hm)
  exact key _ j (Nat.lt_succ_self _)

theorem Fine.congr {w w' : World} (hf : Fine C w) (h1 : w'.heap = w.heap)
    (h2 : w'.repo.log = w.repo.log) (h3 : w'.next = w.next) : Fine C w' := by
  refine ⟨?_, ?_, ?_, ?_, ?_⟩
  · rw [h1, h3]; exact hf.kids
  · rw [h1]; exact hf.ranked
  · rw [h1]; exact hf.away
  · rw [h1, h2]; exact hf.full
  · rw [h1]; exact hf.formed

/-! ### What is read is well formed -/

theorem vrecs_fits {j : Json} {ks : List (Key × (Str × Link))} (h : vrecsFromJson j = .ok ks) :
    ∀ e ∈ ks, ∃ v p, e.1 = .ver v p := by
  unfold vrecsFromJson at h
  obtain ⟨js, _, h⟩ := ok_bind h
  obtain ⟨rs, _, h⟩ := ok_bind h
  cases h
  have key : ∀ (rs : List (Str × PPath × Str × Link)) (acc : List (Key × (Str × Link))),
      (∀ e ∈ acc, ∃ v p, e.1 = Key.ver v p) →
      ∀ e ∈ rs.foldl (fun acc e => vset acc e.1 e.2.1 e.2.2) acc, ∃ v p, e.1 = Key.ver v p := by
    intro rs
    induction rs with
    | nil => intro acc h e he; exact h e he
    | cons a rs ih =>
      intro acc h
      refine ih _ ?_
      intro e he
      rcases mem_vset he with he | he
      · exact ⟨a.1, a.2.1, by rw [he]⟩
      · exact h e he
  exact key rs [] (by simp)

theorem stamped_tree {k : Kind} (h : k.isMtree = true) : k.stamped = false := by
  cases k <;> first | rfl | cases h

theorem decode_stamps {L : Log} {r : Realm} {k : Kind} {loc : Str} {b : Body Link}
    (h : decode C L r k loc = .ok b) (hk : k.stamped = false) : ∀ e ∈ b.kids, e.2.1 = [] := by
  intro e he
  cases k with
  | text => simp only [decode] at h; obtain ⟨s, _, h⟩ := ok_bind h; cases h; cases he
  | metadata =>
    simp only [decode] at h
    obtain ⟨s, _, h⟩ := ok_bind h
    obtain ⟨ref, _, h⟩ := ok_bind h
    cases hl : ref.loc with
    | none => rw [hl] at h; cases h
    | some l =>
      rw [hl] at h
      obtain ⟨s, _, h⟩ := ok_bind h
      obtain ⟨m, _, h⟩ := ok_bind h
      cases h
      cases he
  | mtree leaf =>
    simp only [decode] at h
    obtain ⟨es, _, h⟩ := ok_bind h
    obtain ⟨es', _, h⟩ := ok_bind h
    cases h
    obtain ⟨e', _, rfl⟩ := List.mem_map.mp (mem_fromItems he)
    rfl
  | mrr =>
    simp only [decode] at h
    obtain ⟨j, _, h⟩ := ok_bind h
    unfold mrrFromJson at h
    obtain ⟨_, _, h⟩ := ok_bind h
    obtain ⟨dlm, _, h⟩ := ok_bind h
    obtain ⟨_, _, h⟩ := ok_bind h
    obtain ⟨ft, _, h⟩ := ok_bind h
    obtain ⟨_, _, h⟩ := ok_bind h
    obtain ⟨_, _, h⟩ := ok_bind h
    obtain ⟨_, _, h⟩ := ok_bind h
    obtain ⟨_, _, h⟩ := ok_bind h
    cases h
    cases dlm <;> cases ft <;> simp only [mrrKids, List.append_nil, List.nil_append, List.mem_append,
      List.mem_singleton, List.not_mem_nil] at he
    · rw [he]
    · rw [he]
    · rcases he with he | he <;> rw [he]
  | vlist => cases hk
  | tvl => cases hk
  | uuidset =>
    simp only [decode] at h
    obtain ⟨es, _, h⟩ := ok_bind h
    obtain ⟨es', _, h⟩ := ok_bind h
    obtain ⟨ks, h1, h⟩ := ok_bind h
    cases h
    obtain ⟨e', _, h2⟩ := eachOk_mem h1 (mem_fromItems he)
    unfold uuidEntry at h2
    obtain ⟨u, _, h2⟩ := ok_bind h2
    cases h2
    rfl

theorem decode_formed {L : Log} {r : Realm} {k : Kind} {loc : Str} {b : Body Link}
    (h : decode C L r k loc = .ok b) : Formed b := by
  refine ⟨decode_nodup h, ?_, ?_⟩
  case refine_2 =>
    rw [(decode_links h).1]
    intro hk
    exact decode_stamps h hk
  have hk := (decode_links h).1
  rw [hk]
  intro e he
  cases k with
  | text => simp only [decode] at h; obtain ⟨s, _, h⟩ := ok_bind h; cases h; cases he
  | metadata =>
    simp only [decode] at h
    obtain ⟨s, _, h⟩ := ok_bind h
    obtain ⟨ref, _, h⟩ := ok_bind h
    cases hl : ref.loc with
    | none => rw [hl] at h; cases h
    | some l =>
      rw [hl] at h
      obtain ⟨s, _, h⟩ := ok_bind h
      obtain ⟨m, _, h⟩ := ok_bind h
      cases h
      cases he
  | mtree leaf =>
    simp only [decode] at h
    obtain ⟨es, _, h⟩ := ok_bind h
    obtain ⟨es', _, h⟩ := ok_bind h
    cases h
    obtain ⟨e', _, rfl⟩ := List.mem_map.mp (mem_fromItems he)
    rfl
  | mrr =>
    simp only [decode] at h
    obtain ⟨j, _, h⟩ := ok_bind h
    unfold mrrFromJson at h
    obtain ⟨_, _, h⟩ := ok_bind h
    obtain ⟨dlm, _, h⟩ := ok_bind h
    obtain ⟨_, _, h⟩ := ok_bind h
    obtain ⟨ft, _, h⟩ := ok_bind h
    obtain ⟨_, _, h⟩ := ok_bind h
    obtain ⟨_, _, h⟩ := ok_bind h
    obtain ⟨_, _, h⟩ := ok_bind h
    obtain ⟨_, _, h⟩ := ok_bind h
    cases h
    cases dlm <;> cases ft <;> simp only [mrrKids, List.append_nil, List.nil_append, List.mem_append,
      List.mem_singleton, List.not_mem_nil] at he
    · rw [he]; rfl
    · rw [he]; rfl
    · rcases he with he | he <;> rw [he] <;> rfl
  | vlist =>
    simp only [decode] at h
    obtain ⟨j, _, h⟩ := ok_bind h
    obtain ⟨ks, h1, h⟩ := ok_bind h
    cases h
    obtain ⟨v, p, e1⟩ := vrecs_fits h1 e he
    rw [e1]; rfl
  | tvl =>
    simp only [decode] at h
    obtain ⟨j, _, h⟩ := ok_bind h
    obtain ⟨ks, h1, h⟩ := ok_bind h
    cases h
    obtain ⟨v, p, e1⟩ := vrecs_fits h1 e he
    rw [e1]; rfl
  | uuidset =>
    simp only [decode] at h
    obtain ⟨es, _, h⟩ := ok_bind h
    obtain ⟨es', _, h⟩ := ok_bind h
    obtain ⟨ks, h1, h⟩ := ok_bind h
    cases h
    obtain ⟨e', _, h2⟩ := eachOk_mem h1 (mem_fromItems he)
    unfold uuidEntry at h2
    obtain ⟨u, _, h2⟩ := ok_bind h2
    cases h2
    rfl

/-! ### The classes of the parts -/

/-- Which class an object under a key may have. -/
def KidOk : Kind → Key → Kind → Prop
  | .mtree leaf, .name _, k => k = .mtree leaf ∨ k = leaf.kind
  | .mrr, .dlm, k => k = .metadata
  | .mrr, .ft, k => k = .mtree .metadata
  | .vlist, .ver _ _, k => k = .mtree .mrr ∨ k = .mrr
  | .tvl, .ver _ _, k => k = .mtree .mrr ∨ k = .mrr
  | .uuidset, .uuid _, k => k = .vlist
  | _, _, _ => False

/-- All parts have a class that fits. -/
def Typed (h : Heap) : Prop :=
  ∀ p, (h p).mapped = true → ∀ e ∈ (h p).body.kids, KidOk (h p).kind e.1 (h e.2.2).kind

theorem vrecs_kinds {j : Json} {ks : List (Key × (Str × Link))} (h : vrecsFromJson j = .ok ks) :
    ∀ e ∈ ks, e.2.2.kind = .mtree .mrr ∨ e.2.2.kind = .mrr := by
  unfold vrecsFromJson at h
  obtain ⟨js, _, h⟩ := ok_bind h
  obtain ⟨rs, h2, h⟩ := ok_bind h
  cases h
  have hrs : ∀ e ∈ rs, e.2.2.2.kind = .mtree .mrr ∨ e.2.2.2.kind = .mrr := by
    intro e he
    obtain ⟨j', _, hj⟩ := eachOk_mem h2 he
    unfold vrecFromJson at hj
    obtain ⟨rj, _, hj⟩ := ok_bind hj
    obtain ⟨ref, _, hj⟩ := ok_bind hj
    obtain ⟨link, hl, hj⟩ := ok_bind hj
    obtain ⟨_, _, hj⟩ := ok_bind hj
    obtain ⟨_, _, hj⟩ := ok_bind hj
    obtain ⟨_, _, hj⟩ := ok_bind hj
    cases hj
    show link.kind = _ ∨ link.kind = _
    unfold vrecLink at hl
    split at hl
    · cases hl; exact Or.inl rfl
    · split at hl
      · cases hl; exact Or.inr rfl
      · cases hl
  have key : ∀ (rs : List (Str × PPath × Str × Link)) (acc : List (Key × (Str × Link))),
      (∀ e ∈ rs, e.2.2.2.kind = .mtree .mrr ∨ e.2.2.2.kind = .mrr) →
      (∀ e ∈ acc, e.2.2.kind = .mtree .mrr ∨ e.2.2.kind = .mrr) →
      ∀ e ∈ rs.foldl (fun acc e => vset acc e.1 e.2.1 e.2.2) acc,
        e.2.2.kind = .mtree .mrr ∨ e.2.2.kind = .mrr := by
    intro rs
    induction rs with
    | nil => intro acc _ h2 e he; exact h2 e he
    | cons a rs ih =>
      intro acc h1 h2
      refine ih _ (fun e he => h1 e (List.mem_cons_of_mem _ he)) ?_
      intro e he
      rcases mem_vset he with he | he
      · rw [he]; exact h1 a (List.mem_cons_self ..)
      · exact h2 e he
  exact key rs [] hrs (by simp)

/-- What is read has parts of the right classes. -/
theorem decode_kidOk {L : Log} {r : Realm} {k : Kind} {loc : Str} {b : Body Link}
    (h : decode C L r k loc = .ok b) : ∀ e ∈ b.kids, KidOk k e.1 e.2.2.kind := by
  intro e he
  cases k with
  | text => simp only [decode] at h; obtain ⟨s, _, h⟩ := ok_bind h; cases h; cases he
  | metadata =>
    simp only [decode] at h
    obtain ⟨s, _, h⟩ := ok_bind h
    obtain ⟨ref, _, h⟩ := ok_bind h
    cases hl : ref.loc with
    | none => rw [hl] at h; cases h
    | some l =>
      rw [hl] at h
      obtain ⟨s, _, h⟩ := ok_bind h
      obtain ⟨m, _, h⟩ := ok_bind h
      cases h
      cases he
  | mtree leaf =>
    simp only [decode] at h
    obtain ⟨es, _, h⟩ := ok_bind h
    obtain ⟨es', _, h⟩ := ok_bind h
    cases h
    obtain ⟨e', _, rfl⟩ := List.mem_map.mp (mem_fromItems he)
    unfold childOf
    simp only
    split
    · exact Or.inl rfl
    · exact Or.inr rfl
  | mrr =>
    simp only [decode] at h
    obtain ⟨j, _, h⟩ := ok_bind h
    unfold mrrFromJson at h
    obtain ⟨_, _, h⟩ := ok_bind h
    obtain ⟨dlm, h1, h⟩ := ok_bind h
    obtain ⟨_, _, h⟩ := ok_bind h
    obtain ⟨ft, h2, h⟩ := ok_bind h
    obtain ⟨_, _, h⟩ := ok_bind h
    obtain ⟨_, _, h⟩ := ok_bind h
    obtain ⟨_, _, h⟩ := ok_bind h
    obtain ⟨_, _, h⟩ := ok_bind h
    cases h
    simp only [mrrKids] at he
    rcases List.mem_append.mp he with he | he
    · cases dlm with
      | none => cases he
      | some d => rw [List.mem_singleton.mp he]; exact (mrrLink_ok h1).1
    · cases ft with
      | none => cases he
      | some d => rw [List.mem_singleton.mp he]; exact (mrrLink_ok h2).1
  | vlist =>
    simp only [decode] at h
    obtain ⟨j, _, h⟩ := ok_bind h
    obtain ⟨ks, h1, h⟩ := ok_bind h
    cases h
    obtain ⟨v, p, e1⟩ := vrecs_fits h1 e he
    rw [e1]; exact vrecs_kinds h1 e he
  | tvl =>
    simp only [decode] at h
    obtain ⟨j, _, h⟩ := ok_bind h
    obtain ⟨ks, h1, h⟩ := ok_bind h
    cases h
    obtain ⟨v, p, e1⟩ := vrecs_fits h1 e he
    rw [e1]; exact vrecs_kinds h1 e he
  | uuidset =>
    simp only [decode] at h
    obtain ⟨es, _, h⟩ := ok_bind h
    obtain ⟨es', _, h⟩ := ok_bind h
    obtain ⟨ks, h1, h⟩ := ok_bind h
    cases h
    obtain ⟨e', _, h2⟩ := eachOk_mem h1 (mem_fromItems he)
    unfold uuidEntry at h2
    obtain ⟨u, _, h2⟩ := ok_bind h2
    cases h2
    rfl

/-- What the object shows is what is stored under its reference. -/
def Pristine (C : Cfg) (w : World) (j : ObjId) : Prop :=
  ∃ r ref, r ≠ [] ∧ (w.heap j).realm = some r ∧ (w.heap j).ref = some ref ∧
    (ref.isNone = true ∨ r ∈ (w.heap j).savedOn) ∧
    SameContent C w.repo.log w.heap (.mem j) w.repo.log w.heap (.sto r ⟨(w.heap j).kind, ref⟩)

theorem view_sto' {L : Log} {h : Heap} (r : Realm) (l : Link) :
    view C L h (.sto r l) = (strictFetch C L r l.kind l.ref).map (Body.map (.sto r)) := rfl

/-! ### Opening an object -/

/-- An object was read: new unloaded objects stand for its parts. -/
structure Opened (C : Cfg) (x : ObjId) (w w' : World) : Prop where
  log : w'.repo.log = w.repo.log
  caches : w'.caches = w.caches
  next : w.next ≤ w'.next
  old : ∀ j, j ≠ x → j < w.next → w'.heap j = w.heap j
  kind : (w'.heap x).kind = (w.heap x).kind
  was : (w.heap x).mapped = false
  mapped : (w'.heap x).mapped = true
  realm : (w'.heap x).realm = (w.heap x).realm
  saved : (w.heap x).kind ≠ .mrr → (w'.heap x).savedOn = (w.heap x).savedOn
  new : ∀ k ∈ (w'.heap x).body.subs, w.next ≤ k ∧ k < w'.next
  fresh : ∀ j, w.next ≤ j → j < w'.next → (w'.heap j).mapped = false
  distinct : (w'.heap x).body.subs.Nodup
  content : ∀ j, j < w.next → SameContent C w.repo.log w.heap (.mem j) w'.repo.log w'.heap (.mem j)
  stored : Pristine C w' x
  ref : ∃ ref, (w.heap x).ref = some ref ∧
    ((w'.heap x).ref = some ref ∨ (w'.heap x).ref = some ⟨(w.heap x).kind.name, ref.loc⟩)
  marks : ∀ r, (w.heap x).realm = some r → r ∈ (w.heap x).savedOn → r ∈ (w'.heap x).savedOn
  marked : ∀ y, y ∈ (w'.heap x).savedOn → y ∈ (w.heap x).savedOn
  direct : ∀ j, w.next ≤ j → j < w'.next → ∃ ref, (w'.heap j).ref = some ref ∧ ref.direct = true
  beyond : ∀ j, w'.next ≤ j → w'.heap j = w.heap j
  typed : ∀ e ∈ (w'.heap x).body.kids, KidOk (w.heap x).kind e.1 (w'.heap e.2.2).kind
  fine : Fine C w'
  read : ReadCase C x w w' (.ok true)

theorem Fine.opened {w w' : World} (hs : Fine C w) {i : ObjId} (hi : i < w.next)
    (hm : (w.heap i).mapped = false) (hc : ReadCase C i w w' (.ok true)) : Opened C i w w' := by
  have hread := hc
  have hcont := read_content hi hm (hs.full i hm) hc
  have hlog : w'.repo.log = w.repo.log := by
    cases hc <;> assumption
  have hlook : ∀ j, j < w.next → SameContent C w.repo.log w.heap (.mem j) w'.repo.log w'.heap (.mem j) := by
    rw [hlog]
    intro j hj
    refine look_frame (A := fun k => w.next ≤ k) ?_ ?_ hcont j (by oomega)
    · intro k hk hki
      have hk' : k < w.next := Nat.lt_of_not_le hk
      cases hc with
      | none r ref _ _ _ _ _ _ _ hh => rw [hh, Heap.set_ne hki]
      | read r ref loc b is so _ _ _ _ _ _ _ _ _ _ hold => exact hold k hki hk'
    · intro p hp k hk
      exact Nat.not_le.mpr (hs.kids p hp k hk)
  obtain ⟨b0, hv0⟩ := view_ok_of_look (hs.full i hm [] [])
  obtain ⟨r0, ref0, a, hr0, hf0, ha, hb0⟩ := (view_away hm).mp hv0
  cases hc with
  | none r ref hr hf hn hcls hlog hca hnx hh =>
    have hi' : w'.heap i = { w.heap i with mapped := true, body := (w.heap i).body.purged } := by
      rw [hh]; simp
    have hold : ∀ j, j ≠ i → w'.heap j = w.heap j := fun j hj => by rw [hh, Heap.set_ne hj]
    have hkind : (w'.heap i).kind = (w.heap i).kind := by
      rw [hi']; unfold Obj.kind Body.purged; exact Data.kind_purged _
    have hsubs : (w'.heap i).body.subs = [] := by rw [hi']; rfl
    refine ⟨hlog, hca, by rw [hnx]; exact Nat.le_refl _, fun j hj _ => hold j hj, hkind, hm, by rw [hi'], by rw [hi'],
      fun _ => by rw [hi'], ?_, ?_, by rw [hsubs]; exact List.nodup_nil, hlook, ?_,
      ⟨ref, hf, Or.inl (by rw [hi']; exact hf)⟩, fun r' _ h => by rw [hi']; exact h,
      fun y h => by rw [hi'] at h; exact h,
      fun j h1 h2 => absurd h2 (by rw [hnx]; exact Nat.not_lt.mpr h1), ?_, ?_, ?_, hread⟩
    · rw [hsubs]; intro k hk; cases hk
    · intro j h1 h2; rw [hnx] at h2; exact absurd h2 (Nat.not_lt.mpr h1)
    · obtain ⟨r1, ref1, g1, g2, g3, g4⟩ := hs.away i hm
      refine ⟨r1, ref1, g1, by rw [hi']; exact g2, by rw [hi']; exact g3, by rw [hi']; exact g4, ?_⟩
      rw [hkind, hlog]
      exact hcont.symm.trans (look_unloaded hm g2 g3)
    · intro j hj
      refine hold j ?_
      rintro rfl
      rw [hnx] at hj
      exact absurd hi (Nat.not_lt.mpr hj)
    · intro e he
      rw [hi'] at he
      cases he
    refine ⟨?_, ?_, ?_, ?_, ?_⟩
    · intro p hp k hk
      have hpi : p ≠ i := by rintro rfl; rw [hsubs] at hk; cases hk
      rw [hold p hpi] at hp hk
      rw [hnx]
      exact hs.kids p hp k hk
    · obtain ⟨rank, hrk⟩ := hs.ranked
      refine ⟨rank, fun p hp k hk => ?_⟩
      have hpi : p ≠ i := by rintro rfl; rw [hsubs] at hk; cases hk
      rw [hold p hpi] at hp hk
      exact hrk p hp k hk
    · intro j hj
      have hji : j ≠ i := by rintro rfl; rw [hi'] at hj; cases hj
      rw [hold j hji] at hj ⊢
      exact hs.away j hj
    · intro j hj
      have hji : j ≠ i := by rintro rfl; rw [hi'] at hj; cases hj
      rw [hold j hji] at hj
      refine Full.of_same ?_ (hs.full j hj)
      rw [hlog]
      exact look_frame (A := fun _ => False) (fun k _ hk => hold k hk) (fun _ _ _ _ h => h) hcont j (fun h => h)
    · intro j hj
      by_cases hji : j = i
      · subst hji
        rw [hi']
        refine ⟨List.nodup_nil, ?_, ?_⟩
        · intro e he; cases he
        · intro _ e he; cases he
      · rw [hold j hji] at hj ⊢
        exact hs.formed j hj
  | read r ref loc b is so hr hf hn hloc hsv hacc hdec _ hca hnx hold hbig hkids hnew hso hobj hdis =>
    rw [hr0] at hr; cases hr
    rw [hf0] at hf; cases hf
    have hab : a = b := by
      have := (strictFetch_ok ha).1
      rw [fetch_some hn hacc hloc, hdec] at this
      cases this; rfl
    subst hab
    obtain ⟨hdk, hlinks⟩ := decode_links hdec
    have hfd := decode_formed hdec
    let A : ObjId → Prop := fun j => w.next ≤ j ∧ j < w'.next
    have hiA : ¬ A i := fun h => absurd hi (Nat.not_lt.mpr h.1)
    have hold' : ∀ j, ¬ A j → j ≠ i → w'.heap j = w.heap j := by
      intro j hj hji
      by_cases hlt : j < w.next
      · exact hold j hji hlt
      · exact hbig j hji (Nat.not_lt.mp fun h => hj ⟨Nat.not_lt.mp hlt, h⟩)
    have hapart : ∀ p, (w.heap p).mapped = true → ∀ k ∈ (w.heap p).body.subs, ¬ A k :=
      fun p hp k hk h => absurd (hs.kids p hp k hk) (Nat.not_lt.mpr h.1)
    have hkind : (w'.heap i).kind = (w.heap i).kind := by
      rw [hobj]; unfold Obj.kind; exact hdk
    have hne : ∀ j, A j → j ≠ i := by rintro j hj rfl; exact hiA hj
    have hkid : ∀ k ∈ (w'.heap i).body.subs, A k := by
      intro k hk
      rw [hobj] at hk
      unfold Body.subs at hk
      obtain ⟨e, he, rfl⟩ := List.mem_map.mp hk
      obtain ⟨e', _, h1⟩ := all2_right hkids he
      exact ⟨h1.2.2.1, h1.2.2.2.1⟩
    have hobjA : ∀ j, A j → ∃ e ∈ a.kids, w'.heap j = e.2.2.obj r0 :=
      fun j hj => hnew j (hne j hj) hj.1 hj.2
    have hmA : ∀ j, A j → (w'.heap j).mapped = false := by
      intro j hj
      obtain ⟨e, _, h1⟩ := hobjA j hj
      rw [h1]; rfl
    have hr0ne : r0 ≠ [] := by
      obtain ⟨r1, _, h1, h2, _⟩ := hs.away i hm
      rw [hr0] at h2; cases h2; exact h1
    have hsame : ∀ j, ¬ A j → SameContent C w.repo.log w.heap (.mem j) w.repo.log w'.heap (.mem j) :=
      fun j hj => look_frame hold' hapart hcont j hj
    refine ⟨hlog, hca, hnx, hold, hkind, hm, by rw [hobj], by rw [hobj, hr0], ?_,
      fun k hk => hkid k hk, fun j h1 h2 => hmA j ⟨h1, h2⟩, by rw [hobj]; exact hdis, hlook, ?_,
      ⟨ref0, hf0, Or.inr (by rw [hobj, hloc])⟩, ?_, ?_, ?_,
      fun j hj => hbig j (by rintro rfl; exact absurd hi (Nat.not_lt.mpr (Nat.le_trans hnx hj))) hj, ?_, ?_, hread⟩
    · intro hk; rw [hobj, hso]; simp [hk]
    · refine ⟨r0, ⟨(w.heap i).kind.name, some loc⟩, hr0ne, by rw [hobj], by rw [hobj], Or.inr ?_, ?_⟩
      · rw [hobj, hso]
        split
        · exact List.mem_cons_self ..
        · exact hsv
      · rw [hkind, hlog]
        refine hcont.symm.trans ((look_unloaded hm hr0 hf0).trans (h' := w.heap) ?_)
        refine look_of_view (view_sto' _ _) ?_
        rw [view_sto' (C := C) (L := w.repo.log) (h := w'.heap) r0 ⟨(w.heap i).kind, ⟨(w.heap i).kind.name, some loc⟩⟩]
        congr 1
        exact strictFetch_cls hloc.symm hn hacc (accepts_name _)
    · intro r' h1 h2
      rw [hr0] at h1; cases h1
      rw [hobj, hso]
      split
      · exact List.mem_cons_self ..
      · exact h2
    · intro y hy
      rw [hobj, hso] at hy
      simp only at hy
      split at hy
      · rw [List.mem_singleton] at hy; rw [hy]; exact hsv
      · exact hy
    · intro j h1 h2
      obtain ⟨e, he, h3⟩ := hobjA j ⟨h1, h2⟩
      exact ⟨e.2.2.ref, by rw [h3]; rfl, direct_mem ha he⟩
    · intro e he
      rw [hobj] at he
      obtain ⟨e', he', h1, _, h2, h3, h4⟩ := all2_right hkids he
      rw [h4 (hne _ ⟨h2, h3⟩), kind_linkObj, ← h1]
      exact decode_kidOk hdec e' he'
    refine ⟨?_, ?_, ?_, ?_, ?_⟩
    · intro p hp k hk
      by_cases hpi : p = i
      · subst hpi; exact (hkid k hk).2
      · have hpA : ¬ A p := fun h => by rw [hmA p h] at hp; cases hp
        rw [hold' p hpA hpi] at hp hk
        exact Nat.lt_of_lt_of_le (hs.kids p hp k hk) hnx
    · obtain ⟨rank, hrk⟩ := hs.ranked
      classical
      refine ⟨fun j => if A j then 0 else rank j + 1, fun p hp k hk => ?_⟩
      have hpA : ¬ A p := fun h => by rw [hmA p h] at hp; cases hp
      simp only [if_neg hpA]
      by_cases hpi : p = i
      · subst hpi
        rw [if_pos (hkid k hk)]
        exact Nat.succ_pos _
      · rw [hold' p hpA hpi] at hp hk
        rw [if_neg (hapart p hp k hk)]
        exact Nat.succ_lt_succ (hrk p hp k hk)
    · intro j hj
      have hji : j ≠ i := by rintro rfl; rw [hobj] at hj; cases hj
      by_cases hA : A j
      · obtain ⟨e, _, h1⟩ := hobjA j hA
        refine ⟨r0, e.2.2.ref, hr0ne, by rw [h1]; rfl, by rw [h1]; rfl, ?_⟩
        rw [h1]
        unfold Link.obj
        cases hno : e.2.2.ref.isNone with
        | true => exact Or.inl rfl
        | false => right; simp [hr0ne]
      · rw [hold' j hA hji] at hj ⊢
        exact hs.away j hj
    · intro j hj
      have hji : j ≠ i := by rintro rfl; rw [hobj] at hj; cases hj
      rw [hlog]
      by_cases hA : A j
      · obtain ⟨e, he, h1⟩ := hobjA j hA
        have hkj : (w'.heap j).kind = e.2.2.kind := by rw [h1, kind_linkObj]
        have hsj : SameContent C w.repo.log w'.heap (.mem j) w.repo.log w.heap
            (.sto r0 ⟨(w'.heap j).kind, e.2.2.ref⟩) :=
          look_unloaded (hmA j hA) (by rw [h1]; rfl) (by rw [h1]; rfl)
        refine Full.of_same hsj.symm ?_
        rw [hkj]
        have hdg : dget (a.map (Node.sto r0)).kids e.1 = some (e.2.1, .sto r0 e.2.2) := by
          rw [Body.dget_map, dget_of_mem hfd.keys (k := e.1) (v := e.2) he]; rfl
        rw [hb0] at hv0
        rcases (hs.full i hm).kid hv0 hdg with ⟨b', h3, _, h4⟩ | ⟨h3, _⟩
        · exact full_blank h3 h4
        · exact h3
      · rw [hold' j hA hji] at hj
        exact Full.of_same (hsame j hA) (hs.full j hj)
    · intro j hj
      by_cases hji : j = i
      · subst hji
        rw [hobj]
        have hk : dkeys is = dkeys a.kids := by
          unfold dkeys
          have := all2_map_eq (f := Prod.fst) (g := Prod.fst) hkids (fun _ _ _ h => h.1)
          exact this.symm
        refine ⟨by rw [hk]; exact hfd.keys, fun e he => ?_, fun hk e he => ?_⟩
        · obtain ⟨e', he', h1⟩ := all2_right hkids he
          rw [← h1.1]
          exact hfd.fits e' he'
        · obtain ⟨e', he', h1⟩ := all2_right hkids he
          rw [← h1.2.1]
          exact hfd.stamps hk e' he'
      · have hA : ¬ A j := fun h => by rw [hmA j h] at hj; cases hj
        rw [hold' j hA hji] at hj ⊢
        exact hs.formed j hj

/-- How `ensure_mapped` ends. -/
theorem Fine.ensure {w : World} (hs : Fine C w) {i : ObjId} (hi : i < w.next) :
    ((w.heap i).mapped = true ∧ ensureMapped C i w = (.ok false, w)) ∨
    (∃ e w', ensureMapped C i w = (.error e, w') ∧ w'.heap = w.heap ∧ w'.next = w.next ∧
      w'.repo.log = w.repo.log ∧ w'.caches = w.caches) ∨
    (∃ w', ensureMapped C i w = (.ok true, w') ∧ Opened C i w w') := by
  by_cases hm : (w.heap i).mapped = true
  · exact Or.inl ⟨hm, ensureMapped_mapped hm⟩
  · have hm : (w.heap i).mapped = false := by simpa using hm
    right
    have hc := ensureMapped_cases C i w hm
    cases hx : ensureMapped C i w with
    | mk res w' =>
      rw [hx] at hc
      simp only at hc
      cases res with
      | error e =>
        cases hc with
        | failed e h1 h2 h3 h4 => exact Or.inl ⟨e, w', rfl, h1, h2, h3, h4⟩
      | ok b =>
        have hb : b = true := by cases hc <;> rfl
        subst hb
        exact Or.inr ⟨w', rfl, hs.opened hi hm hc⟩

/-- If git works, every object can be loaded. -/
theorem Fine.loads {w : World} (hs : Fine C w) (hf : w.repo.faults = []) (i : ObjId) :
    ∃ b w', ensureMapped C i w = (.ok b, w') ∧ w'.repo = w.repo := by
  by_cases hm : (w.heap i).mapped = true
  · exact ⟨false, w, ensureMapped_mapped hm, rfl⟩
  · have hm : (w.heap i).mapped = false := by simpa using hm
    obtain ⟨b0, hv0⟩ := view_ok_of_look (hs.full i hm [] [])
    obtain ⟨r, ref, a, h1, h2, h3, _⟩ := (view_away hm).mp hv0
    obtain ⟨r', ref', hrne, h1', h2', hsv⟩ := hs.away i hm
    rw [h1] at h1'; cases h1'
    rw [h2] at h2'; cases h2'
    obtain ⟨hfe, _, _⟩ := strictFetch_ok h3
    have hread : ∃ w1, readIn C i w = (.ok (), w1) ∧ w1.repo = w.repo := by
      unfold readIn
      rw [M.bind_of_ok (getObj_run i w), if_neg (by simp [hm]), h1, h2]
      simp only
      unfold fetch at hfe
      by_cases hn : ref.isNone = true
      · rw [if_pos hn] at hfe ⊢
        by_cases hcls : ref.cls = (w.heap i).kind.name
        · rw [if_pos hcls] at hfe
          have : (w.heap i).kind ≠ .mrr := by intro e; rw [if_pos e] at hfe; cases hfe
          rw [decide_eq_true hcls, M.bind_of_ok (M.assert_true w), if_neg (fun h => this h.1)]
          exact ⟨_, rfl, rfl⟩
        · rw [if_neg hcls] at hfe; cases hfe
      · rw [if_neg hn] at hfe ⊢
        have hr0 : r ∈ (w.heap i).savedOn := by
          rcases hsv with h | h
          · exact absurd h hn
          · exact h
        rw [if_neg (by simpa using hr0)]
        by_cases ha : (w.heap i).kind.accepts ref.cls = true
        · rw [if_pos ha] at hfe
          rw [ha, M.bind_of_ok (M.assert_true w)]
          cases hl : ref.loc with
          | none => rw [hl] at hfe; cases hfe
          | some loc =>
            rw [hl] at hfe
            simp only at hfe ⊢
            have hd := decodeG_total (C := C) hf hfe
            have hlift : liftG (decodeG C r (w.heap i).kind loc) w = (.ok a, w) := by
              unfold liftG; rw [hd]
            rw [M.bind_of_ok hlift]
            obtain ⟨is, w', hal, hrep, _⟩ := allocKids_ok (r := r) a.kids w
            rw [M.bind_of_ok hal]
            exact ⟨_, rfl, hrep⟩
        · rw [if_neg ha] at hfe; cases hfe
    obtain ⟨w1, hread, hrep⟩ := hread
    refine ⟨true, { w1 with heap := w1.heap.set i { w1.heap i with mapped := true } }, ?_, ?_⟩
    · unfold ensureMapped
      rw [M.bind_of_ok (getObj_run i w), if_neg (by simp [hm]), M.bind_of_ok hread,
        M.bind_of_ok (updObj_run i _ w1)]
      rfl
    · exact hrep

/-! ### Following keys in memory -/

/-- The object that is found by following keys through loaded objects. -/
inductive Leads (h : Heap) : ObjId → List Key → ObjId → Prop
  | nil (i : ObjId) : Leads h i [] i
  | cons {i : ObjId} {k : Key} {ks : List Key} {j : ObjId} (t : Str) (c : ObjId) :
      (h i).mapped = true → dget (h i).body.kids k = some (t, c) → Leads h c ks j →
      Leads h i (k :: ks) j

theorem Leads.unique {h : Heap} {i : ObjId} {ks : List Key} {j j' : ObjId} (h1 : Leads h i ks j)
    (h2 : Leads h i ks j') : j = j' := by
  induction h1 with
  | nil => cases h2; rfl
  | cons t c _ hd _ ih =>
    cases h2 with
    | cons t' c' _ hd' h2 => rw [hd] at hd'; cases hd'; exact ih h2

theorem Leads.append {h : Heap} {i m j : ObjId} {ks ks' : List Key} (h1 : Leads h i ks m)
    (h2 : Leads h m ks' j) : Leads h i (ks ++ ks') j := by
  induction h1 with
  | nil => exact h2
  | cons t c hm hd _ ih => exact Leads.cons t c hm hd (ih h2)

theorem Leads.split {h : Heap} {i j : ObjId} {ks ks' : List Key} (hl : Leads h i (ks ++ ks') j) :
    ∃ m, Leads h i ks m ∧ Leads h m ks' j := by
  induction ks generalizing i with
  | nil => exact ⟨i, Leads.nil i, hl⟩
  | cons k ks ih =>
    cases hl with
    | cons t c hm hd hl =>
      obtain ⟨m, h1, h2⟩ := ih hl
      exact ⟨m, Leads.cons t c hm hd h1, h2⟩

theorem dget_sub {b : Body ObjId} {k : Key} {t : Str} {c : ObjId} (h : dget b.kids k = some (t, c)) :
    c ∈ b.subs := List.mem_map.mpr ⟨_, mem_of_dget h, rfl⟩

theorem Leads.reach {h : Heap} {i : ObjId} {ks : List Key} {j : ObjId} (hl : Leads h i ks j) :
    Reach h i j := by
  induction hl with
  | nil => exact Reach.refl _
  | cons t c hm hd _ ih => exact Reach.step _ c _ hm (dget_sub hd) ih

theorem Reach.leads {h : Heap} (hf : ∀ j, (h j).mapped = true → Formed (h j).body) {i j : ObjId}
    (hr : Reach h i j) : ∃ ks, Leads h i ks j := by
  induction hr with
  | refl i => exact ⟨[], Leads.nil i⟩
  | step i k j hm hk _ ih =>
    obtain ⟨ks, ih⟩ := ih
    obtain ⟨e, he, rfl⟩ := List.mem_map.mp hk
    exact ⟨e.1 :: ks, Leads.cons e.2.1 e.2.2 hm (dget_of_mem (hf i hm).keys (k := e.1) (v := e.2) he) ih⟩

theorem Reach.rank {h : Heap} {rank : ObjId → Nat} (hr : Ranked rank h) {i j : ObjId}
    (hl : Reach h i j) : i = j ∨ rank j < rank i := by
  induction hl with
  | refl => exact Or.inl rfl
  | step i k j hm hk _ ih =>
    right
    have := hr i hm k hk
    rcases ih with e | e
    · subst e; exact this
    · exact Nat.lt_trans e this

theorem Reach.lt {w : World} (hk : ∀ p, (w.heap p).mapped = true → ∀ k ∈ (w.heap p).body.subs, k < w.next)
    {i j : ObjId} (hi : i < w.next) (hl : Reach w.heap i j) : j < w.next := by
  induction hl with
  | refl => exact hi
  | step i k j hm hk' _ ih => exact ih (hk i hm k hk')

/-- The keys of a path in a tree -/
def names (p : List Str) : List Key := p.map Key.name

theorem names_append (p q : List Str) : names (p ++ q) = names p ++ names q := List.map_append

/-- The nodes of a tree are found under one path only, and nowhere else below the root
of the tree. -/
def OnePath (h : Heap) (i : ObjId) : Prop :=
  ∀ q ks j, Leads h i (names q) j → (h j).kind.isMtree = true → Leads h i ks j → ks = names q

/-- The nodes of the tree `i` are not reached from `a`. -/
def Apart (h : Heap) (a i : ObjId) : Prop :=
  ∀ q j, Leads h i (names q) j → (h j).kind.isMtree = true → ¬ Reach h a j

/-! ### Loading on the way -/

/-- Objects were read, one after the other: in the way of `ensure_mapped`, without a change, or so that an
object that is not loaded stands for the same as before. -/
inductive Reads (C : Cfg) (w : World) : World → Prop
  | refl : Reads C w w
  | read {w1 w2 : World} (x : ObjId) : Reads C w w1 → x < w1.next → (w1.heap x).mapped = false →
      ReadCase C x w1 w2 (.ok true) → Reads C w w2
  | same {w1 w2 : World} : Reads C w w1 → w2.heap = w1.heap → w2.next = w1.next →
      w2.repo.log = w1.repo.log → w2.caches = w1.caches → Reads C w w2
  | standIn {w1 w2 : World} (i : ObjId) : Reads C w w1 → (∀ j, j ≠ i → w2.heap j = w1.heap j) →
      w2.next = w1.next → w2.repo.log = w1.repo.log → w2.caches = w1.caches →
      (w1.heap i).mapped = false → (w2.heap i).mapped = false → (w2.heap i).realm = (w1.heap i).realm →
      (w2.heap i).ref = (w1.heap i).ref → (w2.heap i).kind = (w1.heap i).kind →
      (w2.heap i).savedOn = (w1.heap i).savedOn → Reads C w w2

theorem Reads.trans {a b c : World} (h : Reads C a b) (h' : Reads C b c) : Reads C a c := by
  induction h' with
  | refl => exact h
  | read x _ h1 h2 h3 ih => exact .read x ih h1 h2 h3
  | same _ h1 h2 h3 h4 ih => exact .same ih h1 h2 h3 h4
  | standIn i _ h1 h2 h3 h4 h5 h6 h7 h8 h9 h10 ih => exact .standIn i ih h1 h2 h3 h4 h5 h6 h7 h8 h9 h10

/-- Some objects were loaded, and perhaps unloaded again; nothing else was done. -/
structure Peeks (C : Cfg) (w w' : World) : Prop where
  log : w'.repo.log = w.repo.log
  caches : w'.caches = w.caches
  next : w.next ≤ w'.next
  loaded : ∀ j, j < w.next → (w.heap j).mapped = true → w'.heap j = w.heap j
  kind : ∀ j, j < w.next → (w'.heap j).kind = (w.heap j).kind
  saved : ∀ j, j < w.next → (w.heap j).kind ≠ .mrr → (w'.heap j).savedOn = (w.heap j).savedOn
  content : ∀ j, j < w.next → SameContent C w.repo.log w.heap (.mem j) w'.repo.log w'.heap (.mem j)
  fine : Fine C w'
  back : ∀ a ks j, a < w.next → j < w.next → Leads w'.heap a ks j → Leads w.heap a ks j
  onePath : ∀ i, i < w.next → OnePath w.heap i → OnePath w'.heap i
  apart : ∀ a i, a < w.next → i < w.next → Apart w.heap a i → Apart w'.heap a i
  newKids : ∀ p, p < w'.next → (w'.heap p).mapped = true → (w.next ≤ p ∨ (w.heap p).mapped = false) →
    ∀ k ∈ (w'.heap p).body.subs, w.next ≤ k
  single : ∀ p p' k k' t t' j, w.next ≤ j → p < w'.next → p' < w'.next → (w'.heap p).mapped = true →
    (w'.heap p').mapped = true → dget (w'.heap p).body.kids k = some (t, j) →
    dget (w'.heap p').body.kids k' = some (t', j) → p = p' ∧ k = k'
  typed : Typed w.heap → Typed w'.heap

/-- Some objects were loaded, nothing else was done. -/
structure Loads (C : Cfg) (w w' : World) : Prop extends Peeks C w w' where
  reads : Reads C w w'

theorem Fine.refl_new {w : World} (hf : Fine C w) :
    (∀ p, p < w.next → (w.heap p).mapped = true → (w.next ≤ p ∨ (w.heap p).mapped = false) →
      ∀ k ∈ (w.heap p).body.subs, w.next ≤ k) ∧
    (∀ p p' k k' t t' j, w.next ≤ j → p < w.next → p' < w.next → (w.heap p).mapped = true →
      (w.heap p').mapped = true → dget (w.heap p).body.kids k = some (t, j) →
      dget (w.heap p').body.kids k' = some (t', j) → p = p' ∧ k = k') := by
  refine ⟨?_, ?_⟩
  · intro p hp hm h
    rcases h with h | h
    · exact absurd hp (Nat.not_lt.mpr h)
    · rw [hm] at h; cases h
  · intro p p' k k' t t' j hj _ _ hm _ hd _
    exact absurd (hf.kids p hm j (dget_sub hd)) (Nat.not_lt.mpr hj)

theorem Peeks.refl {w : World} (hf : Fine C w) : Peeks C w w :=
  ⟨rfl, rfl, Nat.le_refl _, fun _ _ _ => rfl, fun _ _ => rfl, fun _ _ _ => rfl,
   fun _ _ => SameContent.refl _ _ _ _, hf, fun _ _ _ _ _ h => h, fun _ _ h => h, fun _ _ _ _ h => h,
   hf.refl_new.1, hf.refl_new.2, fun h => h⟩

theorem Loads.refl {w : World} (hf : Fine C w) : Loads C w w := ⟨Peeks.refl hf, .refl⟩

theorem Peeks.trans {a b c : World} (h : Peeks C a b) (h' : Peeks C b c) : Peeks C a c := by
  have hlt : ∀ j, j < a.next → j < b.next := fun j hj => Nat.lt_of_lt_of_le hj h.next
  refine ⟨h'.log.trans h.log, h'.caches.trans h.caches, Nat.le_trans h.next h'.next, ?_, ?_, ?_, ?_,
    h'.fine, ?_, ?_, ?_, ?_, ?_, fun ht => h'.typed (h.typed ht)⟩
  · intro j hj hm
    have e := h.loaded j hj hm
    rw [h'.loaded j (hlt j hj) (by rw [e]; exact hm), e]
  · intro j hj; rw [h'.kind j (hlt j hj), h.kind j hj]
  · intro j hj hk
    rw [h'.saved j (hlt j hj) (by rw [h.kind j hj]; exact hk), h.saved j hj hk]
  · intro j hj; exact (h.content j hj).trans (h'.content j (hlt j hj))
  · intro x ks j hx hj hl; exact h.back x ks j hx hj (h'.back x ks j (hlt x hx) (hlt j hj) hl)
  · intro i hi hs; exact h'.onePath i (hlt i hi) (h.onePath i hi hs)
  · intro x i hx hi hs; exact h'.apart x i (hlt x hx) (hlt i hi) (h.apart x i hx hi hs)
  · intro p hp hm hn k hk
    by_cases hb : p < b.next ∧ (b.heap p).mapped = true
    · rw [h'.loaded p hb.1 hb.2] at hk
      exact h.newKids p hb.1 hb.2 hn k hk
    · refine Nat.le_trans h.next (h'.newKids p hp hm ?_ k hk)
      by_cases hpb : p < b.next
      · right
        cases hbm : (b.heap p).mapped with
        | true => exact absurd ⟨hpb, hbm⟩ hb
        | false => rfl
      · exact Or.inl (Nat.not_lt.mp hpb)
  · intro p p' k k' t t' j hj hp hp' hm hm' hd hd'
    by_cases hjb : j < b.next
    · have hold : ∀ p k t, p < c.next → (c.heap p).mapped = true → dget (c.heap p).body.kids k = some (t, j) →
          p < b.next ∧ (b.heap p).mapped = true ∧ dget (b.heap p).body.kids k = some (t, j) := by
        intro p k t hp hm hd
        by_cases hb : p < b.next ∧ (b.heap p).mapped = true
        · rw [h'.loaded p hb.1 hb.2] at hd
          exact ⟨hb.1, hb.2, hd⟩
        · refine absurd hjb (Nat.not_lt.mpr (h'.newKids p hp hm ?_ j (dget_sub hd)))
          by_cases hpb : p < b.next
          · right
            cases hbm : (b.heap p).mapped with
            | true => exact absurd ⟨hpb, hbm⟩ hb
            | false => rfl
          · exact Or.inl (Nat.not_lt.mp hpb)
      obtain ⟨g1, g2, g3⟩ := hold p k t hp hm hd
      obtain ⟨g1', g2', g3'⟩ := hold p' k' t' hp' hm' hd'
      exact h.single p p' k k' t t' j hj g1 g1' g2 g2' g3 g3'
    · exact h'.single p p' k k' t t' j (Nat.not_lt.mp hjb) hp hp' hm hm' hd hd'

theorem Loads.trans {a b c : World} (h : Loads C a b) (h' : Loads C b c) : Loads C a c :=
  ⟨h.toPeeks.trans h'.toPeeks, h.reads.trans h'.reads⟩

theorem Peeks.of_same {w w' : World} (hf : Fine C w) (h1 : w'.heap = w.heap) (h2 : w'.next = w.next)
    (h3 : w'.repo.log = w.repo.log) (h4 : w'.caches = w.caches) : Peeks C w w' := by
  refine ⟨h3, h4, by rw [h2]; exact Nat.le_refl _, fun _ _ _ => by rw [h1], fun _ _ => by rw [h1],
    fun _ _ _ => by rw [h1], fun _ _ => by rw [h1, h3]; exact SameContent.refl _ _ _ _, hf.congr h1 h3 h2,
    fun _ _ _ _ _ h => by rw [h1] at h; exact h, fun _ _ h => by rw [h1]; exact h,
    fun _ _ _ _ h => by rw [h1]; exact h, by rw [h1, h2]; exact hf.refl_new.1,
    by rw [h1, h2]; exact hf.refl_new.2, fun h => by rw [h1]; exact h⟩

theorem Loads.of_same {w w' : World} (hf : Fine C w) (h1 : w'.heap = w.heap) (h2 : w'.next = w.next)
    (h3 : w'.repo.log = w.repo.log) (h4 : w'.caches = w.caches) : Loads C w w' :=
  ⟨Peeks.of_same hf h1 h2 h3 h4, .same .refl h1 h2 h3 h4⟩

theorem Opened.back {x : ObjId} {w w' : World} (h : Opened C x w w') (hf : Fine C w) :
    ∀ ks a j, a < w.next → j < w.next → Leads w'.heap a ks j → Leads w.heap a ks j := by
  intro ks
  induction ks with
  | nil => intro a j _ _ hl; cases hl; exact Leads.nil a
  | cons k ks ih =>
    intro a j ha hj hl
    cases hl with
    | cons t c hm hd hl =>
      by_cases hax : a = x
      · subst hax
        have hc := h.new c (dget_sub hd)
        have hcm := h.fresh c hc.1 hc.2
        cases hl with
        | nil => exact absurd hj (Nat.not_lt.mpr hc.1)
        | cons _ _ hm' => rw [hcm] at hm'; cases hm'
      · rw [h.old a hax ha] at hm hd
        exact Leads.cons t c hm hd (ih c j (hf.kids a hm c (dget_sub hd)) hj hl)

theorem Opened.back_new {x : ObjId} {w w' : World} (h : Opened C x w w') (hf : Fine C w) :
    ∀ ks a j, a < w.next → w.next ≤ j → Leads w'.heap a ks j →
      ∃ ks0 k t, ks = ks0 ++ [k] ∧ Leads w.heap a ks0 x ∧ dget (w'.heap x).body.kids k = some (t, j) := by
  intro ks
  induction ks with
  | nil => intro a j ha hj hl; cases hl; exact absurd ha (Nat.not_lt.mpr hj)
  | cons k ks ih =>
    intro a j ha hj hl
    cases hl with
    | cons t c hm hd hl =>
      by_cases hax : a = x
      · subst hax
        have hc := h.new c (dget_sub hd)
        have hcm := h.fresh c hc.1 hc.2
        cases hl with
        | nil => exact ⟨[], k, t, rfl, Leads.nil a, hd⟩
        | cons _ _ hm' => rw [hcm] at hm'; cases hm'
      · rw [h.old a hax ha] at hm hd
        obtain ⟨ks0, k', t', e1, e2, e3⟩ := ih c j (hf.kids a hm c (dget_sub hd)) hj hl
        exact ⟨k :: ks0, k', t', by rw [e1]; rfl, Leads.cons t c hm hd e2, e3⟩

theorem nodup_key {kids : List (Key × (Str × ObjId))} (hn : (kids.map fun e => e.2.2).Nodup)
    {k k' : Key} {t t' : Str} {c : ObjId} (h : dget kids k = some (t, c))
    (h' : dget kids k' = some (t', c)) : k = k' := by
  have m1 := mem_of_dget h
  have m2 := mem_of_dget h'
  clear h h'
  induction kids with
  | nil => cases m1
  | cons e kids ih =>
    rw [List.map_cons, List.nodup_cons] at hn
    rcases List.mem_cons.mp m1 with e1 | e1 <;> rcases List.mem_cons.mp m2 with e2 | e2
    · rw [← e1] at e2; cases e2; rfl
    · exact absurd (List.mem_map.mpr ⟨_, e2, by rw [← e1]⟩) hn.1
    · exact absurd (List.mem_map.mpr ⟨_, e1, by rw [← e2]⟩) hn.1
    · exact ih hn.2 e1 e2

theorem fits_name {k : Kind} {n : Str} (h : Key.fits k (.name n) = true) : k.isMtree = true := by
  cases k <;> simp_all [Key.fits, Kind.isMtree]

theorem fits_tree {k : Kind} {key : Key} (hk : k.isMtree = true) (h : Key.fits k key = true) :
    ∃ n, key = .name n := by
  cases k <;> cases key <;> simp_all [Key.fits, Kind.isMtree]

theorem names_snoc {q : List Str} {ks : List Key} {k : Key} (h : names q = ks ++ [k]) :
    ∃ q0 n, q = q0 ++ [n] ∧ ks = names q0 ∧ k = .name n := by
  rcases List.eq_nil_or_concat q with rfl | ⟨q0, n, rfl⟩
  · simp [names] at h
  · rw [List.concat_eq_append] at h ⊢
    rw [names_append] at h
    have := List.append_inj' h rfl
    refine ⟨q0, n, rfl, this.1.symm, ?_⟩
    have h2 := this.2
    simp [names] at h2
    exact h2.symm

theorem Opened.loads {x : ObjId} {w w' : World} (h : Opened C x w w') (hf : Fine C w)
    (hx : x < w.next) : Loads C w w' := by
  have hkind : ∀ j, j < w.next → (w'.heap j).kind = (w.heap j).kind := by
    intro j hj
    by_cases hjx : j = x
    · subst hjx; exact h.kind
    · rw [h.old j hjx hj]
  refine ⟨⟨h.log, h.caches, h.next, ?_, hkind, ?_, h.content, h.fine,
    fun a ks j => h.back hf ks a j, ?_, ?_, ?_, ?_, ?_⟩, .read x .refl hx h.was h.read⟩
  · intro j hj hm
    refine h.old j ?_ hj
    rintro rfl
    rw [h.was] at hm; cases hm
  · intro j hj hk
    by_cases hjx : j = x
    · subst hjx; exact h.saved hk
    · rw [h.old j hjx hj]
  · intro i hi hs q ks j h1 hk h2
    by_cases hj : j < w.next
    · exact hs q ks j (h.back hf _ i j hi hj h1) (by rw [← hkind j hj]; exact hk) (h.back hf _ i j hi hj h2)
    · have hj := Nat.not_lt.mp hj
      obtain ⟨ks0, k, t, e1, e2, e3⟩ := h.back_new hf _ i j hi hj h1
      obtain ⟨ks1, k1, t1, f1, f2, f3⟩ := h.back_new hf _ i j hi hj h2
      have hkk := nodup_key h.distinct f3 e3
      obtain ⟨q0, n, rfl, g1, g2⟩ := names_snoc e1
      subst g1 g2
      have hfit := (h.fine.formed x h.mapped).fits _ (mem_of_dget e3)
      have hxm : (w.heap x).kind.isMtree = true := by
        rw [← h.kind]; exact fits_name hfit
      rw [f1, hkk, hs q0 ks1 x e2 hxm f2, names_append]
      rfl
  · intro a i ha hi hs q j h1 hk h2
    obtain ⟨ks, h2⟩ := h2.leads h.fine.formed
    by_cases hj : j < w.next
    · exact hs q j (h.back hf _ i j hi hj h1) (by rw [← hkind j hj]; exact hk)
        (h.back hf _ a j ha hj h2).reach
    · have hj := Nat.not_lt.mp hj
      obtain ⟨ks0, k, t, e1, e2, e3⟩ := h.back_new hf _ i j hi hj h1
      obtain ⟨ks1, k1, t1, f1, f2, f3⟩ := h.back_new hf _ a j ha hj h2
      obtain ⟨q0, n, rfl, g1, g2⟩ := names_snoc e1
      subst g1 g2
      have hfit := (h.fine.formed x h.mapped).fits _ (mem_of_dget e3)
      exact hs q0 x e2 (by rw [← h.kind]; exact fits_name hfit) f2.reach
  · intro p hp hm hn k hk
    by_cases hpx : p = x
    · subst hpx; exact (h.new k hk).1
    · exfalso
      by_cases hpo : p < w.next
      · rw [h.old p hpx hpo] at hm
        rcases hn with hn | hn
        · exact absurd hpo (Nat.not_lt.mpr hn)
        · rw [hm] at hn; cases hn
      · rw [h.fresh p (Nat.not_lt.mp hpo) hp] at hm; cases hm
  · have hx' : ∀ p k t j, w.next ≤ j → p < w'.next → (w'.heap p).mapped = true →
        dget (w'.heap p).body.kids k = some (t, j) → p = x := by
      intro p k t j hj hp hm hd
      by_cases hpx : p = x
      · exact hpx
      · exfalso
        by_cases hpo : p < w.next
        · rw [h.old p hpx hpo] at hm hd
          exact absurd (hf.kids p hm j (dget_sub hd)) (Nat.not_lt.mpr hj)
        · rw [h.fresh p (Nat.not_lt.mp hpo) hp] at hm; cases hm
    intro p p' k k' t t' j hj hp hp' hm hm' hd hd'
    have e := hx' p k t j hj hp hm hd
    have e' := hx' p' k' t' j hj hp' hm' hd'
    rw [e] at hd
    rw [e'] at hd'
    exact ⟨e.trans e'.symm, nodup_key h.distinct hd hd'⟩
  · intro ht q hq e he
    by_cases hqi : q = x
    · subst hqi; rw [h.kind]; exact h.typed e he
    · have eq : w'.heap q = w.heap q := by
        by_cases hq1 : q < w.next
        · exact h.old q hqi hq1
        · by_cases hq2 : q < w'.next
          · rw [h.fresh q (Nat.not_lt.mp hq1) hq2] at hq; cases hq
          · exact h.beyond q (Nat.not_lt.mp hq2)
      rw [eq] at hq he ⊢
      rw [hkind _ (hf.kids q hq _ (List.mem_map.mpr ⟨e, he, rfl⟩))]
      exact ht q hq e he

/-- Loading an object, with any outcome -/
theorem Fine.loadsStep {w : World} (hs : Fine C w) {i : ObjId} (hi : i < w.next) :
    Loads C w (ensureMapped C i w).2 := by
  rcases hs.ensure hi with ⟨_, h⟩ | ⟨e, w', h, h1, h2, h3, h4⟩ | ⟨w', h, ho⟩
  · rw [h]; exact Loads.refl hs
  · rw [h]; exact Loads.of_same hs h1 h2 h3 h4
  · rw [h]; exact ho.loads hs hi

/-- After a successful load the object is loaded. -/
theorem Fine.loaded {w w' : World} (hs : Fine C w) {i : ObjId} (hi : i < w.next) {b : Bool}
    (h : ensureMapped C i w = (.ok b, w')) : Loads C w w' ∧ (w'.heap i).mapped = true := by
  have hl := hs.loadsStep hi
  rw [h] at hl
  refine ⟨hl, ?_⟩
  rcases hs.ensure hi with ⟨hm, h'⟩ | ⟨e, w1, h', _⟩ | ⟨w1, h', ho⟩
  · rw [h] at h'; cases h'; exact hm
  · rw [h] at h'; cases h'
  · rw [h] at h'; cases h'; exact ho.mapped

theorem Peeks.leads {w w' : World} (h : Peeks C w w') (hf : Fine C w) {a : ObjId} {ks : List Key}
    {j : ObjId} (ha : a < w.next) (hl : Leads w.heap a ks j) : Leads w'.heap a ks j := by
  induction hl with
  | nil i => exact Leads.nil i
  | cons t c hm hd _ ih =>
    have e := h.loaded _ ha hm
    exact Leads.cons t c (by rw [e]; exact hm) (by rw [e]; exact hd) (ih (hf.kids _ hm c (dget_sub hd)))

end MM
