/-
What finding or creating a root record does as a whole.
-/
import Verif.CommonOps

namespace MM

variable {C : Cfg}

/-! ### Nothing is lost -/

/-- An object has something under a key. -/
def Here (C : Cfg) (w : World) (j : ObjId) (k : Key) : Prop :=
  look C w.repo.log w.heap [k] [] (.mem j) ≠ .absent

/-- Everything that was found under any keys is found there with the same data. -/
def Held (C : Cfg) (w w' : World) : Prop :=
  ∀ j, j < w.next → ∀ ks t s d b, look C w.repo.log w.heap ks t (.mem j) = .found s d b →
    ∃ b', look C w'.repo.log w'.heap ks t (.mem j) = .found s d b' ∧ (b = false → b' = false)

/-- Nothing was lost, and only the keys in `P` are new. -/
structure Gained (C : Cfg) (P : ObjId → Key → Prop) (w w' : World) : Prop where
  grown : Grown w w'
  held : Held C w w'
  fresh : ∀ j, j < w.next → ∀ k, k ≠ .ft → Here C w' j k → Here C w j k ∨ P j k

theorem Held.trans {a b c : World} (hn : a.next ≤ b.next) (h : Held C a b) (h' : Held C b c) : Held C a c := by
  intro j hj ks t s d x hx
  obtain ⟨y, h1, h2⟩ := h j hj ks t s d x hx
  obtain ⟨z, h3, h4⟩ := h' j (Nat.lt_of_lt_of_le hj hn) ks t s d y h1
  exact ⟨z, h3, fun e => h4 (h2 e)⟩

theorem Gained.trans {P Q : ObjId → Key → Prop} {a b c : World} (h : Gained C P a b) (h' : Gained C Q b c)
    (hq : ∀ j, j < a.next → ∀ k, Q j k → P j k) : Gained C P a c := by
  refine ⟨h.grown.trans h'.grown, h.held.trans h.grown.next h'.held, fun j hj k hk hh => ?_⟩
  rcases h'.fresh j (Nat.lt_of_lt_of_le hj h.grown.next) k hk hh with h1 | h1
  · exact h.fresh j hj k hk h1
  · exact Or.inr (hq j hj k h1)

theorem Gained.mono {P Q : ObjId → Key → Prop} {a b : World} (h : Gained C P a b)
    (hq : ∀ j, j < a.next → ∀ k, P j k → Q j k) : Gained C Q a b :=
  ⟨h.grown, h.held, fun j hj k hk hh => (h.fresh j hj k hk hh).imp id (hq j hj k)⟩

theorem Held.of_same {w w' : World}
    (h : ∀ j, j < w.next → SameContent C w.repo.log w.heap (.mem j) w'.repo.log w'.heap (.mem j)) : Held C w w' :=
  fun j hj ks t s d b hx => ⟨b, by rw [← h j hj ks t]; exact hx, id⟩

theorem Loads.gained {w w' : World} (hl : Loads C w w') (P : ObjId → Key → Prop) : Gained C P w w' :=
  ⟨hl.grown, Held.of_same hl.content,
   fun j hj k _ hh => Or.inl (by unfold Here at hh ⊢; rw [hl.content j hj]; exact hh)⟩

theorem gained_create {w : World} (hs : Sound C w) {b : Body ObjId} (hf : Formed b)
    (hk : ∀ e ∈ b.kids, e.2.2 < w.next ∧ KidOk b.data.kind e.1 (w.heap e.2.2).kind) (P : ObjId → Key → Prop) :
    Sound C (MM.create (Obj.new b) w) ∧ Gained C P w (MM.create (Obj.new b) w) := by
  obtain ⟨h1, h2⟩ := hs.create hf hk
  have hc := fun j (hj : j < w.next) => content_create hs.fine (Obj.new b) hj
  exact ⟨h1, h2, Held.of_same hc, fun j hj k _ hh => Or.inl (by unfold Here at hh ⊢; rw [hc j hj]; exact hh)⟩

/-- Loaded objects may have got parts, the others are as they were. -/
theorem held_grown {w w' : World} (hf : Fine C w) (hg : Grown w w')
    (hun : ∀ j, j < w.next → (w.heap j).mapped = false → w'.heap j = w.heap j) : Held C w w' := by
  have hblank : ∀ j, j < w.next → (w.heap j).mapped = true → (w.heap j).body.blank = false →
      (w'.heap j).body.blank = false := by
    intro j hj hm hb
    unfold Body.blank at hb ⊢
    rw [hg.data j hj hm]
    cases hk : (w.heap j).body.data.kind.isMtree with
    | false => rfl
    | true =>
      rw [hk] at hb
      simp only [Bool.true_and] at hb ⊢
      cases hkids : (w.heap j).body.kids with
      | nil => rw [hkids] at hb; cases hb
      | cons e l =>
        have : dget (w.heap j).body.kids e.1 = some e.2 := by rw [hkids, dget_cons, if_pos rfl]
        have h2 := mem_of_dget (hg.kids j hj hm _ _ this)
        cases hkids' : (w'.heap j).body.kids with
        | nil => rw [hkids'] at h2; cases h2
        | cons e' l' => rfl
  have hbm : ∀ b : Body ObjId, (b.map Node.mem).blank = b.blank := by
    intro b
    unfold Body.blank
    rw [Body.map_kids, Body.map_data]
    cases b.kids <;> rfl
  have haway : ∀ j, j < w.next → (w.heap j).mapped = false →
      SameContent C w.repo.log w.heap (.mem j) w'.repo.log w'.heap (.mem j) := by
    intro j hj hm
    rw [hg.log]
    refine look_kept fun k hk => ?_
    rw [reach_unmapped hm hk]
    exact hun j hj hm
  intro j hj ks
  induction ks generalizing j with
  | nil =>
    intro t s d b hx
    by_cases hm : (w.heap j).mapped = true
    · rw [look_nil t (view_mapped hm)] at hx
      rw [look_nil t (view_mapped (hg.mapped j hj hm))]
      cases hx
      refine ⟨_, by rw [Body.map_data, Body.map_data, hg.data j hj hm], ?_⟩
      rw [hbm, hbm]
      exact hblank j hj hm
    · exact ⟨b, by rw [← haway j hj (by simpa using hm)]; exact hx, id⟩
  | cons k ks ih =>
    intro t s d b hx
    by_cases hm : (w.heap j).mapped = true
    · have hm' := hg.mapped j hj hm
      rw [look_cons (view_mapped hm), Body.dget_map] at hx
      rw [look_cons (view_mapped hm'), Body.dget_map]
      cases hd : dget (w.heap j).body.kids k with
      | none => rw [hd] at hx; cases hx
      | some y =>
        have hy : y.2 < w.next := hf.kids j hm y.2 (dget_sub hd)
        rw [hg.kids j hj hm k y hd]
        rw [hd] at hx
        simp only [Option.map_some] at hx ⊢
        obtain ⟨bv, hbv⟩ := view_ok_of_look (hf.all y.2 [] [])
        rw [hbv] at hx
        simp only at hx
        by_cases hft : k = .ft ∧ bv.blank = true
        · rw [if_pos hft] at hx; cases hx
        · rw [if_neg hft] at hx
          obtain ⟨b2, hb2, hb3⟩ := ih y.2 hy y.1 s d b hx
          obtain ⟨bv', hbv'⟩ := view_ok_of_look (C := C) (L := w'.repo.log) (h := w'.heap) (n := .mem y.2)
            (ks := ks) (t := y.1) (by rw [hb2]; simp)
          rw [hbv']
          simp only
          have hnb : ¬ (k = .ft ∧ bv'.blank = true) := by
            rintro ⟨h1, h2⟩
            apply hft
            refine ⟨h1, ?_⟩
            cases hbl : bv.blank with
            | true => rfl
            | false =>
              by_cases hmy : (w.heap y.2).mapped = true
              · rw [view_mapped hmy] at hbv
                rw [view_mapped (hg.mapped _ hy hmy)] at hbv'
                cases hbv; cases hbv'
                rw [hbm] at hbl h2
                rw [hblank _ hy hmy hbl] at h2
                cases h2
              · have := haway y.2 hy (by simpa using hmy) [] []
                rw [look_nil [] hbv, look_nil [] hbv'] at this
                injection this with _ _ this
                rw [← this, hbl] at h2
                cases h2
          rw [if_neg hnb]
          exact ⟨b2, hb2, hb3⟩
    · exact ⟨b, by rw [← haway j hj (by simpa using hm)]; exact hx, id⟩

/-- A loaded object got one more part. -/
theorem gained_extend {w : World} (hs : Sound C w) {i : ObjId} (hm : (w.heap i).mapped = true)
    {k : Key} {t : Str} {x : ObjId} {b : Body ObjId} (hdata : b.data = (w.heap i).body.data) (hform : Formed b)
    (hget : dget b.kids k = some (t, x))
    (hother : ∀ k', k' ≠ k → dget b.kids k' = dget (w.heap i).body.kids k')
    (hnone : dget (w.heap i).body.kids k = none) (hx : x < w.next) (hxi : ¬ Reach w.heap x i)
    (hkid : KidOk (w.heap i).kind k (w.heap x).kind) :
    Sound C (MM.edit i b w) ∧ Gained C (fun j k' => j = i ∧ k' = k) w (MM.edit i b w) := by
  obtain ⟨h1, h2⟩ := hs.extend hm hdata hform hget hother hnone hx hxi hkid
  refine ⟨h1, h2, held_grown hs.fine h2 ?_, ?_⟩
  · intro j _ hj
    exact edit_ne b w (by rintro rfl; rw [hm] at hj; cases hj)
  · intro j hj k' hk' hh
    by_cases hji : j = i
    · subst hji
      by_cases hkk : k' = k
      · exact Or.inr ⟨rfl, hkk⟩
      · left
        obtain ⟨y, hy⟩ := (look_entry h1.fine (by rw [edit_self]; exact hm) hk').mp hh
        rw [edit_self] at hy
        have := dget_of_mem hform.keys hy
        rw [hother k' hkk] at this
        exact look_of_dget hs.fine hm hk' this
    · left
      by_cases hmj : (w.heap j).mapped = true
      · obtain ⟨y, hy⟩ := (look_entry h1.fine (by rw [edit_ne b w hji]; exact hmj) hk').mp hh
        rw [edit_ne b w hji] at hy
        exact (look_entry hs.fine hmj hk').mpr ⟨y, hy⟩
      · have hmj : (w.heap j).mapped = false := by simpa using hmj
        have := content_edit (C := C) (w := w) (i := i) (b := b) (j := j)
          (by intro hr; exact hji (reach_unmapped hmj hr).symm) [k'] []
        unfold Here at hh ⊢
        rw [this]; exact hh

/-- An object was added to a tree. -/
theorem gained_added {leaf : Leaf} {i : ObjId} {q : List Str} {n : Str} {rest : List Str} {m child : ObjId} {w w' : World}
    (hs : Sound C w) (ha : AddedAt i q n rest m child w w') (hi : i < w.next) (hik : (w.heap i).kind = .mtree leaf)
    (hc : child < w.next) (hck : (w.heap child).kind = leaf.kind) (hcm : ¬ Reach w.heap child m) :
    Sound C w' ∧ Gained C (fun j _ => (w.heap j).kind.isMtree = true) w w' := by
  obtain ⟨h1, h2⟩ := hs.added ha hi hik hc hck hcm
  refine ⟨h1, h2, held_grown hs.fine h2 ?_, ?_⟩
  · intro j hj hmj
    exact ha.old j (by rintro rfl; rw [ha.mapped] at hmj; cases hmj) hj
  · intro j hj k hk hh
    by_cases hjm : j = m
    · subst hjm; exact Or.inr ha.tree
    · left
      have hold := ha.old j hjm hj
      by_cases hmj : (w.heap j).mapped = true
      · obtain ⟨y, hy⟩ := (look_entry h1.fine (by rw [hold]; exact hmj) hk).mp hh
        rw [hold] at hy
        exact (look_entry hs.fine hmj hk).mpr ⟨y, hy⟩
      · have hmj : (w.heap j).mapped = false := by simpa using hmj
        have : SameContent C w.repo.log w.heap (.mem j) w'.repo.log w'.heap (.mem j) := by
          rw [ha.log]
          refine look_kept fun k hk => ?_
          rw [reach_unmapped hmj hk]
          exact hold
        unfold Here at hh ⊢
        rw [this]; exact hh

/-! ### Where the elements are -/

/-- A version list is under a dataset id. -/
structure ListAt (w : World) (us : ObjId) (u : Uuid) (vl : ObjId) : Prop where
  lt : us < w.next
  mapped : (w.heap us).mapped = true
  part : ∃ t, dget (w.heap us).body.kids (.uuid u) = some (t, vl)

/-- An element is under a version and path. -/
structure VerAt (w : World) (i : ObjId) (v : Str) (p : PPath) (x : ObjId) : Prop where
  lt : i < w.next
  mapped : (w.heap i).mapped = true
  part : ∃ t, dget (w.heap i).body.kids (.ver v p) = some (t, x)

/-- A loaded root record is at a path of a dataset tree. -/
structure RecordAt (w : World) (dt : ObjId) (path : List Str) (m : ObjId) : Prop where
  lt : dt < w.next
  tree : (w.heap dt).kind.isMtree = true
  leads : Leads w.heap dt (names (path ++ [rootRecordName])) m
  there : m < w.next
  mapped : (w.heap m).mapped = true
  kind : (w.heap m).kind = .mrr

theorem ListAt.grown {w w' : World} {us vl : ObjId} {u : Uuid} (h : ListAt w us u vl) (hg : Grown w w') :
    ListAt w' us u vl :=
  ⟨Nat.lt_of_lt_of_le h.lt hg.next, hg.mapped _ h.lt h.mapped,
    h.part.imp fun _ ht => hg.kids _ h.lt h.mapped _ _ ht⟩

theorem VerAt.grown {w w' : World} {i x : ObjId} {v : Str} {p : PPath} (h : VerAt w i v p x) (hg : Grown w w') :
    VerAt w' i v p x :=
  ⟨Nat.lt_of_lt_of_le h.lt hg.next, hg.mapped _ h.lt h.mapped,
    h.part.imp fun _ ht => hg.kids _ h.lt h.mapped _ _ ht⟩

theorem RecordAt.grown {w w' : World} {dt m : ObjId} {path : List Str} (h : RecordAt w dt path m) (hf : Fine C w)
    (hg : Grown w w') : RecordAt w' dt path m :=
  ⟨Nat.lt_of_lt_of_le h.lt hg.next, by rw [hg.kind _ h.lt]; exact h.tree, hg.leads hf h.lt h.leads,
    Nat.lt_of_lt_of_le h.there hg.next, hg.mapped _ h.there h.mapped, (hg.kind _ h.there).trans h.kind⟩

theorem ListAt.vl_lt {w : World} (hs : Fine C w) {us vl : ObjId} {u : Uuid} (h : ListAt w us u vl) : vl < w.next :=
  h.part.elim fun _ ht => hs.kids us h.mapped vl (dget_sub ht)

theorem VerAt.el_lt {w : World} (hs : Fine C w) {i x : ObjId} {v : Str} {p : PPath} (h : VerAt w i v p x) :
    x < w.next :=
  h.part.elim fun _ ht => hs.kids i h.mapped x (dget_sub ht)

theorem ListAt.kind {w : World} (hs : Sound C w) {us vl : ObjId} {u : Uuid} (hk : (w.heap us).kind = .uuidset)
    (h : ListAt w us u vl) : (w.heap vl).kind = .vlist := by
  obtain ⟨t, ht⟩ := h.part
  have := hs.typed us h.mapped _ (mem_of_dget ht)
  rw [hk] at this
  exact this

theorem VerAt.treeKind {w : World} (hs : Sound C w) {i x : ObjId} {v : Str} {p : PPath}
    (hk : (w.heap i).kind = .tvl) (h : VerAt w i v p x) (hm : (w.heap x).kind.isMtree = true) :
    (w.heap x).kind = .mtree .mrr := by
  obtain ⟨t, ht⟩ := h.part
  have := hs.typed i h.mapped _ (mem_of_dget ht)
  rw [hk] at this
  rcases this with h1 | h1
  · exact h1
  · rw [h1] at hm; cases hm

/-! ### Each step -/

theorem formed_uset {b : Body ObjId} (hb : Formed b) (hk : b.data.kind = .uuidset) (u : Uuid) (x : ObjId) :
    Formed (⟨b.data, dset b.kids (.uuid u) ([], x)⟩ : Body ObjId) := by
  refine ⟨nodup_dset hb.keys _ _, fun e he => ?_, fun h e he => ?_⟩
  · rcases mem_dset he with rfl | he
    · show Key.fits b.data.kind _ = true
      rw [hk]; rfl
    · exact hb.fits e he
  · rcases mem_dset he with rfl | he
    · rfl
    · exact hb.stamps h e he

theorem uuidset_of_level {k : Kind} (h : Kind.uuidset.level ≤ k.level) : k = .uuidset := by
  cases k with
  | mtree l => cases l <;> simp [Kind.level] at h
  | uuidset => rfl
  | _ => simp [Kind.level] at h

theorem look_stamps {w : World} (hs : Fine C w) {i : ObjId} (k : Key) (ks : List Key) (t t' : Str) :
    look C w.repo.log w.heap (k :: ks) t (.mem i) = look C w.repo.log w.heap (k :: ks) t' (.mem i) := by
  obtain ⟨b, hb⟩ := view_ok_of_look (hs.all i [] [])
  rw [look_cons hb, look_cons hb]

theorem listFor_run {w : World} (hs : Sound C w) (auto : Option Bool) {us : ObjId} (hu : us < w.next)
    (hk : (w.heap us).kind = .uuidset) (u : Uuid) {r : Except PyErr (Option ObjId)} {w' : World}
    (h : listFor C auto us u w = (r, w')) :
    Sound C w' ∧ Gained C (fun j k => (j = us ∧ k = .uuid u) ∧ noCreate auto = false) w w' ∧ (noCreate auto = true → Loads C w w') ∧
      (∀ vl, r = .ok (some vl) → ListAt w' us u vl) ∧
      (r = .ok none → Loads C w w' ∧ noCreate auto = true ∧ ¬ Here C w us (.uuid u)) ∧
      (∀ e, r = .error e → e = .runtime ∧ Loads C w w') ∧
      (∀ j, j < w.next → (w.heap j).kind ≠ .uuidset →
        SameContent C w.repo.log w.heap (.mem j) w'.repo.log w'.heap (.mem j)) ∧
      (∀ vl, r = .ok (some vl) → ∀ k, k ≠ .ft →
        (Here C w' vl k ↔ look C w.repo.log w.heap [.uuid u, k] [] (.mem us) ≠ .absent)) ∧
      (∀ u' k, look C w'.repo.log w'.heap [.uuid u', k] [] (.mem us) ≠ .absent →
        look C w.repo.log w.heap [.uuid u', k] [] (.mem us) ≠ .absent) := by
  have hc := listFor_case hs.fine auto hu u
  rw [h] at hc
  cases hc with
  | failed _ hl =>
    exact ⟨hs.loads hl, hl.gained _, fun _ => hl, (fun vl e => by cases e), (fun e => by cases e),
      (fun e he => by cases he; exact ⟨rfl, hl⟩), fun j hj _ => hl.content j hj, (fun vl e => by cases e),
      fun u' k h => by rw [hl.content us hu]; exact h⟩
  | none _ hl hn ha =>
    exact ⟨hs.loads hl, hl.gained _, fun _ => hl, (fun vl e => by cases e), fun _ => ⟨hl, hn, fun hh => hh ha⟩,
      (fun e he => by cases he), fun j hj _ => hl.content j hj, (fun vl e => by cases e),
      fun u' k h => by rw [hl.content us hu]; exact h⟩
  | found _ t vl hl hm hd =>
    exact ⟨hs.loads hl, hl.gained _, fun _ => hl,
      (fun vl e => by cases e; exact ⟨Nat.lt_of_lt_of_le hu hl.next, hm, t, hd⟩), (fun e => by cases e),
      (fun e he => by cases he), fun j hj _ => hl.content j hj, (fun vl e k hk => by
        cases e
        unfold Here
        rw [hl.content us hu, look_part hm hd (by simp)]
        rw [look_stamps hl.fine k [] [] t]), fun u' k h => by rw [hl.content us hu]; exact h⟩
  | made w1 hl hm hn ha hd =>
    have hs1 := hs.loads hl
    have hu1 : us < w1.next := Nat.lt_of_lt_of_le hu hl.next
    obtain ⟨hs2, hg2⟩ := gained_create hs1 (formed_empty .vlist) (fun e he => by cases he)
      (fun j k => (j = us ∧ k = .uuid u) ∧ noCreate auto = false)
    have hne : us ≠ w1.next := by oomega
    have h5 : (MM.create (Obj.new (Body.empty .vlist)) w1).heap us = w1.heap us := create_ne _ _ hne
    have hk1 : (w1.heap us).kind = .uuidset := (hl.kind us hu).trans hk
    obtain ⟨hs3, hg3⟩ := gained_extend (i := us) (k := .uuid u) (t := []) (x := w1.next)
      (b := ⟨(w1.heap us).body.data, dset (w1.heap us).body.kids (.uuid u) ([], w1.next)⟩) hs2
      (by rw [h5]; exact hm) (by rw [h5]) (formed_uset (hs1.fine.formed us hm) hk1 u _) (by simp)
      (fun k' hk' => by rw [h5]; exact dget_dset_ne _ _ fun e => hk' e.symm) (by rw [h5]; exact hd)
      (Nat.lt_succ_self _) (fun hr => by
        have := hs2.typed.level hr
        rw [h5, hk1, create_self] at this
        exact absurd this (by decide)) (by rw [h5, hk1, create_self]; rfl)
    have hat : ListAt (MM.edit us ⟨(w1.heap us).body.data, dset (w1.heap us).body.kids (.uuid u) ([], w1.next)⟩
        (MM.create (Obj.new (Body.empty .vlist)) w1)) us u w1.next :=
      ⟨Nat.lt_succ_of_lt hu1, by rw [edit_self, h5]; exact hm, [], by rw [edit_self]; simp⟩
    have hsame : ∀ j, j < w.next → (w.heap j).kind ≠ .uuidset → SameContent C w.repo.log w.heap (.mem j) w1.repo.log
        (MM.edit us ⟨(w1.heap us).body.data, dset (w1.heap us).body.kids (.uuid u) ([], w1.next)⟩
          (MM.create (Obj.new (Body.empty .vlist)) w1)).heap (.mem j) := by
      intro j hj hjk ks t
      have hj1 := Nat.lt_of_lt_of_le hj hl.next
      rw [hl.content j hj, content_create hs1.fine (Obj.new (Body.empty .vlist)) hj1]
      refine look_edit (C := C) (fun hr => ?_) ks t
      have hr := hs3.typed.level hr
      rw [hg3.grown.kind us (Nat.lt_succ_of_lt hu1), hg3.grown.kind j (Nat.lt_succ_of_lt hj1), h5, hk1,
        create_ne _ _ (show j ≠ w1.next by oomega), hl.kind j hj] at hr
      exact hjk (uuidset_of_level hr)
    have hthere : ∀ vl, (Except.ok (some w1.next) : Except PyErr (Option ObjId)) = .ok (some vl) → ∀ k, k ≠ .ft →
        (Here C (MM.edit us ⟨(w1.heap us).body.data, dset (w1.heap us).body.kids (.uuid u) ([], w1.next)⟩
          (MM.create (Obj.new (Body.empty .vlist)) w1)) vl k ↔
          look C w.repo.log w.heap [.uuid u, k] [] (.mem us) ≠ .absent) := by
      intro vl e k _
      cases e
      have h1 : look C w.repo.log w.heap [.uuid u, k] [] (.mem us) = .absent := by
        rw [hl.content us hu]
        exact look_cons_none (view_mapped hm) (by rw [Body.dget_map, hd]; rfl)
      have h2 : (MM.edit us ⟨(w1.heap us).body.data, dset (w1.heap us).body.kids (.uuid u) ([], w1.next)⟩
          (MM.create (Obj.new (Body.empty .vlist)) w1)).heap w1.next = Obj.new (Body.empty .vlist) := by
        rw [edit_ne _ _ hne.symm, create_self]
      rw [h1]
      refine ⟨fun h => absurd ?_ h, fun h => absurd rfl h⟩
      refine look_cons_none (view_mapped (by rw [h2]; rfl)) ?_
      rw [h2]
      rfl
    have htwo : ∀ u' k, look C w1.repo.log (MM.edit us ⟨(w1.heap us).body.data,
          dset (w1.heap us).body.kids (.uuid u) ([], w1.next)⟩ (MM.create (Obj.new (Body.empty .vlist)) w1)).heap
          [.uuid u', k] [] (.mem us) ≠ .absent →
        look C w.repo.log w.heap [.uuid u', k] [] (.mem us) ≠ .absent := by
      intro u' k h
      have hm3 : ((MM.edit us ⟨(w1.heap us).body.data, dset (w1.heap us).body.kids (.uuid u) ([], w1.next)⟩
        (MM.create (Obj.new (Body.empty .vlist)) w1)).heap us).mapped = true := by rw [edit_self, h5]; exact hm
      by_cases huu : u' = u
      · subst huu
        exfalso
        obtain ⟨t, ht⟩ := hat.part
        rw [look_part hm3 ht (by simp)] at h
        have h2 : (MM.edit us ⟨(w1.heap us).body.data, dset (w1.heap us).body.kids (.uuid u') ([], w1.next)⟩
            (MM.create (Obj.new (Body.empty .vlist)) w1)).heap w1.next = Obj.new (Body.empty .vlist) := by
          rw [edit_ne _ _ hne.symm, create_self]
        refine h (look_cons_none (view_mapped (by rw [h2]; rfl)) ?_)
        rw [h2]
        rfl
      · rw [hl.content us hu]
        have hkid : dget ((MM.edit us ⟨(w1.heap us).body.data, dset (w1.heap us).body.kids (.uuid u) ([], w1.next)⟩
            (MM.create (Obj.new (Body.empty .vlist)) w1)).heap us).body.kids (.uuid u') =
            dget (w1.heap us).body.kids (.uuid u') := by
          rw [edit_self]
          exact dget_dset_ne _ _ fun e => huu (by injection e with e; exact e.symm)
        cases hd2 : dget (w1.heap us).body.kids (.uuid u') with
        | none =>
          exact absurd (look_cons_none (view_mapped hm3) (by rw [Body.dget_map, hkid, hd2]; rfl)) h
        | some y =>
          rw [hd2] at hkid
          rw [look_part hm3 hkid (by simp)] at h
          rw [look_part hm hd2 (by simp)]
          have hy : y.2 < w1.next := hs1.fine.kids us hm y.2 (dget_sub hd2)
          rw [content_create hs1.fine (Obj.new (Body.empty .vlist)) hy]
          have hr : ¬ Reach (MM.create (Obj.new (Body.empty .vlist)) w1).heap y.2 us :=
            hs2.fine.irrefl (by rw [h5]; exact hm) (by rw [h5]; exact dget_sub hd2)
          rw [content_edit hr]
          exact h
    refine ⟨hs3, ((hl.gained _).trans hg2 (fun _ _ _ h => h)).trans hg3 (fun _ _ _ h => ⟨h, hn⟩),
      (fun hn' => by rw [hn] at hn'; cases hn'), ?_, (fun e => by cases e), (fun e he => by cases he), hsame, hthere, htwo⟩
    intro vl e
    cases e
    exact hat

theorem treeFor_run {w : World} (hs : Sound C w) (auto : Option Bool) (now : Str) {tvl : ObjId} (hu : tvl < w.next)
    (hk : (w.heap tvl).kind = .tvl) (v : Str) (p : PPath) {r : Except PyErr (Option ObjId)} {w' : World}
    (h : treeFor C auto now tvl v p w = (r, w')) :
    Sound C w' ∧ Gained C (fun j k => (j = tvl ∧ k = .ver v p) ∧ noCreate auto = false) w w' ∧ (noCreate auto = true → Loads C w w') ∧
      (∀ dt, r = .ok (some dt) → VerAt w' tvl v p dt) ∧
      (r = .ok none → Loads C w w' ∧ noCreate auto = true ∧ ¬ Here C w tvl (.ver v p)) ∧
      (∀ e, r = .error e → e = .runtime ∧ Loads C w w') ∧
      (∀ dt, r = .ok (some dt) → ∀ k ks, look C w.repo.log w.heap (.ver v p :: k :: ks) [] (.mem tvl) = .absent →
        look C w'.repo.log w'.heap (k :: ks) [] (.mem dt) = .absent) := by
  have hc := treeFor_case hs.fine auto now hu v p
  rw [h] at hc
  cases hc with
  | failed _ hl =>
    exact ⟨hs.loads hl, hl.gained _, fun _ => hl, (fun vl e => by cases e), (fun e => by cases e),
      (fun e he => by cases he; exact ⟨rfl, hl⟩), (fun vl e => by cases e)⟩
  | none _ hl hn ha =>
    exact ⟨hs.loads hl, hl.gained _, fun _ => hl, (fun vl e => by cases e), fun _ => ⟨hl, hn, fun hh => hh ha⟩,
      (fun e he => by cases he), (fun vl e => by cases e)⟩
  | found _ t vl hl hm hd =>
    exact ⟨hs.loads hl, hl.gained _, fun _ => hl,
      (fun vl e => by cases e; exact ⟨Nat.lt_of_lt_of_le hu hl.next, hm, t, hd⟩), (fun e => by cases e),
      (fun e he => by cases he), (fun vl e k ks h => by
        cases e
        rw [hl.content tvl hu, look_part hm hd (by simp)] at h
        rw [look_stamps hl.fine k ks [] t]; exact h)⟩
  | made w1 hl hm hn ha hd =>
    have hs1 := hs.loads hl
    have hu1 : tvl < w1.next := Nat.lt_of_lt_of_le hu hl.next
    obtain ⟨hs2, hg2⟩ := gained_create hs1 (formed_empty (.mtree .mrr)) (fun e he => by cases he)
      (fun j k => (j = tvl ∧ k = .ver v p) ∧ noCreate auto = false)
    have hne : tvl ≠ w1.next := by oomega
    have h5 : (MM.create (Obj.new (Body.empty (.mtree .mrr))) w1).heap tvl = w1.heap tvl := create_ne _ _ hne
    have hk1 : (w1.heap tvl).kind = .tvl := (hl.kind tvl hu).trans hk
    have hkeys := (hs1.fine.formed tvl hm).keys
    obtain ⟨hs3, hg3⟩ := gained_extend (i := tvl) (k := .ver v p) (t := now) (x := w1.next)
      (b := ⟨(w1.heap tvl).body.data, vset (w1.heap tvl).body.kids v p (now, w1.next)⟩) hs2
      (by rw [h5]; exact hm) (by rw [h5]) (formed_vset (hs1.fine.formed tvl hm) (Or.inr hk1) v p _)
      (by show dget (vset _ _ _ _) _ = _; rw [dget_vset hkeys, if_pos rfl])
      (fun k' hk' => by
        rw [h5]; show dget (vset _ _ _ _) _ = _; rw [dget_vset hkeys, if_neg fun e => hk' e.symm])
      (by rw [h5]; exact hd)
      (Nat.lt_succ_self _) (fun hr => by
        have := hs2.typed.level hr
        rw [h5, hk1, create_self] at this
        exact absurd this (by decide)) (by rw [h5, hk1, create_self]; exact Or.inl rfl)
    have hat : VerAt (MM.edit tvl ⟨(w1.heap tvl).body.data, vset (w1.heap tvl).body.kids v p (now, w1.next)⟩
        (MM.create (Obj.new (Body.empty (.mtree .mrr))) w1)) tvl v p w1.next :=
      ⟨Nat.lt_succ_of_lt hu1, by rw [edit_self, h5]; exact hm, now,
        by rw [edit_self]; show dget (vset _ _ _ _) _ = _; rw [dget_vset hkeys, if_pos rfl]⟩
    have hnone : ∀ dt, (Except.ok (some w1.next) : Except PyErr (Option ObjId)) = .ok (some dt) → ∀ k ks,
        look C w.repo.log w.heap (.ver v p :: k :: ks) [] (.mem tvl) = .absent →
        look C w1.repo.log (MM.edit tvl ⟨(w1.heap tvl).body.data, vset (w1.heap tvl).body.kids v p (now, w1.next)⟩
          (MM.create (Obj.new (Body.empty (.mtree .mrr))) w1)).heap (k :: ks) [] (.mem dt) = .absent := by
      intro dt e k ks _
      cases e
      have h2 : (MM.edit tvl ⟨(w1.heap tvl).body.data, vset (w1.heap tvl).body.kids v p (now, w1.next)⟩
          (MM.create (Obj.new (Body.empty (.mtree .mrr))) w1)).heap w1.next = Obj.new (Body.empty (.mtree .mrr)) := by
        rw [edit_ne _ _ hne.symm, create_self]
      refine look_cons_none (view_mapped (by rw [h2]; rfl)) ?_
      rw [h2]
      rfl
    refine ⟨hs3, ((hl.gained _).trans hg2 (fun _ _ _ h => h)).trans hg3 (fun _ _ _ h => ⟨h, hn⟩),
      (fun hn' => by rw [hn] at hn'; cases hn'), ?_, (fun e => by cases e), (fun e he => by cases he), hnone⟩
    intro vl e
    cases e
    exact hat

theorem entryFor_run {w : World} (hs : Sound C w) {vl : ObjId} (hu : vl < w.next)
    (hk : (w.heap vl).kind = .vlist) (v now : Str) (p : PPath) {x : ObjId} (hx : x < w.next)
    (hxk : (w.heap x).kind = .mrr) {r : Except PyErr Unit} {w' : World}
    (h : entryFor C vl v now p x w = (r, w')) :
    Sound C w' ∧ Gained C (fun j k => j = vl ∧ k = .ver v p) w w' ∧
      (Here C w vl (.ver v p) → Loads C w w') ∧
      (r = .ok () → ∃ y, VerAt w' vl v p y) ∧
      (¬ Here C w vl (.ver v p) → r = .ok () → VerAt w' vl v p x) ∧
      (∀ e, r = .error e → e = .runtime ∧ Loads C w w') ∧
      (∀ j, j < w.next → ¬ Reach w'.heap j vl →
        SameContent C w.repo.log w.heap (.mem j) w'.repo.log w'.heap (.mem j)) := by
  have hc := entryFor_case hs.fine hu v now p x
  rw [h] at hc
  cases hc with
  | failed _ hl =>
    exact ⟨hs.loads hl, hl.gained _, fun _ => hl, (fun e => by cases e), (fun _ e => by cases e),
      (fun e he => by cases he; exact ⟨rfl, hl⟩), fun j hj _ => hl.content j hj⟩
  | known _ y hl hm hd =>
    have hat : VerAt w' vl v p y.2 := ⟨Nat.lt_of_lt_of_le hu hl.next, hm, y.1, hd⟩
    refine ⟨hs.loads hl, hl.gained _, fun _ => hl, fun _ => ⟨y.2, hat⟩, (fun hn => ?_),
      (fun e he => by cases he), fun j hj _ => hl.content j hj⟩
    refine absurd ?_ hn
    unfold Here
    rw [hl.content vl hu]
    exact look_of_dget hl.fine hm (by simp) hd
  | entered w1 hl hm ha hd =>
    have hs1 := hs.loads hl
    have hu1 : vl < w1.next := Nat.lt_of_lt_of_le hu hl.next
    have hk1 : (w1.heap vl).kind = .vlist := (hl.kind vl hu).trans hk
    have hx1 : (w1.heap x).kind = .mrr := (hl.kind x hx).trans hxk
    have hkeys := (hs1.fine.formed vl hm).keys
    have hget : dget (vset (w1.heap vl).body.kids v p (now, x)) (.ver v p) = some (now, x) := by
      rw [dget_vset hkeys, if_pos rfl]
    obtain ⟨hs3, hg3⟩ := gained_extend (i := vl) (k := .ver v p) (t := now) (x := x)
      (b := ⟨(w1.heap vl).body.data, vset (w1.heap vl).body.kids v p (now, x)⟩) hs1 hm rfl
      (formed_vset (hs1.fine.formed vl hm) (Or.inl hk1) v p _) hget
      (fun k' hk' => by show dget (vset _ _ _ _) _ = _; rw [dget_vset hkeys, if_neg fun e => hk' e.symm]) hd
      (Nat.lt_of_lt_of_le hx hl.next) (fun hr => by
        have := hs1.typed.level hr
        rw [hk1, hx1] at this
        exact absurd this (by decide)) (by rw [hk1, hx1]; exact Or.inr rfl)
    have hat : VerAt (MM.edit vl ⟨(w1.heap vl).body.data, vset (w1.heap vl).body.kids v p (now, x)⟩ w1) vl v p x :=
      ⟨hu1, by rw [edit_self]; exact hm, now, by rw [edit_self]; exact hget⟩
    refine ⟨hs3, (hl.gained _).trans hg3 (fun _ _ _ h => h), (fun hh => absurd ha hh), fun _ => ⟨x, hat⟩, fun _ _ => hat,
      (fun e he => by cases he), fun j hj hr ks t => ?_⟩
    exact (hl.content j hj ks t).trans (look_edit hr ks t)

theorem madeRecord_gained {w : World} (hs : Sound C w) (id : Uuid) (v : Str) (P : ObjId → Key → Prop) :
    Sound C (madeRecord id v w) ∧ Gained C P w (madeRecord id v w) := by
  obtain ⟨s1, g1⟩ := gained_create hs (formed_empty .metadata) (fun e he => by cases he) P
  obtain ⟨s2, g2⟩ := gained_create s1 (formed_empty (.mtree .metadata)) (fun e he => by cases he) P
  obtain ⟨s3, g3⟩ := gained_create s2 (formed_record id v w.next (w.next + 1)) (fun e he => by
    rcases List.mem_cons.mp he with h | he
    · subst h
      refine ⟨?_, ?_⟩
      · show w.next < w.next + 1 + 1
        oomega
      · show KidOk .mrr .dlm _
        rw [create_ne _ _ (by show w.next ≠ w.next + 1; oomega), create_self]
        rfl
    · rw [List.mem_singleton.mp he]
      refine ⟨?_, ?_⟩
      · show w.next + 1 < w.next + 1 + 1
        oomega
      · show KidOk .mrr .ft ((MM.create _ (MM.create (Obj.new (Body.empty .metadata)) w)).heap
          (MM.create (Obj.new (Body.empty .metadata)) w).next).kind
        rw [create_self]
        rfl) P
  exact ⟨s3, (g1.trans g2 fun _ _ _ h => h).trans g3 fun _ _ _ h => h⟩

/-- A record with empty dataset-level metadata and without metadata of files -/
def FreshRecord (C : Cfg) (w : World) (m : ObjId) : Prop :=
  look C w.repo.log w.heap [.dlm] [] (.mem m) = .found [] (.metadata []) false ∧
    ∀ ks, look C w.repo.log w.heap (.ft :: ks) [] (.mem m) = .absent

theorem FreshRecord.same {w w' : World} {m : ObjId} (h : FreshRecord C w m)
    (hc : SameContent C w.repo.log w.heap (.mem m) w'.repo.log w'.heap (.mem m)) : FreshRecord C w' m :=
  ⟨(hc _ _).symm.trans h.1, fun ks => (hc _ _).symm.trans (h.2 ks)⟩

theorem freshRecord_made {w : World} (hs : Fine C w) (id : Uuid) (v : Str) :
    FreshRecord C (madeRecord id v w) (w.next + 2) := by
  obtain ⟨_, _, _, _, h1, h2, h3⟩ := madeRecord_spec hs id v
  have hm : ((madeRecord id v w).heap (w.next + 2)).mapped = true := by rw [h3]; rfl
  constructor
  · rw [look_cons_some (view_mapped hm) (by rw [Body.dget_map, h3]; rfl) (by decide),
      look_nil [] (view_mapped (by rw [h1]; rfl)), h1]
    rfl
  · intro ks
    rw [look_cons (view_mapped hm), Body.dget_map, h3]
    show (match view C _ (madeRecord id v w).heap (.mem (w.next + 1)) with
      | .ok b' => if Key.ft = Key.ft ∧ b'.blank = true then Res.absent
        else look C _ (madeRecord id v w).heap ks [] (.mem (w.next + 1))
      | .error _ => Res.missing) = Res.absent
    rw [view_mapped (by rw [h2]; rfl), h2]
    rfl

theorem recordFor_run {w : World} (hs : Sound C w) (auto : Option Bool) {dt : ObjId} (hd : dt < w.next)
    (hk : (w.heap dt).kind.isMtree = true → (w.heap dt).kind = .mtree .mrr)
    {path : List Str} (hp : ∀ n ∈ path, CompOk n) (id : Uuid) (v : Str)
    {r : Except PyErr (Option ObjId)} {w' : World} (h : recordFor C auto dt path id v w = (r, w')) :
    Sound C w' ∧ Gained C (fun j _ => (w.heap j).kind.isMtree = true ∧ noCreate auto = false) w w' ∧
      (noCreate auto = true → Loads C w w') ∧
      (∀ m, r = .ok (some m) → RecordAt w' dt path m) ∧
      (r = .ok none → Loads C w w' ∧ noCreate auto = true ∧
        look C w.repo.log w.heap (names (path ++ [rootRecordName])) [] (.mem dt) = .absent) ∧
      (look C w.repo.log w.heap (names (path ++ [rootRecordName])) [] (.mem dt) = .absent →
        ∀ m, r = .ok (some m) → (w'.heap m).body.data = .mrr (some id) (some v) ∧ w.next ≤ m ∧
          FreshRecord C w' m) ∧
      (∀ e, noCreate auto = true → r = .error e →
        e = .runtime ∨ (e = .type ∧ (w.heap dt).kind.isMtree = false) ∨
        (e = .assertion ∧ look C w.repo.log w.heap (names (path ++ [rootRecordName])) [] (.mem dt) ≠ .absent)) ∧
      (path = [] → ∀ n1 n2 ns, look C w.repo.log w.heap (names (n1 :: n2 :: ns)) [] (.mem dt) = .absent →
        look C w'.repo.log w'.heap (names (n1 :: n2 :: ns)) [] (.mem dt) = .absent) := by
  have hc := recordFor_case hs.fine auto hd hp id v
  rw [h] at hc
  cases hc with
  | failed _ e hl he =>
    exact ⟨hs.loads hl, hl.gained _, fun _ => hl, (fun vl e => by cases e), (fun e => by cases e),
      (fun _ m e => by cases e), (fun e' _ h => by cases h; exact he),
      fun _ n1 n2 ns h => by rw [← hl.content dt hd]; exact h⟩
  | none _ hl hn _ ha =>
    refine ⟨hs.loads hl, hl.gained _, fun _ => hl, (fun vl e => by cases e), fun _ => ⟨hl, hn, ?_⟩,
      (fun _ m e => by cases e), (fun e' _ h => by cases h),
      fun _ n1 n2 ns h => by rw [← hl.content dt hd]; exact h⟩
    have := ha []
    rwa [List.append_nil] at this
  | found _ m hl hkd hlead hm hmk =>
    have hd' := Nat.lt_of_lt_of_le hd hl.next
    have hmn : m < w'.next := Reach.lt hl.fine.kids hd' hlead.reach
    refine ⟨hs.loads hl, hl.gained _, fun _ => hl,
      (fun m' e => by cases e; exact ⟨hd', by rw [hl.kind dt hd]; exact hkd, hlead, hmn, hm, hmk⟩),
      (fun e => by cases e), (fun ha m' e => ?_), (fun e' _ h => by cases h),
      fun _ n1 n2 ns h => by rw [← hl.content dt hd]; exact h⟩
    exfalso
    rw [hl.content dt hd] at ha
    have h1 := hlead.look (C := C) (L := w'.repo.log) hl.fine.plain []
    rw [List.append_nil, ha] at h1
    obtain ⟨b, hb⟩ := view_ok_of_look (hl.fine.all m [] [])
    rw [look_nil _ hb] at h1
    cases h1
  | made w0 w1 _ q n rest node hl hn hkd ha hpath hl1 had =>
    have hs0 := hs.loads hl
    have hd0 := Nat.lt_of_lt_of_le hd hl.next
    obtain ⟨hs2, hg2⟩ := madeRecord_gained hs0 id v (fun j _ => (w.heap j).kind.isMtree = true ∧ noCreate auto = false)
    obtain ⟨_, hn3, _, hold, _, _, hrec⟩ := madeRecord_spec hs0.fine id v
    have hs1 := hs2.loads hl1
    have hd3 : dt < (madeRecord id v w0).next := Nat.lt_of_lt_of_le hd0 (by rw [hn3]; exact Nat.le_add_right _ _)
    have hd1 : dt < w1.next := Nat.lt_of_lt_of_le hd3 hl1.next
    have hx3 : w0.next + 2 < (madeRecord id v w0).next := by rw [hn3]; exact Nat.lt_succ_self _
    have hx1 := Nat.lt_of_lt_of_le hx3 hl1.next
    have hdk : (w1.heap dt).kind = .mtree .mrr := by
      rw [hl1.kind dt hd3, hold dt hd0, hl.kind dt hd]; exact hk hkd
    have hxo : w1.heap (w0.next + 2) = _ := (hl1.loaded _ hx3 (by rw [hrec]; rfl)).trans hrec
    have hxk : (w1.heap (w0.next + 2)).kind = .mrr := by rw [hxo]; rfl
    have hnr : ¬ Reach w1.heap (w0.next + 2) node := by
      intro hr
      have h1 := hs1.typed.level hr
      rw [hxk] at h1
      have h2 := had.tree
      have h3 := hs1.typed.level had.lead.reach
      have : (w1.heap node).kind = .mtree .mrr := by
        cases hnk : (w1.heap node).kind with
        | mtree leaf =>
          cases leaf with
          | mrr => rfl
          | text =>
            exfalso
            have key : ∀ (q : List Str) (a : ObjId), (w1.heap a).kind = .mtree .mrr ∨ (w1.heap a).kind = .mrr →
                Leads w1.heap a (names q) node → (w1.heap node).kind ≠ .mtree .text := by
              intro q
              induction q with
              | nil => intro a h hl; cases hl; rcases h with h | h <;> rw [h] <;> simp
              | cons x q ih =>
                intro a h hl
                cases hl with
                | cons t c hma hdd hl =>
                  have := hs1.typed a hma _ (mem_of_dget hdd)
                  rcases h with h | h
                  · rw [h] at this; exact ih c this hl
                  · rw [h] at this; exact absurd this fun h => h
            exact key q dt (Or.inl hdk) had.lead hnk
          | metadata =>
            exfalso
            have key : ∀ (q : List Str) (a : ObjId), (w1.heap a).kind = .mtree .mrr ∨ (w1.heap a).kind = .mrr →
                Leads w1.heap a (names q) node → (w1.heap node).kind ≠ .mtree .metadata := by
              intro q
              induction q with
              | nil => intro a h hl; cases hl; rcases h with h | h <;> rw [h] <;> simp
              | cons x q ih =>
                intro a h hl
                cases hl with
                | cons t c hma hdd hl =>
                  have := hs1.typed a hma _ (mem_of_dget hdd)
                  rcases h with h | h
                  · rw [h] at this; exact ih c this hl
                  · rw [h] at this; exact absurd this fun h => h
            exact key q dt (Or.inl hdk) had.lead hnk
        | _ => rw [hnk] at h2; cases h2
      rw [this] at h1
      exact absurd h1 (by decide)
    obtain ⟨hs4, hg4⟩ := gained_added hs1 had hd1 hdk hx1 hxk hnr
    have hgrow := hl1.grown.trans hg4.grown
    refine ⟨hs4, (((hl.gained _).trans hg2 fun _ _ _ h => h).trans (hl1.gained _) fun _ _ _ h => h).trans hg4 ?_,
      (fun hn' => by rw [hn] at hn'; cases hn'), ?_, (fun e => by cases e), ?_, (fun e hn' _ => by rw [hn] at hn'; cases hn'), ?_⟩
    · intro j hj k hh
      have hj0 := Nat.lt_of_lt_of_le hj hl.next
      have hj3 : j < (madeRecord id v w0).next := Nat.lt_of_lt_of_le hj0 (by rw [hn3]; exact Nat.le_add_right _ _)
      rw [hl1.kind j hj3, hold j hj0, hl.kind j hj] at hh
      exact ⟨hh, hn⟩
    · intro m e
      cases e
      refine ⟨Nat.lt_of_lt_of_le hd1 hg4.grown.next, ?_, ?_, Nat.lt_of_lt_of_le hx1 hg4.grown.next, ?_, ?_⟩
      · rw [hg4.grown.kind dt hd1, hdk]; rfl
      · rw [hpath]; exact had.leads_added hs1.fine hd1
      · exact hg4.grown.mapped _ hx1 (by rw [hxo]; rfl)
      · rw [hg4.grown.kind _ hx1]; exact hxk
    · intro _ m e
      cases e
      refine ⟨?_, Nat.le_trans hl.next (Nat.le_add_right _ _), ?_⟩
      · rw [hg4.grown.data _ hx1 (by rw [hxo]; rfl), hxo]
        rfl
      · exact ((freshRecord_made hs0.fine id v).same (hl1.content _ hx3)).same (had.content hs1.fine hx1 hnr)
    · rintro rfl n1 n2 ns habs
      have hq : q = [] ∧ n = rootRecordName ∧ rest = [] := by
        cases q with
        | nil => cases rest with
          | nil => simp only [List.nil_append] at hpath; cases hpath; exact ⟨rfl, rfl, rfl⟩
          | cons _ _ => simp at hpath
        | cons _ _ => simp at hpath
      obtain ⟨rfl, rfl, rfl⟩ := hq
      have hnode : node = dt := by have := had.lead; cases this; rfl
      subst hnode
      have habs1 : look C w1.repo.log w1.heap (names (n1 :: n2 :: ns)) [] (.mem node) = .absent := by
        rw [← hl1.content node hd3]
        have hc3 : SameContent C w0.repo.log w0.heap (.mem node) (madeRecord id v w0).repo.log
            (madeRecord id v w0).heap (.mem node) := by
          refine look_kept fun j hj => hold j (Reach.lt hs0.fine.kids hd0 hj)
        rw [← hc3, ← hl.content node hd]
        exact habs
      have hm4 := hg4.grown.mapped node hd1 had.mapped
      show look C _ _ (.name n1 :: names (n2 :: ns)) [] _ = _
      by_cases hn1 : n1 = rootRecordName
      · subst hn1
        have hkid := had.kid
        rw [look_part hm4 hkid (by simp)]
        show look C _ _ (.name n2 :: names ns) [] (.mem (w0.next + 2)) = _
        have hxn : w0.next + 2 ≠ node := by
          intro e
          rw [e, hdk] at hxk
          cases hxk
        have hxo' : w'.heap (w0.next + 2) = _ := (had.old _ hxn hx1).trans hxo
        refine look_cons_none (view_mapped (by rw [hxo']; rfl)) ?_
        rw [hxo']
        rfl
      · have hk4 := had.kid_ne (k := .name n1) (by intro e; injection e with e; exact hn1 e)
        rw [look_key_same (L := w1.repo.log) had.mapped hm4 hk4]
        · exact habs1
        · intro t0 c hc
          have hcl := hs1.fine.kids node had.mapped c (dget_sub hc)
          exact ⟨had.content hs1.fine hcl (hs1.fine.irrefl had.mapped (dget_sub hc)), hs1.fine.all c⟩
  | refused w0 _ e hl hn hkd ha hl1 =>
    have hs0 := hs.loads hl
    obtain ⟨hs2, hg2⟩ := madeRecord_gained hs0 id v (fun j _ => (w.heap j).kind.isMtree = true ∧ noCreate auto = false)
    exact ⟨hs2.loads hl1, ((hl.gained _).trans hg2 fun _ _ _ h => h).trans (hl1.gained _) fun _ _ _ h => h,
      (fun hn' => by rw [hn] at hn'; cases hn'), (fun vl e => by cases e), (fun e => by cases e),
      (fun _ m e => by cases e), (fun e hn' _ => by rw [hn] at hn'; cases hn'), fun _ n1 n2 ns h => by
        obtain ⟨_, hn3, _, hold, _⟩ := madeRecord_spec hs0.fine id v
        have hd0 := Nat.lt_of_lt_of_le hd hl.next
        have hd3 : dt < (madeRecord id v w0).next := Nat.lt_of_lt_of_le hd0 (by rw [hn3]; exact Nat.le_add_right _ _)
        have hc3 : SameContent C w0.repo.log w0.heap (.mem dt) (madeRecord id v w0).repo.log
            (madeRecord id v w0).heap (.mem dt) := by
          refine look_kept fun j hj => hold j (Reach.lt hs0.fine.kids hd0 hj)
        rw [← hl1.content dt hd3, ← hc3, ← hl.content dt hd]
        exact h⟩

/-! ### The whole -/

/-- The keys that are new after a call for a root dataset or for the root of a sub-dataset -/
def NewKeys (auto : Option Bool) (w : World) (tvl us : ObjId) (u : Uuid) (v : Str) (p p' : PPath) (j : ObjId)
    (k : Key) : Prop :=
  ((j = tvl ∧ k = .ver v p) ∧ noCreate auto = false) ∨ ((j = us ∧ k = .uuid u) ∧ noCreate auto = false) ∨
    ((w.heap j).kind = .vlist ∧ k = .ver v p') ∨ ((w.heap j).kind.isMtree = true ∧ noCreate auto = false)

theorem not_reach_list {w : World} (hs : Sound C w) {j vl : ObjId} (h1 : (w.heap j).kind ≠ .vlist)
    (h2 : (w.heap j).kind ≠ .uuidset) (hk : (w.heap vl).kind = .vlist) : ¬ Reach w.heap j vl := by
  intro hr
  have h3 := hs.typed.level hr
  rw [hk] at h3
  cases hj : (w.heap j).kind with
  | vlist => exact h1 hj
  | uuidset => exact h2 hj
  | tvl =>
    rcases hs.typed.below (Or.inr hj) hr with h | h
    · subst h; rw [hk] at hj; cases hj
    · rw [hk] at h; exact absurd h (by decide)
  | mtree l => rw [hj] at h3; cases l <;> exact absurd h3 (by decide)
  | _ => rw [hj] at h3; exact absurd h3 (by decide)

/-- What is known after a part of the call -/
structure Part (C : Cfg) (auto : Option Bool) (w w' : World) (N : ObjId → Key → Prop) : Prop where
  sound : Sound C w'
  gained : Gained C N w w'
  same : noCreate auto = true → ∀ j, j < w.next → (w.heap j).kind ≠ .vlist → (w.heap j).kind ≠ .uuidset →
    SameContent C w.repo.log w.heap (.mem j) w'.repo.log w'.heap (.mem j)

theorem Loads.asPart {w w' : World} (hl : Loads C w w') (hs : Sound C w) (auto : Option Bool)
    (N : ObjId → Key → Prop) : Part C auto w w' N :=
  ⟨hs.loads hl, hl.gained _, fun _ j hj _ _ => hl.content j hj⟩

theorem Part.trans {auto : Option Bool} {a b c : World} {N M : ObjId → Key → Prop} (h : Part C auto a b N)
    (h' : Part C auto b c M) (hm : ∀ j, j < a.next → ∀ k, M j k → N j k) : Part C auto a c N := by
  refine ⟨h'.sound, h.gained.trans h'.gained hm, fun hn j hj h1 h2 ks t => ?_⟩
  rw [h.same hn j hj h1 h2]
  refine h'.same hn j (Nat.lt_of_lt_of_le hj h.gained.grown.next) ?_ ?_ ks t <;> rw [h.gained.grown.kind j hj]
  · exact h1
  · exact h2

/-- The record is there, and its dataset id has an entry for it. -/
structure Entered (w : World) (us : ObjId) (u : Uuid) (v : Str) (p : PPath) (dt : ObjId) (path : List Str) (m : ObjId) :
    Prop where
  record : RecordAt w dt path m
  entry : ∃ vl y, ListAt w us u vl ∧ VerAt w vl v p y

theorem Entered.grown {w w' : World} {us dt m : ObjId} {u : Uuid} {v : Str} {p : PPath} {path : List Str}
    (h : Entered w us u v p dt path m) (hf : Fine C w) (hg : Grown w w') : Entered w' us u v p dt path m := by
  obtain ⟨vl, y, h1, h2⟩ := h.entry
  exact ⟨h.record.grown hf hg, vl, y, h1.grown hg, h2.grown hg⟩

theorem ListAt.here {w : World} (hs : Fine C w) {us vl : ObjId} {u : Uuid} (h : ListAt w us u vl) :
    Here C w us (.uuid u) := h.part.elim fun _ ht => look_of_dget hs h.mapped (by simp) ht

theorem VerAt.here {w : World} (hs : Fine C w) {i x : ObjId} {v : Str} {p : PPath} (h : VerAt w i v p x) :
    Here C w i (.ver v p) := h.part.elim fun _ ht => look_of_dget hs h.mapped (by simp) ht

theorem RecordAt.look {w : World} (hs : Fine C w) {dt m : ObjId} {path : List Str} (h : RecordAt w dt path m)
    (ks : List Key) : look C w.repo.log w.heap (names (path ++ [rootRecordName]) ++ ks) [] (.mem dt) =
      look C w.repo.log w.heap ks [] (.mem m) := h.leads.look hs.plain ks

theorem look_here {w : World} (hs : Fine C w) (i : ObjId) (t : Str) : ∃ d b,
    look C w.repo.log w.heap [] t (.mem i) = .found t d b := by
  obtain ⟨b, hb⟩ := view_ok_of_look (hs.all i [] [])
  exact ⟨_, _, look_nil _ hb⟩

/-- Entering a record that was found or created, and the search for the version list -/
theorem ownPart_run {w : World} (hs : Sound C w) (auto : Option Bool) (now : Str) {us dt : ObjId} (hu : us < w.next)
    (huk : (w.heap us).kind = .uuidset) (hd : dt < w.next)
    (hdk : (w.heap dt).kind.isMtree = true → (w.heap dt).kind = .mtree .mrr)
    (hdn : (w.heap dt).kind ≠ .uuidset ∧ (w.heap dt).kind ≠ .vlist)
    (id : Uuid) (v : Str) (p : PPath) {path : List Str} (hp : ∀ n ∈ path, CompOk n)
    {r : Except PyErr (Option ObjId)} {w' : World} (h : ownPart C auto now us dt id v p path w = (r, w')) :
    Part C auto w w' (fun j k => ((j = us ∧ k = .uuid id) ∧ noCreate auto = false) ∨
      ((w.heap j).kind = .vlist ∧ k = .ver v p) ∨ ((w.heap j).kind.isMtree = true ∧ noCreate auto = false)) ∧
    (∀ m, r = .ok (some m) → Entered w' us id v p dt path m) ∧
    (look C w.repo.log w.heap (names (path ++ [rootRecordName])) [] (.mem dt) = .absent →
      ∀ m, r = .ok (some m) → (w'.heap m).body.data = .mrr (some id) (some v) ∧ w.next ≤ m ∧
          FreshRecord C w' m) ∧
    (look C w.repo.log w.heap [.uuid id, .ver v p] [] (.mem us) = .absent →
      ∀ m, r = .ok (some m) → ∃ vl, ListAt w' us id vl ∧ VerAt w' vl v p m) ∧
    (noCreate auto = true → (look C w.repo.log w.heap [.uuid id, .ver v p] [] (.mem us) ≠ .absent ∨
      ¬ Here C w us (.uuid id) ∨
      look C w.repo.log w.heap (names (path ++ [rootRecordName])) [] (.mem dt) = .absent) → Loads C w w') ∧
    (noCreate auto = true → ∀ e, r = .error e →
        e = .runtime ∨ (e = .type ∧ (w.heap dt).kind.isMtree = false) ∨
        (e = .assertion ∧ look C w.repo.log w.heap (names (path ++ [rootRecordName])) [] (.mem dt) ≠ .absent)) := by
  unfold ownPart at h
  cases h1 : listFor C auto us id w with
  | mk r1 w1 =>
    obtain ⟨s1, g1, l1, a1, n1, e1, c1, t1, _⟩ := listFor_run hs auto hu huk id h1
    have p1 : Part C auto w w1 (fun j k => ((j = us ∧ k = .uuid id) ∧ noCreate auto = false) ∨
      ((w.heap j).kind = .vlist ∧ k = .ver v p) ∨ ((w.heap j).kind.isMtree = true ∧ noCreate auto = false)) :=
      ⟨s1, g1.mono fun _ _ _ h => Or.inl h, fun hn j hj _ _ => (l1 hn).content j hj⟩
    cases r1 with
    | error e =>
      rw [M.bind_of_error h1] at h
      cases h
      exact ⟨p1, (fun m e => by cases e), (fun _ m e => by cases e), (fun _ m e => by cases e), fun hn _ => l1 hn,
        fun _ e' he => by cases he; exact Or.inl (e1 e rfl).1⟩
    | ok o =>
      rw [M.bind_of_ok h1] at h
      cases o with
      | none =>
        cases h
        exact ⟨p1, (fun m e => by cases e), (fun _ m e => by cases e), (fun _ m e => by cases e), fun hn _ => l1 hn,
          (fun _ e' he => by cases he)⟩
      | some vl =>
        simp only at h
        have hla := a1 vl rfl
        have hd1 := Nat.lt_of_lt_of_le hd g1.grown.next
        have hk1 : (w1.heap dt).kind = (w.heap dt).kind := g1.grown.kind dt hd
        have hcd := c1 dt hd hdn.1
        have huk1 : (w1.heap us).kind = .uuidset := (g1.grown.kind us hu).trans huk
        cases h2 : recordFor C auto dt path id v w1 with
        | mk r2 w2 =>
          obtain ⟨s2, g2, l2, a2, n2, d2, e2, _⟩ := recordFor_run s1 auto hd1 (by rw [hk1]; exact hdk) hp id v h2
          have p2 : Part C auto w w2 (fun j k => ((j = us ∧ k = .uuid id) ∧ noCreate auto = false) ∨
            ((w.heap j).kind = .vlist ∧ k = .ver v p) ∨ ((w.heap j).kind.isMtree = true ∧ noCreate auto = false)) :=
            p1.trans (M := fun j _ => (w1.heap j).kind.isMtree = true ∧ noCreate auto = false)
              ⟨s2, g2, fun hn j hj _ _ => (l2 hn).content j hj⟩
              (fun j hj k h => Or.inr (Or.inr ⟨by rw [← g1.grown.kind j hj]; exact h.1, h.2⟩))
          cases r2 with
          | error e =>
            rw [M.bind_of_error h2] at h
            cases h
            refine ⟨p2, (fun m e => by cases e), (fun _ m e => by cases e), (fun _ m e => by cases e),
              fun hn _ => (l1 hn).trans (l2 hn), fun hn e' he => ?_⟩
            cases he
            have := e2 e hn rfl
            rw [hk1, ← hcd] at this
            exact this
          | ok o2 =>
            rw [M.bind_of_ok h2] at h
            cases o2 with
            | none =>
              cases h
              exact ⟨p2, (fun m e => by cases e), (fun _ m e => by cases e), (fun _ m e => by cases e),
                fun hn _ => (l1 hn).trans (l2 hn), (fun _ e' he => by cases he)⟩
            | some m =>
              simp only at h
              have hra := a2 m rfl
              have hla2 := hla.grown g2.grown
              have hvk : (w2.heap vl).kind = .vlist := hla2.kind s2 (by
                rw [g2.grown.kind us (Nat.lt_of_lt_of_le hu g1.grown.next)]; exact huk1)
              have hvl2 := hla2.vl_lt s2.fine
              have hvl1 := hla.vl_lt s1.fine
              have hvk1 : (w1.heap vl).kind = .vlist := hla.kind s1 huk1
              have hhere : Here C w2 vl (.ver v p) ↔ look C w.repo.log w.heap [.uuid id, .ver v p] [] (.mem us) ≠ .absent := by
                rw [← t1 vl rfl (.ver v p) (by simp)]
                constructor
                · intro hh
                  rcases g2.fresh vl hvl1 _ (by simp) hh with h3 | h3
                  · exact h3
                  · rw [hvk1] at h3; exact absurd h3.1 (by simp [Kind.isMtree])
                · intro hh
                  have hne := hh
                  unfold Here at hne ⊢
                  cases hx : look C w1.repo.log w1.heap [.ver v p] [] (.mem vl) with
                  | absent => exact absurd hx hne
                  | missing => exact absurd hx (s1.fine.all vl _ _)
                  | found s d b =>
                    obtain ⟨b', hb', _⟩ := g2.held vl hvl1 _ _ s d b hx
                    rw [hb']; simp
              cases h3 : entryFor C vl v now p m w2 with
              | mk r3 w3 =>
                obtain ⟨s3, g3, l3, a3, x3, e3, c3⟩ := entryFor_run s2 hvl2 hvk v now p hra.there hra.kind h3
                have p3 : Part C auto w w3 (fun j k => ((j = us ∧ k = .uuid id) ∧ noCreate auto = false) ∨
                  ((w.heap j).kind = .vlist ∧ k = .ver v p) ∨
                  ((w.heap j).kind.isMtree = true ∧ noCreate auto = false)) := by
                  refine p2.trans (M := fun j k => j = vl ∧ k = .ver v p) ⟨s3, g3, fun hn j hj q1 q2 => c3 j hj ?_⟩ ?_
                  · exact not_reach_list s3 (by rw [g3.grown.kind j hj]; exact q1)
                      (by rw [g3.grown.kind j hj]; exact q2) (by rw [g3.grown.kind vl hvl2]; exact hvk)
                  · rintro j hj k ⟨rfl, rfl⟩
                    refine Or.inr (Or.inl ⟨?_, rfl⟩)
                    rw [← p2.gained.grown.kind j hj]
                    exact hvk
                have hlo : noCreate auto = true →
                    (look C w.repo.log w.heap [.uuid id, .ver v p] [] (.mem us) ≠ .absent ∨ ¬ Here C w us (.uuid id) ∨
                      look C w.repo.log w.heap (names (path ++ [rootRecordName])) [] (.mem dt) = .absent) →
                    Loads C w w3 := by
                  intro hn hh
                  have l12 := (l1 hn).trans (l2 hn)
                  refine l12.trans (l3 (hhere.mpr ?_))
                  rcases hh with hh | hh | hh
                  · exact hh
                  · refine absurd ?_ hh
                    unfold Here
                    rw [l12.content us hu]
                    exact hla2.here s2.fine
                  · exfalso
                    rw [l12.content dt hd] at hh
                    have := hra.look s2.fine []
                    rw [List.append_nil, hh] at this
                    obtain ⟨d, b, h4⟩ := look_here s2.fine m []
                    rw [h4] at this
                    cases this
                cases r3 with
                | error e =>
                  rw [M.bind_of_error h3] at h
                  cases h
                  exact ⟨p3, (fun m e => by cases e), (fun _ m e => by cases e), (fun _ m e => by cases e), hlo,
                    fun _ e' he => by cases he; exact Or.inl (e3 e rfl).1⟩
                | ok _ =>
                  rw [M.bind_of_ok h3] at h
                  cases h
                  refine ⟨p3, ?_, ?_, ?_, hlo, (fun _ e' he => by cases he)⟩
                  · intro m' e
                    cases e
                    obtain ⟨y, hy⟩ := a3 rfl
                    exact ⟨hra.grown s2.fine g3.grown, vl, y, hla2.grown g3.grown, hy⟩
                  · intro ha m' e
                    cases e
                    rw [hcd] at ha
                    obtain ⟨q1, q2, q3⟩ := d2 ha m rfl
                    refine ⟨(g3.grown.data m hra.there hra.mapped).trans q1, Nat.le_trans g1.grown.next q2,
                      q3.same (c3 m hra.there ?_)⟩
                    have hmk := (g3.grown.kind m hra.there).trans hra.kind
                    exact not_reach_list s3 (by rw [hmk]; simp) (by rw [hmk]; simp)
                      (by rw [g3.grown.kind vl hvl2]; exact hvk)
                  · intro ha m' e
                    cases e
                    exact ⟨vl, hla2.grown g3.grown, x3 (fun hh => (hhere.mp hh) ha) rfl⟩

end MM
