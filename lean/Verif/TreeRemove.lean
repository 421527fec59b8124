/-
What a tree contains after an element was removed.
-/
import Verif.TreeAdd

namespace MM

variable {C : Cfg}

/-- What a successful `remove_child_at` did after loading. -/
structure RemovedAt (i : ObjId) (q : List Str) (n : Str) (m : ObjId) (w w' : World) : Prop where
  lead : Leads w.heap i (names q) m
  mapped : (w.heap m).mapped = true
  tree : (w.heap m).kind.isMtree = true
  had : dget (w.heap m).body.kids (.name n) ≠ none
  edit : w' = MM.edit m ⟨(w.heap m).body.data, ddel (w.heap m).body.kids (.name n)⟩ w

/-- A failing `remove_child_at` marked a node as modified. -/
structure OnlyTouched (i : ObjId) (q : List Str) (m : ObjId) (w w' : World) : Prop where
  lead : Leads w.heap i (names q) m
  mapped : (w.heap m).mapped = true
  tree : (w.heap m).kind.isMtree = true
  edit : w' = MM.edit m (w.heap m).body w

theorem touch_run (i : ObjId) (w : World) : touch i w = (.ok (), MM.edit i (w.heap i).body w) := rfl

theorem removeChild_mapped {w : World} {i : ObjId} (hm : (w.heap i).mapped = true) (n : Str) :
    removeChild C i n w = if dget (w.heap i).body.kids (.name n) = none
      then (.error .key, MM.edit i (w.heap i).body w)
      else (.ok (), MM.edit i ⟨(w.heap i).body.data, ddel (w.heap i).body.kids (.name n)⟩ w) := by
  unfold removeChild
  rw [M.bind_of_ok (ensureMapped_mapped hm), M.bind_of_ok (touch_run i w), M.bind_of_ok (getObj_run i _)]
  have hb : ((MM.edit i (w.heap i).body w).heap i).body = (w.heap i).body := by rw [edit_self]
  rw [hb]
  cases hd : dget (w.heap i).body.kids (.name n) with
  | none => simp
  | some x =>
    simp only [reduceCtorEq, if_false]
    rw [updObj_run]
    congr 1
    unfold MM.edit
    congr 1
    funext j
    by_cases h : j = i
    · subst h; simp
    · simp [Heap.set_ne h]

theorem removeChildAt_cases {w w' : World} (hs : Fine C w) {i : ObjId} (hi : i < w.next) {p : List Str}
    {res : Except PyErr Unit} (h : removeChildAt C p i w = (res, w')) :
    (Loads C w w' ∧ ∃ e, res = .error e) ∨ ∃ w1 q n m, p = q ++ [n] ∧ Loads C w w1 ∧ m < w1.next ∧
      ((res = .ok () ∧ RemovedAt i q n m w1 w') ∨
       (res = .error .key ∧ dget (w1.heap m).body.kids (.name n) = none ∧ OnlyTouched i q m w1 w')) := by
  unfold removeChildAt at h
  have hany := getObjectAt_any p.dropLast hs hi
  cases hg : getObjectAt C p.dropLast i w with
  | mk r w1 =>
    rw [hg] at hany
    cases r with
    | error e =>
      rw [M.bind_of_error hg] at h
      cases h
      exact Or.inl ⟨hany, e, rfl⟩
    | ok r =>
      rw [M.bind_of_ok hg] at h
      cases r with
      | none => cases h; exact Or.inl ⟨hany, _, rfl⟩
      | some m =>
        simp only at h
        obtain ⟨hl, hml⟩ := getObjectAt_some _ hs hi hg
        rw [M.bind_of_ok (getObj_run m w1)] at h
        split at h
        · rename_i hk
          cases hlast : p.getLast? with
          | none => rw [hlast] at h; cases h; exact Or.inl ⟨hany, _, rfl⟩
          | some n =>
            rw [hlast] at h
            simp only at h
            have hp : p = p.dropLast ++ [n] := by
              rcases List.eq_nil_or_concat p with rfl | ⟨p0, x, rfl⟩
              · cases hlast
              · rw [List.concat_eq_append] at hlast ⊢
                simp at hlast
                rw [hlast]
                simp
            unfold removeChild at h
            have hstep := hany.fine.loadsStep hml
            cases he : ensureMapped C m w1 with
            | mk r2 w2 =>
              rw [he] at hstep
              cases r2 with
              | error e =>
                rw [M.bind_of_error he] at h
                cases h
                exact Or.inl ⟨hany.trans hstep, e, rfl⟩
              | ok b =>
                obtain ⟨hl2, hm⟩ := hany.fine.loaded hml he
                have h' : removeChild C m n w2 = (res, w') := by
                  unfold removeChild
                  rw [M.bind_of_ok he] at h
                  rw [M.bind_of_ok (ensureMapped_mapped hm)]
                  exact h
                rw [removeChild_mapped hm] at h'
                have hlead := hl2.leads hany.fine (Nat.lt_of_lt_of_le hi hany.next) hl
                have htree : (w2.heap m).kind.isMtree = true := by rw [hl2.kind m hml]; exact hk
                refine Or.inr ⟨w2, p.dropLast, n, m, hp, hany.trans hl2, Nat.lt_of_lt_of_le hml hl2.next, ?_⟩
                split at h'
                · rename_i hd
                  cases h'
                  exact Or.inr ⟨rfl, hd, hlead, hm, htree, rfl⟩
                · rename_i hd
                  cases h'
                  exact Or.inl ⟨rfl, hlead, hm, htree, hd, rfl⟩
        · cases h; exact Or.inl ⟨hany, _, rfl⟩

/-! ### Fewer parts -/

/-- An object lost parts. -/
structure Fewer (m : ObjId) (w w' : World) : Prop where
  mapped : (w.heap m).mapped = true
  mapped' : (w'.heap m).mapped = true
  data : (w'.heap m).body.data = (w.heap m).body.data
  kids : (w'.heap m).body.kids.Sublist (w.heap m).body.kids
  old : ∀ j, j ≠ m → w'.heap j = w.heap j
  log : w'.repo.log = w.repo.log
  next : w'.next = w.next
  caches : w'.caches = w.caches

namespace Fewer

variable {m : ObjId} {w w' : World}

theorem dget (hr : Fewer m w w') (hf : Fine C w) {k : Key} {x : Str × ObjId}
    (h : MM.dget (w'.heap m).body.kids k = some x) : MM.dget (w.heap m).body.kids k = some x :=
  dget_of_mem (hf.formed m hr.mapped).keys (hr.kids.subset (mem_of_dget h))

theorem leads (hr : Fewer m w w') (hf : Fine C w) {a : ObjId} {ks : List Key} {j : ObjId}
    (h : Leads w'.heap a ks j) : Leads w.heap a ks j := by
  induction h with
  | nil a => exact Leads.nil a
  | cons t c hm hd _ ih =>
    rename_i a k ks j _
    by_cases ham : a = m
    · subst ham; exact Leads.cons t c hr.mapped (hr.dget hf hd) ih
    · rw [hr.old a ham] at hm hd; exact Leads.cons t c hm hd ih

theorem formed (hr : Fewer m w w') (hf : Fine C w) : HeapFormed w'.heap := by
  intro j hj
  by_cases hjm : j = m
  · subst hjm
    have h0 := hf.formed j hr.mapped
    refine ⟨?_, ?_, ?_⟩
    · exact h0.keys.sublist (hr.kids.map _)
    · intro e he; rw [hr.data]; exact h0.fits e (hr.kids.subset he)
    · intro hk e he; rw [hr.data] at hk; exact h0.stamps hk e (hr.kids.subset he)
  · rw [hr.old j hjm] at hj ⊢; exact hf.formed j hj

theorem reach (hr : Fewer m w w') (hf : Fine C w) {a j : ObjId} (h : Reach w'.heap a j) :
    Reach w.heap a j := by
  obtain ⟨ks, h⟩ := h.leads (hr.formed hf)
  exact (hr.leads hf h).reach

theorem kind (hr : Fewer m w w') (j : ObjId) : (w'.heap j).kind = (w.heap j).kind := by
  by_cases hjm : j = m
  · subst hjm; unfold Obj.kind; rw [hr.data]
  · rw [hr.old j hjm]

theorem onePath (hr : Fewer m w w') (hf : Fine C w) {i : ObjId} (h : OnePath w.heap i) :
    OnePath w'.heap i := by
  intro q ks j h1 hk h2
  rw [hr.kind j] at hk
  exact h q ks j (hr.leads hf h1) hk (hr.leads hf h2)

theorem apart (hr : Fewer m w w') (hf : Fine C w) {a i : ObjId} (h : Apart w.heap a i) :
    Apart w'.heap a i := by
  intro q j h1 hk h2
  rw [hr.kind j] at hk
  exact h q j (hr.leads hf h1) hk (hr.reach hf h2)

theorem fine (hr : Fewer m w w') (hf : Fine C w) : Fine C w' := by
  have hsub : ∀ p, (w'.heap p).mapped = true → (w.heap p).mapped = true ∧
      ∀ k ∈ (w'.heap p).body.subs, k ∈ (w.heap p).body.subs := by
    intro p hp
    by_cases hpm : p = m
    · subst hpm
      exact ⟨hr.mapped, fun k hk => (hr.kids.map fun e => e.2.2).subset hk⟩
    · rw [hr.old p hpm] at hp ⊢; exact ⟨hp, fun k hk => hk⟩
  have hun : ∀ j, (w'.heap j).mapped = false → w'.heap j = w.heap j := by
    intro j hj
    refine hr.old j ?_
    rintro rfl
    rw [hr.mapped'] at hj; cases hj
  refine ⟨?_, ?_, ?_, ?_, hr.formed hf⟩
  · intro p hp k hk
    rw [hr.next]
    exact hf.kids p (hsub p hp).1 k ((hsub p hp).2 k hk)
  · obtain ⟨rank, h⟩ := hf.ranked
    exact ⟨rank, fun p hp k hk => h p (hsub p hp).1 k ((hsub p hp).2 k hk)⟩
  · intro j hj
    have e := hun j hj
    rw [e] at hj ⊢
    exact hf.away j hj
  · intro j hj
    have e := hun j hj
    rw [e] at hj
    refine Full.of_same ?_ (hf.full j hj)
    rw [hr.log]
    refine look_kept fun k hk => ?_
    rw [reach_unmapped hj hk]
    exact e

end Fewer

theorem ddel_sublist {α β : Type} [DecidableEq α] (d : List (α × β)) (k : α) : (ddel d k).Sublist d := by
  induction d with
  | nil => exact List.Sublist.refl _
  | cons e d ih =>
    obtain ⟨k', v⟩ := e
    unfold ddel
    split
    · exact List.sublist_cons_self _ _
    · exact ih.cons_cons _

theorem RemovedAt.fewer {i : ObjId} {q : List Str} {n : Str} {m : ObjId} {w w' : World}
    (hr : RemovedAt i q n m w w') : Fewer m w w' := by
  have e := hr.edit
  subst e
  refine ⟨hr.mapped, ?_, ?_, ?_, ?_, rfl, rfl, rfl⟩
  · rw [edit_self]; exact hr.mapped
  · rw [edit_self]
  · rw [edit_self]; exact ddel_sublist _ _
  · intro j hj; exact edit_ne _ _ hj

theorem OnlyTouched.fewer {i : ObjId} {q : List Str} {m : ObjId} {w w' : World}
    (hr : OnlyTouched i q m w w') : Fewer m w w' := by
  have e := hr.edit
  subst e
  refine ⟨hr.mapped, ?_, ?_, ?_, ?_, rfl, rfl, rfl⟩
  · rw [edit_self]; exact hr.mapped
  · rw [edit_self]
  · rw [edit_self]; exact List.Sublist.refl _
  · intro j hj; exact edit_ne _ _ hj

/-- Marking an object as modified keeps all contents. -/
theorem OnlyTouched.content {i : ObjId} {q : List Str} {m : ObjId} {w w' : World}
    (hr : OnlyTouched i q m w w') (j : ObjId) :
    SameContent C w.repo.log w.heap (.mem j) w'.repo.log w'.heap (.mem j) := by
  have e := hr.edit
  subst e
  show SameContent C w.repo.log w.heap (.mem j) w.repo.log _ (.mem j)
  intro ks t
  refine look_congr (fun _ => True) ?_ ks t _ trivial
  intro n _
  right
  refine ⟨?_, fun _ _ _ _ => trivial⟩
  cases n with
  | sto r l => rfl
  | mem j =>
    by_cases hjm : j = m
    · subst hjm
      simp only [view, edit_self, Obj.kind]
    · simp only [view, edit_ne _ _ hjm]

namespace RemovedAt

variable {i : ObjId} {q : List Str} {n : Str} {m : ObjId} {w w' : World}

theorem changed (hr : RemovedAt i q n m w w') : NodeChanged i q m w w' :=
  ⟨hr.lead, hr.mapped, hr.tree, fun j hj _ => hr.fewer.old j hj, hr.fewer.log⟩

theorem kids (hr : RemovedAt i q n m w w') :
    (w'.heap m).body.kids = ddel (w.heap m).body.kids (.name n) := by
  have e := hr.edit
  subst e
  rw [edit_self]

/-- The path to the changed node is still there. -/
theorem lead' (hr : RemovedAt i q n m w w') (hf : Fine C w) : Leads w'.heap i (names q) m := by
  obtain ⟨rank, hrk⟩ := hf.ranked
  have key : ∀ ks a, Leads w.heap a ks m → Leads w'.heap a ks m := by
    intro ks
    induction ks with
    | nil => intro a h; cases h; exact Leads.nil _
    | cons k ks ih =>
      intro a h
      cases h with
      | cons t c hm hd h =>
        have ham : a ≠ m := by
          intro ham
          have h1 := hrk a hm c (dget_sub hd)
          rw [ham] at h1
          rcases h.reach.rank hrk with e | e
          · rw [e] at h1; exact absurd h1 (Nat.lt_irrefl _)
          · oomega
        have e := hr.fewer.old a ham
        exact Leads.cons t c (by rw [e]; exact hm) (by rw [e]; exact hd) (ih c h)
  exact key _ i hr.lead

/-- The removed element and everything below it are gone. -/
theorem look_removed (hr : RemovedAt i q n m w w') (hf : Fine C w) (ks : List Key) :
    look C w'.repo.log w'.heap (names (q ++ [n]) ++ ks) [] (.mem i) = .absent := by
  rw [names_append, List.append_assoc, (hr.lead' hf).look (hr.fewer.formed hf)]
  refine look_name_none hr.fewer.mapped' ?_ _ _
  rw [hr.kids, dget_ddel (hf.formed m hr.mapped).keys, if_pos rfl]

/-- Everything else is still there; the node that held the removed element may be empty
now. -/
theorem look_other (hr : RemovedAt i q n m w w') (hf : Fine C w) (hi : i < w.next)
    (hone : OnePath w.heap i) (ks : List Key) (h1 : ¬ names (q ++ [n]) <+: ks) (h2 : ks ≠ names q) :
    look C w'.repo.log w'.heap ks [] (.mem i) = look C w.repo.log w.heap ks [] (.mem i) := by
  by_cases hq : names q <+: ks
  · obtain ⟨ks1, rfl⟩ := hq
    rw [(hr.lead' hf).look (hr.fewer.formed hf), hr.lead.look hf.plain]
    cases ks1 with
    | nil => exact absurd (List.append_nil _) h2
    | cons k ks1 =>
      have hk : k ≠ .name n := by
        rintro rfl
        exact h1 ⟨ks1, by rw [names_append]; simp [names]⟩
      refine look_key_same hr.mapped hr.fewer.mapped' ?_ ks1 [] fun t0 c0 hd => ?_
      · rw [hr.kids, dget_ddel_ne _ _ hk]
      · have hc0 := hf.kids m hr.mapped c0 (dget_sub hd)
        refine ⟨hr.changed.content hf hc0 ?_, hf.all c0⟩
        intro hrr
        obtain ⟨rank, hrk⟩ := hf.ranked
        have h1 := hrk m hr.mapped c0 (dget_sub hd)
        rcases hrr.rank hrk with e | e
        · subst e; exact absurd h1 (Nat.lt_irrefl _)
        · oomega
  · exact hr.changed.look_before hf hi (hr.fewer.formed hf) hone ks hq

/-- The node that held the removed element is still a node. -/
theorem look_node (hr : RemovedAt i q n m w w') (hf : Fine C w) :
    ∃ leaf b, look C w.repo.log w.heap (names q) [] (.mem i) = .found [] (.mtree leaf) false ∧
      look C w'.repo.log w'.heap (names q) [] (.mem i) = .found [] (.mtree leaf) b ∧
      (b = false ↔ ∃ k, k ≠ n ∧ look C w.repo.log w.heap (names (q ++ [k])) [] (.mem i) ≠ .absent) := by
  have hk := hr.tree
  obtain ⟨leaf, hleaf⟩ : ∃ leaf, (w.heap m).body.data = .mtree leaf := by
    unfold Obj.kind at hk
    cases hdd : (w.heap m).body.data <;> rw [hdd] at hk <;> first | exact ⟨_, rfl⟩ | cases hk
  have e1 := hr.lead.look (C := C) (L := w.repo.log) hf.plain []
  have e2 := (hr.lead' hf).look (C := C) (L := w'.repo.log) (hr.fewer.formed hf) []
  rw [List.append_nil] at e1 e2
  have hne : (w.heap m).body.kids ≠ [] := by
    intro h0; exact hr.had (by rw [h0]; rfl)
  refine ⟨leaf, (w'.heap m).body.blank, ?_, ?_, ?_⟩
  · rw [e1, look_self hr.mapped, hleaf]
    congr 1
    unfold Body.blank
    simp [hne]
  · rw [e2, look_self hr.fewer.mapped', hr.fewer.data, hleaf]
  · have hb : (w'.heap m).body.blank = (w'.heap m).body.kids.isEmpty := by
      unfold Body.blank
      rw [hr.fewer.data, hleaf]
      rfl
    rw [hb]
    constructor
    · intro h
      cases hks : (w'.heap m).body.kids with
      | nil => rw [hks] at h; cases h
      | cons x xs =>
        have hx : x ∈ (w'.heap m).body.kids := by rw [hks]; exact List.mem_cons_self ..
        have hfit := (hr.fewer.formed hf m hr.fewer.mapped').fits x hx
        obtain ⟨k, hxk⟩ := fits_tree (by rw [hr.fewer.data, hleaf]; rfl) hfit
        have hdx : dget (w'.heap m).body.kids x.1 = some x.2 :=
          dget_of_mem (hr.fewer.formed hf m hr.fewer.mapped').keys hx
        have hkn : k ≠ n := by
          rintro rfl
          rw [hxk, hr.kids, dget_ddel (hf.formed m hr.mapped).keys, if_pos rfl] at hdx
          cases hdx
        refine ⟨k, hkn, ?_⟩
        have hdx0 := hr.fewer.dget hf hdx
        rw [hxk] at hdx0
        rw [names_append, hr.lead.look hf.plain]
        show look C _ _ (.name k :: []) [] _ ≠ _
        rw [look_name hf.plain hr.mapped hdx0]
        obtain ⟨b, hb⟩ := view_ok_of_look (hf.all x.2.2 [] [])
        rw [look_nil [] hb]
        simp
    · rintro ⟨k, hkn, hlk⟩
      rw [names_append, hr.lead.look hf.plain] at hlk
      cases hd : dget (w.heap m).body.kids (.name k) with
      | none => exact absurd (look_name_none hr.mapped hd [] []) hlk
      | some x =>
        have : dget (w'.heap m).body.kids (.name k) = some x := by
          rw [hr.kids, dget_ddel_ne _ _ (by simpa using hkn), hd]
        cases hks : (w'.heap m).body.kids with
        | nil => rw [hks] at this; cases this
        | cons x xs => rfl

end RemovedAt

end MM
