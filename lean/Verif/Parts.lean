/-
Getting and setting the parts of objects that are dictionaries: version lists, UUID sets
and root records.
-/
import Verif.Edit

namespace MM

variable {C : Cfg}

/-! ### Reading without marking as loaded -/

/-- An object that is not loaded was replaced by one that stands for the same content. -/
theorem Loads.standIn {w w' : World} (hf : Fine C w) (i : ObjId) (h1 : ∀ j, j ≠ i → w'.heap j = w.heap j)
    (h2 : w'.next = w.next) (h3 : w'.repo.log = w.repo.log) (h4 : w'.caches = w.caches)
    (hm : (w.heap i).mapped = false) (hm' : (w'.heap i).mapped = false)
    (hr : (w'.heap i).realm = (w.heap i).realm) (href : (w'.heap i).ref = (w.heap i).ref)
    (hk : (w'.heap i).kind = (w.heap i).kind) (hsv : (w'.heap i).savedOn = (w.heap i).savedOn) :
    Loads C w w' := by
  have hmap : ∀ j, (w'.heap j).mapped = true → w'.heap j = w.heap j := by
    intro j hj
    refine h1 j ?_
    rintro rfl
    rw [hm'] at hj; cases hj
  have hmap' : ∀ j, (w.heap j).mapped = true → w'.heap j = w.heap j := by
    intro j hj
    refine h1 j ?_
    rintro rfl
    rw [hm] at hj; cases hj
  have hview : ∀ n, view C w'.repo.log w'.heap n = view C w.repo.log w.heap n := by
    intro n
    rw [h3]
    cases n with
    | sto r l => rfl
    | mem j =>
      by_cases hj : j = i
      · subst hj
        simp only [view, hm, hm', hr, href, hk]
        rfl
      · simp only [view, h1 j hj]
  have hlook : ∀ ks t n, look C w'.repo.log w'.heap ks t n = look C w.repo.log w.heap ks t n := by
    intro ks
    induction ks with
    | nil => intro t n; simp only [look, hview]
    | cons k ks ih => intro t n; simp only [look, hview, ih]
  have hback : ∀ {a ks j}, Leads w'.heap a ks j → Leads w.heap a ks j := by
    intro a ks j hl
    induction hl with
    | nil => exact Leads.nil _
    | cons t c hmp hd _ ih => exact Leads.cons t c (by rw [← hmap _ hmp]; exact hmp) (by rw [← hmap _ hmp]; exact hd) ih
  have hkind : ∀ j, (w'.heap j).kind = (w.heap j).kind := by
    intro j
    by_cases hj : j = i
    · subst hj; exact hk
    · rw [h1 j hj]
  have hreach : ∀ {a b}, Reach w'.heap a b → Reach w.heap a b := by
    intro a b hr
    induction hr with
    | refl => exact Reach.refl _
    | step p k c hmp hkk _ ih =>
      exact Reach.step p k c (by rw [← hmap _ hmp]; exact hmp) (by rw [← hmap _ hmp]; exact hkk) ih
  have hfine : Fine C w' := by
    refine ⟨?_, ?_, ?_, ?_, ?_⟩
    · intro p hp k hkk
      have e := hmap p hp
      rw [e] at hp hkk
      rw [h2]; exact hf.kids p hp k hkk
    · obtain ⟨rank, hrk⟩ := hf.ranked
      refine ⟨rank, fun p hp k hkk => ?_⟩
      have e := hmap p hp
      rw [e] at hp hkk
      exact hrk p hp k hkk
    · intro j hj
      by_cases hji : j = i
      · subst hji
        rw [hr, href, hsv]
        exact hf.away j hm
      · rw [h1 j hji] at hj ⊢; exact hf.away j hj
    · intro j hj ks t
      rw [hlook]
      exact hf.all j ks t
    · intro j hj
      have e := hmap j hj
      rw [e] at hj ⊢; exact hf.formed j hj
  refine ⟨⟨h3, h4, by rw [h2]; exact Nat.le_refl _, fun j _ hj => hmap' j hj, fun j _ => hkind j, ?_, ?_, hfine,
    fun a ks j _ _ h => hback h, ?_, ?_, ?_, ?_, ?_⟩,
    .standIn i .refl h1 h2 h3 h4 hm hm' hr href hk hsv⟩
  · intro j _ _
    by_cases hj : j = i
    · subst hj; exact hsv
    · rw [h1 j hj]
  · intro j _ ks t; exact (hlook ks t _).symm
  · intro a _ ho q ks m g1 g2 g3
    exact ho q ks m (hback g1) (by rw [← hkind]; exact g2) (hback g3)
  · intro a b _ _ ha q j g1 g2 g3
    exact ha q j (hback g1) (by rw [← hkind]; exact g2) (hreach g3)
  · intro p hp hmp hor k hkk
    have e := hmap p hmp
    rw [e] at hkk hmp
    exact hf.refl_new.1 p (by rw [← h2]; exact hp) hmp hor k hkk
  · intro p p' k k' t t' j hj hp hp' hmp hmp' hd hd'
    have e := hmap p hmp
    rw [e] at hmp hd
    exact absurd (hf.kids p hmp j (dget_sub hd)) (Nat.not_lt.mpr hj)
  · intro ht q hq e he
    have eq := hmap q hq
    rw [eq] at hq he ⊢
    rw [hkind]
    exact ht q hq e he

/-- How reading ends: as `ensure_mapped`, or the object stands for something empty. -/
theorem readIn_cases (i : ObjId) (w : World) :
    (∃ e w', readIn C i w = (.error e, w') ∧ ensureMapped C i w = (.error e, w')) ∨
    (∃ b w', readIn C i w = (.ok (), w') ∧ ensureMapped C i w = (.ok b, w')) ∨
    (∃ b w', (w.heap i).mapped = false ∧ ensureMapped C i w = (.ok b, w') ∧ w'.repo = w.repo ∧
      readIn C i w = (.ok (), { w with heap := w.heap.set i { w.heap i with body := (w.heap i).body.purged } })) := by
  by_cases hm : (w.heap i).mapped = true
  · refine Or.inr (Or.inl ⟨false, w, ?_, ensureMapped_mapped hm⟩)
    unfold readIn
    rw [M.bind_of_ok (getObj_run i w), if_pos hm]
    rfl
  · have hm : (w.heap i).mapped = false := by simpa using hm
    cases hx : readIn C i w with
    | mk res w1 =>
      cases res with
      | error e =>
        refine Or.inl ⟨e, w1, rfl, ?_⟩
        unfold ensureMapped
        rw [M.bind_of_ok (getObj_run i w), if_neg (by simp [hm])]
        exact M.bind_of_error hx
      | ok u =>
        have hens : ensureMapped C i w = (.ok true, { w1 with heap := w1.heap.set i { w1.heap i with mapped := true } }) := by
          unfold ensureMapped
          rw [M.bind_of_ok (getObj_run i w), if_neg (by simp [hm]), M.bind_of_ok hx, M.bind_of_ok (updObj_run i _ w1)]
          rfl
        have hkeep : (w1.heap i).mapped = true →
            ({ w1 with heap := w1.heap.set i { w1.heap i with mapped := true } } : World) = w1 := by
          intro h1
          have : w1.heap.set i { w1.heap i with mapped := true } = w1.heap := by
            funext j
            by_cases hj : j = i
            · subst hj; rw [Heap.set_self]; cases hw : w1.heap j; rw [hw] at h1; simp only at h1; rw [h1]
            · rw [Heap.set_ne hj]
          rw [this]
        have hx' := hx
        unfold readIn at hx'
        rw [M.bind_of_ok (getObj_run i w), if_neg (by simp [hm])] at hx'
        rcases hr : (w.heap i).realm with _ | r
        · rw [hr] at hx'; cases hx'
        rcases href : (w.heap i).ref with _ | ref
        · rw [hr, href] at hx'; cases hx'
        rw [hr, href] at hx'
        simp only at hx'
        · split at hx'
          · obtain ⟨_, w2, h1, h2⟩ := M.bind_ok hx'
            have hw2 : w2 = w := by
              unfold M.assert at h1
              split at h1 <;> cases h1
              rfl
            subst hw2
            split at h2
            · cases h2
            · rw [setObj_run] at h2
              cases h2
              exact Or.inr (Or.inr ⟨true, _, hm, hens, rfl, by simp only [hr, href]⟩)
          · split at hx'
            · cases hx'
            · obtain ⟨_, w2, h1, h2⟩ := M.bind_ok hx'
              rcases hloc : ref.loc with _ | loc
              · rw [hloc] at h2; cases h2
              · rw [hloc] at h2
                simp only at h2
                obtain ⟨b, w3, h3, h4⟩ := M.bind_ok h2
                obtain ⟨ks, w4, h5, h6⟩ := M.bind_ok h4
                rw [setObj_run] at h6
                injection h6 with _ h6
                have : (w1.heap i).mapped = true := by rw [← h6]; simp only [Heap.set_self]
                rw [hkeep this] at hens
                exact Or.inr (Or.inl ⟨true, w1, rfl, hens⟩)

theorem Fine.readStep {w : World} (hs : Fine C w) {i : ObjId} (hi : i < w.next) : Loads C w (readIn C i w).2 := by
  have hst := hs.loadsStep hi
  rcases readIn_cases (C := C) i w with ⟨e, w', h1, h2⟩ | ⟨b, w', h1, h2⟩ | ⟨b, w', hm, h1, _, h2⟩
  · rw [h1]; rw [h2] at hst; exact hst
  · rw [h1]; rw [h2] at hst; exact hst
  · rw [h2]
    refine Loads.standIn hs i (fun j hj => Heap.set_ne hj) rfl rfl rfl hm ?_ ?_ ?_ ?_ ?_ <;>
      simp only [Heap.set_self]
    · exact hm
    · unfold Obj.kind Body.purged
      simp only
      cases (w.heap i).body.data <;> rfl

theorem Fine.readTotal {w : World} (hs : Fine C w) (hf : w.repo.faults = []) (i : ObjId) :
    ∃ w', readIn C i w = (.ok (), w') ∧ w'.repo = w.repo := by
  obtain ⟨b0, w0, h0, hr0⟩ := hs.loads hf i
  rcases readIn_cases (C := C) i w with ⟨e, w', h1, h2⟩ | ⟨b, w', h1, h2⟩ | ⟨b, w', hm, h1, h3, h2⟩
  · rw [h0] at h2; cases h2
  · rw [h0] at h2; cases h2; exact ⟨_, h1, hr0⟩
  · exact ⟨_, h2, rfl⟩

theorem Fine.readError {w w' : World} (hs : Fine C w) {i : ObjId} {e : PyErr}
    (h : readIn C i w = (.error e, w')) : e = .runtime := by
  rcases readIn_cases (C := C) i w with ⟨e', w1, h1, h2⟩ | ⟨b, w1, h1, h2⟩ | ⟨b, w1, hm, h1, _, h2⟩
  · rw [h] at h1; cases h1; exact hs.loadError h2
  · rw [h] at h1; cases h1
  · rw [h] at h2; cases h2

/-! ### Getting a part -/

/-- What the `get` methods have in common. -/
def part (C : Cfg) (e : PyErr) (i : ObjId) (k : Key) : W (Str × ObjId) := do
  let _ ← ensureMapped C i
  let o ← getObj i
  match dget o.body.kids k with
  | none => M.raise e
  | some x => do
    readIn C x.2
    pure x

theorem part_any {w : World} (hs : Fine C w) (e : PyErr) {i : ObjId} (hi : i < w.next) (k : Key) :
    Loads C w (part C e i k w).2 := by
  unfold part
  cases h1 : ensureMapped C i w with
  | mk r w1 =>
    have hst := hs.loadsStep hi
    rw [h1] at hst
    cases r with
    | error e1 => rw [M.bind_of_error h1]; exact hst
    | ok b =>
      rw [M.bind_of_ok h1, M.bind_of_ok (getObj_run i w1)]
      obtain ⟨_, hm⟩ := hs.loaded hi h1
      cases hd : dget (w1.heap i).body.kids k with
      | none => exact hst
      | some x =>
        simp only
        have hx : x.2 < w1.next := hst.fine.kids i hm x.2 (dget_sub hd)
        have h2 := hst.fine.readStep hx
        cases h3 : readIn C x.2 w1 with
        | mk r2 w2 =>
          rw [h3] at h2
          cases r2 with
          | error e2 => rw [M.bind_of_error h3]; exact hst.trans h2
          | ok u => rw [M.bind_of_ok h3]; exact hst.trans h2

/-- The part that is returned holds what is found under the key. -/
theorem part_ok {w w' : World} (hs : Fine C w) {e : PyErr} {i : ObjId} (hi : i < w.next) {k : Key} {x : Str × ObjId}
    (h : part C e i k w = (.ok x, w')) :
    x.2 < w'.next ∧ (w'.heap i).mapped = true ∧ dget (w'.heap i).body.kids k = some x := by
  unfold part at h
  obtain ⟨b, w1, h1, h2⟩ := M.bind_ok h
  obtain ⟨hl, hm⟩ := hs.loaded hi h1
  rw [M.bind_of_ok (getObj_run i w1)] at h2
  cases hd : dget (w1.heap i).body.kids k with
  | none => rw [hd] at h2; cases h2
  | some y =>
    rw [hd] at h2
    simp only at h2
    have hy : y.2 < w1.next := hl.fine.kids i hm y.2 (dget_sub hd)
    obtain ⟨_, w2, h3, h4⟩ := M.bind_ok h2
    cases h4
    have hst := hl.fine.readStep hy
    rw [h3] at hst
    have := hst.loaded i (Nat.lt_of_lt_of_le hi hl.next) hm
    rw [this]
    exact ⟨Nat.lt_of_lt_of_le hy hst.next, hm, hd⟩

/-- Why getting a part fails: there is none, or git fails. -/
theorem part_error {w w' : World} (hs : Fine C w) {e e' : PyErr} {i : ObjId} (hi : i < w.next) {k : Key}
    (h : part C e i k w = (.error e', w')) :
    e' = .runtime ∨ (e' = e ∧ ∀ ks, look C w.repo.log w.heap (k :: ks) [] (.mem i) = .absent) := by
  unfold part at h
  cases h1 : ensureMapped C i w with
  | mk r w1 =>
    have hst := hs.loadsStep hi
    rw [h1] at hst
    cases r with
    | error e1 =>
      rw [M.bind_of_error h1] at h
      cases h
      exact Or.inl (hs.loadError h1)
    | ok b =>
      rw [M.bind_of_ok h1, M.bind_of_ok (getObj_run i w1)] at h
      obtain ⟨_, hm⟩ := hs.loaded hi h1
      cases hd : dget (w1.heap i).body.kids k with
      | none =>
        rw [hd] at h
        cases h
        refine Or.inr ⟨rfl, fun ks => ?_⟩
        rw [hst.content i hi, look_cons_none (view_mapped hm)]
        rw [Body.dget_map, hd]; rfl
      | some x =>
        rw [hd] at h
        simp only at h
        cases h3 : readIn C x.2 w1 with
        | mk r2 w2 =>
          cases r2 with
          | error e2 =>
            rw [M.bind_of_error h3] at h
            cases h
            exact Or.inl (hst.fine.readError h3)
          | ok u => rw [M.bind_of_ok h3] at h; cases h

/-- If git works, a part that is there is found. -/
theorem part_total {w : World} (hs : Fine C w) (hf : w.repo.faults = []) (e : PyErr) {i : ObjId} (hi : i < w.next)
    (k : Key) :
    (∃ x, (part C e i k w).1 = .ok x) ∨ ((part C e i k w).1 = .error e ∧
      ∀ ks, look C w.repo.log w.heap (k :: ks) [] (.mem i) = .absent) := by
  cases h : part C e i k w with
  | mk r w' =>
    cases r with
    | ok x => exact Or.inl ⟨x, rfl⟩
    | error e' =>
      refine Or.inr ?_
      obtain ⟨b, w1, h1, hrep⟩ := hs.loads hf i
      obtain ⟨hst, hm⟩ := hs.loaded hi h1
      unfold part at h
      rw [M.bind_of_ok h1, M.bind_of_ok (getObj_run i w1)] at h
      cases hd : dget (w1.heap i).body.kids k with
      | none =>
        rw [hd] at h
        cases h
        refine ⟨rfl, fun ks => ?_⟩
        rw [hst.content i hi, look_cons_none (view_mapped hm)]
        rw [Body.dget_map, hd]; rfl
      | some x =>
        rw [hd] at h
        simp only at h
        obtain ⟨w2, h3, _⟩ := hst.fine.readTotal (by rw [hrep]; exact hf) x.2
        rw [M.bind_of_ok h3] at h
        cases h

/-- What is found under a key of a loaded object -/
theorem look_part {L : Log} {h : Heap} {i : ObjId} {k : Key} {x : Str × ObjId} (hm : (h i).mapped = true)
    (hd : dget (h i).body.kids k = some x) (hk : k ≠ .ft) (ks : List Key) (t : Str) :
    look C L h (k :: ks) t (.mem i) = look C L h ks x.1 (.mem x.2) := by
  refine look_cons_some (view_mapped hm) ?_ hk
  rw [Body.dget_map, hd]; rfl

/-! ### Setting a part -/

theorem Peeks.unreach {w w' : World} (hl : Peeks C w w') {a b : ObjId} (ha : a < w.next) (hb : b < w.next)
    (h : ¬ Reach w.heap a b) : ¬ Reach w'.heap a b := by
  intro hr
  obtain ⟨ks, h1⟩ := hr.leads hl.fine.formed
  exact h (hl.back a ks b ha hb h1).reach

/-- What is found after the dictionary of a loaded object was changed. -/
theorem look_edit_part {w : World} (hs : Fine C w) {i : ObjId} {b : Body ObjId} (hm : (w.heap i).mapped = true)
    (hac : ∀ c ∈ b.subs, ¬ Reach w.heap c i) (k : Key) (ks : List Key) (t : Str) :
    (∀ x, dget b.kids k = some x → k ≠ .ft → look C (MM.edit i b w).repo.log (MM.edit i b w).heap (k :: ks) t (.mem i) =
        look C w.repo.log w.heap ks x.1 (.mem x.2)) ∧
      (dget b.kids k = dget (w.heap i).body.kids k →
        look C (MM.edit i b w).repo.log (MM.edit i b w).heap (k :: ks) t (.mem i) =
          look C w.repo.log w.heap (k :: ks) t (.mem i)) := by
  have hm' : ((MM.edit i b w).heap i).mapped = true := by rw [edit_self]; exact hm
  have hself : ((MM.edit i b w).heap i).body = b := by rw [edit_self]
  refine ⟨fun x hx hk => ?_, fun hd => ?_⟩
  · rw [look_part hm' (by rw [hself]; exact hx) hk]
    exact (content_edit (hac x.2 (dget_sub hx)) ks x.1).symm
  · refine look_key_same hm hm' (by rw [hself]; exact hd) ks t ?_
    intro t0 c hc
    rw [← hd] at hc
    exact ⟨content_edit (hac c (dget_sub hc)), hs.all c⟩

/-- What the `set` methods have in common. -/
structure PartSet (C : Cfg) (i : ObjId) (k : Key) (t : Str) (x : ObjId) (w w' : World) : Prop where
  fine : Fine C w'
  next : w.next ≤ w'.next
  log : w'.repo.log = w.repo.log
  kind : ∀ j, j < w.next → (w'.heap j).kind = (w.heap j).kind
  part : (w'.heap i).mapped = true ∧ dget (w'.heap i).body.kids k = some (t, x)
  own : ∀ t', look C w'.repo.log w'.heap [] t' (.mem i) = look C w.repo.log w.heap [] t' (.mem i)
  set : k ≠ .ft → ∀ ks t', look C w'.repo.log w'.heap (k :: ks) t' (.mem i) = look C w.repo.log w.heap ks t (.mem x)
  kept : ∀ k', k' ≠ k → ∀ ks t', look C w'.repo.log w'.heap (k' :: ks) t' (.mem i) =
    look C w.repo.log w.heap (k' :: ks) t' (.mem i)
  others : ∀ j, j < w.next → ¬ Reach w.heap j i →
    SameContent C w.repo.log w.heap (.mem j) w'.repo.log w'.heap (.mem j) ∧
      ∀ m, m < w.next → ¬ Reach w.heap j m → ¬ Reach w'.heap j m
  noticed : ∀ j, Reach w'.heap j i → ∀ n r, isSavedOn n w'.heap r j ≠ .ok true
  back : ∀ a b, a < w.next → b < w.next → Reach w'.heap a b → Reach w.heap a b ∨ Reach w.heap x b

theorem unsaved_edit {w : World} {i : ObjId} {b : Body ObjId} {j : ObjId} (hj : Reach (MM.edit i b w).heap j i)
    (n : Nat) (x : Realm) : isSavedOn n (MM.edit i b w).heap x j ≠ .ok true := by
  intro h
  have hc := clean_of_isSavedOn h
  have : ∀ {a c : ObjId}, Reach (MM.edit i b w).heap a c → Clean x (MM.edit i b w).heap a →
      Clean x (MM.edit i b w).heap c := by
    intro a c hr
    induction hr with
    | refl => exact id
    | step a k c hm hk _ ih => exact fun hc => ih (hc.kid hm hk)
  have hi := (this hj hc).flag
  rw [edit_self] at hi
  cases hi

theorem PartSet.of_edit {w w1 : World} (hl : Loads C w w1) {i : ObjId} (hi : i < w.next)
    (hm : (w1.heap i).mapped = true) {k : Key} {t : Str} {x : ObjId} (hx : x < w.next)
    (hxi : ¬ Reach w.heap x i) {b : Body ObjId} (hdata : b.data = (w1.heap i).body.data) (hform : Formed b)
    (hget : dget b.kids k = some (t, x)) (hother : ∀ k', k' ≠ k → dget b.kids k' = dget (w1.heap i).body.kids k')
    (hblank : b.blank = (w1.heap i).body.blank) :
    PartSet C i k t x w (MM.edit i b w1) := by
  have hi1 := Nat.lt_of_lt_of_le hi hl.next
  have hx1 := Nat.lt_of_lt_of_le hx hl.next
  have hxi1 := hl.unreach hx hi hxi
  have hsub : ∀ c ∈ b.subs, c = x ∨ c ∈ (w1.heap i).body.subs := by
    intro c hc
    obtain ⟨e, he, rfl⟩ := List.mem_map.mp hc
    have hde := dget_of_mem hform.keys (show (e.1, e.2) ∈ b.kids from he)
    by_cases hek : e.1 = k
    · rw [hek, hget] at hde
      injection hde with hde
      exact Or.inl (by rw [← hde])
    · rw [hother _ hek] at hde
      exact Or.inr (dget_sub hde)
  have hac : ∀ c ∈ b.subs, ¬ Reach w1.heap c i := by
    intro c hc
    rcases hsub c hc with rfl | h
    · exact hxi1
    · exact hl.fine.irrefl hm h
  have hlt : ∀ c ∈ b.subs, c < w1.next := by
    intro c hc
    rcases hsub c hc with rfl | h
    · exact hx1
    · exact hl.fine.kids i hm c h
  have hm' : ((MM.edit i b w1).heap i).mapped = true := by rw [edit_self]; exact hm
  have hreach : ∀ {a c}, Reach (MM.edit i b w1).heap a c → Reach w1.heap a c ∨ Reach w1.heap x c := by
    intro a c hr
    induction hr with
    | refl => exact Or.inl (Reach.refl _)
    | step p q c hp hq _ ih =>
      rcases ih with ih | ih
      · by_cases hpi : p = i
        · subst hpi
          rw [edit_self] at hq
          rcases hsub q hq with rfl | h
          · exact Or.inr ih
          · exact Or.inl (Reach.step p q c hm h ih)
        · rw [edit_ne b w1 hpi] at hp hq
          exact Or.inl (Reach.step p q c hp hq ih)
      · exact Or.inr ih
  have hnoedit : ∀ {a c}, Reach (MM.edit i b w1).heap a c → ¬ Reach w1.heap a i → Reach w1.heap a c := by
    intro a c hr
    induction hr with
    | refl => intro _; exact Reach.refl _
    | step p q c hp hq _ ih =>
      intro hn
      have hpi : p ≠ i := by rintro rfl; exact hn (Reach.refl _)
      rw [edit_ne b w1 hpi] at hp hq
      exact Reach.step p q c hp hq (ih fun h => hn (Reach.step p q i hp hq h))
  refine ⟨hl.fine.edit hm hform hlt hac, hl.next, hl.log, ?_, ⟨hm', by rw [edit_self]; exact hget⟩, ?_, ?_, ?_, ?_, ?_, ?_⟩
  · intro j hj
    rw [← hl.kind j hj]
    by_cases hji : j = i
    · subst hji; rw [edit_self]; unfold Obj.kind; simp only [hdata]
    · rw [edit_ne b w1 hji]
  · intro t'
    rw [hl.content i hi, look_self hm, look_self hm', edit_self]
    simp only [hdata, hblank]
  · intro hk ks t'
    rw [(look_edit_part hl.fine hm hac k ks t').1 (t, x) hget hk]
    exact (hl.content x hx ks t).symm
  · intro k' hk' ks t'
    rw [(look_edit_part hl.fine hm hac k' ks t').2 (hother k' hk')]
    exact (hl.content i hi (k' :: ks) t').symm
  · intro j hj hji
    have hji1 := hl.unreach hj hi hji
    refine ⟨fun ks t' => ?_, fun m hmm hjm hr => ?_⟩
    · rw [hl.content j hj ks t', ← content_edit (b := b) hji1 ks t']
    · exact hl.unreach hj hmm hjm (hnoedit hr hji1)
  · intro j hj n r; exact unsaved_edit hj n r
  · intro a c ha hc hr
    rcases hreach hr with h | h
    · exact Or.inl (Classical.byContradiction fun hn => hl.unreach ha hc hn h)
    · exact Or.inr (Classical.byContradiction fun hn => hl.unreach hx hc hn h)

/-! ### Dictionaries of version lists and root records -/

/-- The version of a record in the order of iteration -/
def sameVersion {α : Type} (v : Str) (e : Key × α) : Bool :=
  match e.1 with
  | .ver v' _ => v' = v
  | _ => false

theorem vset_eq {α : Type} (l : List (Key × α)) (v : Str) (p : PPath) (x : α) :
    vset l v p x = if (dget l (.ver v p)).isSome then dset l (.ver v p) x
      else if ((l.reverse.takeWhile fun e => !sameVersion v e).reverse).length = l.length then l ++ [(.ver v p, x)]
      else l.take (l.length - ((l.reverse.takeWhile fun e => !sameVersion v e).reverse).length) ++
        (.ver v p, x) :: (l.reverse.takeWhile fun e => !sameVersion v e).reverse := rfl

theorem dget_perm {α β : Type} [DecidableEq α] {l l' : List (α × β)} (hp : l.Perm l') (hn : (dkeys l).Nodup) (k : α) :
    dget l k = dget l' k := by
  have hn' : (dkeys l').Nodup := (hp.map Prod.fst).nodup hn
  cases h : dget l k with
  | some x => rw [dget_of_mem hn' (hp.mem_iff.mp (mem_of_dget h))]
  | none =>
    cases h' : dget l' k with
    | none => rfl
    | some x =>
      rw [dget_of_mem hn (hp.mem_iff.mpr (mem_of_dget h'))] at h
      cases h

theorem dget_vset {α : Type} {l : List (Key × α)} (hn : (dkeys l).Nodup) (v : Str) (p : PPath) (x : α) (k : Key) :
    dget (vset l v p x) k = if Key.ver v p = k then some x else dget l k := by
  by_cases hm : Key.ver v p ∈ dkeys l
  · have : (dget l (.ver v p)).isSome = true := dget_isSome.mpr hm
    rw [vset_eq, if_pos this, dget_dset]
  · rw [dget_perm (vset_perm x hm) (nodup_vset hn)]
    simp only [dget]

theorem formed_vset {b : Body ObjId} (hb : Formed b) (hk : b.data.kind = .vlist ∨ b.data.kind = .tvl) (v : Str)
    (p : PPath) (x : Str × ObjId) : Formed (⟨b.data, vset b.kids v p x⟩ : Body ObjId) := by
  refine ⟨nodup_vset hb.keys, fun e he => ?_, fun h => ?_⟩
  · rcases mem_vset he with rfl | he
    · rcases hk with h | h <;> (show Key.fits b.data.kind _ = true) <;> rw [h] <;> rfl
    · exact hb.fits e he
  · have h : b.data.kind.stamped = false := h
    rcases hk with h' | h' <;> rw [h'] at h <;> cases h

theorem dget_mrrKids_dlm {κ : Type} (dlm ft : Option κ) : dget (mrrKids dlm ft) .dlm = dlm.map fun d => ([], d) := by
  cases dlm <;> cases ft <;> rfl

theorem dget_mrrKids_ft {κ : Type} (dlm ft : Option κ) : dget (mrrKids dlm ft) .ft = ft.map fun d => ([], d) := by
  cases dlm <;> cases ft <;> rfl

theorem mem_mrrKids {κ : Type} {dlm ft : Option κ} {e : Key × (Str × κ)} (h : e ∈ mrrKids dlm ft) :
    (e.1 = .dlm ∨ e.1 = .ft) ∧ e.2.1 = [] := by
  cases dlm <;> cases ft <;> simp only [mrrKids, List.append_nil, List.nil_append, List.mem_append,
    List.mem_singleton, List.not_mem_nil] at h
  · rw [h]; exact ⟨Or.inr rfl, rfl⟩
  · rw [h]; exact ⟨Or.inl rfl, rfl⟩
  · rcases h with h | h <;> rw [h]
    · exact ⟨Or.inl rfl, rfl⟩
    · exact ⟨Or.inr rfl, rfl⟩

theorem nodup_mrrKids {κ : Type} (dlm ft : Option κ) : (dkeys (mrrKids dlm ft)).Nodup := by
  cases dlm <;> cases ft <;> simp [mrrKids, dkeys]

end MM
