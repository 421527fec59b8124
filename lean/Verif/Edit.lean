/-
What a change of the data of one object changes in what users find.
-/
import Verif.TreeAdd

namespace MM

variable {C : Cfg}

/-- The same finding with other data -/
def Res.withData (x : Res) (d : Data) : Res :=
  match x with
  | .found t _ b => .found t d b
  | x => x

/-- An object's own data was changed, not its parts. -/
structure DataChanged (m : ObjId) (d : Data) (h h' : Heap) : Prop where
  mapped : (h m).mapped = true
  mapped' : (h' m).mapped = true
  kids : (h' m).body.kids = (h m).body.kids
  data : (h' m).body.data = d
  kind : d.kind = (h m).body.data.kind
  old : ∀ j, j ≠ m → h' j = h j

theorem DataChanged.view {m : ObjId} {d : Data} {L : Log} {h h' : Heap} (hd : DataChanged m d h h') (a : ObjId) :
    (a ≠ m ∧ MM.view C L h' (.mem a) = MM.view C L h (.mem a)) ∨
      (a = m ∧ MM.view C L h (.mem a) = .ok ((h m).body.map .mem) ∧
        MM.view C L h' (.mem a) = .ok ⟨d, ((h m).body.map Node.mem).kids⟩) := by
  by_cases ha : a = m
  · subst ha
    refine Or.inr ⟨rfl, view_mapped hd.mapped, ?_⟩
    rw [view_mapped hd.mapped']
    unfold Body.map
    rw [hd.kids, hd.data]
  · refine Or.inl ⟨ha, ?_⟩
    simp only [MM.view, hd.old a ha]

theorem DataChanged.blank {m : ObjId} {d : Data} {h h' : Heap} (hd : DataChanged m d h h') :
    (⟨d, ((h m).body.map Node.mem).kids⟩ : Body Node).blank = ((h m).body.map Node.mem).blank := by
  unfold Body.blank
  rw [Body.map_data, hd.kind]

/-- What is found after a change of the data of one object: the new data where the object
is found, and what was found before elsewhere. -/
theorem DataChanged.look {m : ObjId} {d : Data} {L : Log} {h h' : Heap} (hd : DataChanged m d h h')
    (ks : List Key) : ∀ (t : Str) (a : ObjId),
    (Leads h a ks m → MM.look C L h' ks t (.mem a) = (MM.look C L h ks t (.mem a)).withData d) ∧
      (¬ Leads h a ks m → MM.look C L h' ks t (.mem a) = MM.look C L h ks t (.mem a)) := by
  induction ks with
  | nil =>
    intro t a
    rcases hd.view (C := C) (L := L) a with ⟨ha, hv⟩ | ⟨rfl, hv, hv'⟩
    · refine ⟨fun hl => ?_, fun _ => ?_⟩
      · cases hl; exact absurd rfl ha
      · simp only [MM.look, hv]
    · refine ⟨fun _ => ?_, fun hl => absurd (Leads.nil a) hl⟩
      rw [look_nil t hv, look_nil t hv', hd.blank]
      rfl
  | cons k ks ih =>
    intro t a
    have hkids : ∀ b, MM.view C L h (.mem a) = .ok b → ∃ b', MM.view C L h' (.mem a) = .ok b' ∧ b'.kids = b.kids := by
      intro b hb
      rcases hd.view (C := C) (L := L) a with ⟨ha, hv⟩ | ⟨rfl, hv, hv'⟩
      · exact ⟨b, by rw [hv, hb], rfl⟩
      · rw [hv] at hb
        cases hb
        exact ⟨_, hv', rfl⟩
    cases hv : MM.view C L h (.mem a) with
    | error e =>
      have hv' : MM.view C L h' (.mem a) = .error e := by
        rcases hd.view (C := C) (L := L) a with ⟨ha, hv'⟩ | ⟨rfl, hv', _⟩
        · rw [hv', hv]
        · rw [hv'] at hv; cases hv
      rw [look_missing_of_view hv, look_missing_of_view hv']
      exact ⟨fun _ => rfl, fun _ => rfl⟩
    | ok b =>
      obtain ⟨b', hv', hk'⟩ := hkids b hv
      cases hdg : dget b.kids k with
      | none =>
        rw [look_cons_none hv hdg, look_cons_none hv' (by rw [hk']; exact hdg)]
        exact ⟨fun _ => rfl, fun _ => rfl⟩
      | some x =>
        obtain ⟨t', c⟩ := x
        rw [look_cons hv, look_cons hv', hk', hdg]
        simp only
        by_cases hm : (h a).mapped = true
        · have hbb := view_mapped (C := C) (L := L) hm
          rw [hv] at hbb
          cases hbb
          rw [Body.dget_map] at hdg
          cases hda : dget (h a).body.kids k with
          | none => rw [hda] at hdg; cases hdg
          | some y =>
            obtain ⟨t1, c1⟩ := y
            rw [hda] at hdg
            cases hdg
            have hiff : Leads h a (k :: ks) m ↔ Leads h c1 ks m := by
              constructor
              · intro hl
                cases hl with
                | cons t2 c2 _ h2 h3 => rw [hda] at h2; cases h2; exact h3
              · exact fun hl => Leads.cons _ _ hm hda hl
            rw [hiff]
            obtain ⟨i1, i2⟩ := ih t1 c1
            rcases hd.view (C := C) (L := L) c1 with ⟨ha, hvc⟩ | ⟨rfl, hvc, hvc'⟩
            · rw [hvc]
              cases hvv : MM.view C L h (.mem c1) with
              | error e => exact ⟨fun _ => rfl, fun _ => rfl⟩
              | ok bc =>
                simp only
                by_cases hft : k = .ft ∧ bc.blank = true
                · rw [if_pos hft, if_pos hft]; exact ⟨fun _ => rfl, fun _ => rfl⟩
                · rw [if_neg hft, if_neg hft]; exact ⟨i1, i2⟩
            · rw [hvc, hvc']
              simp only [hd.blank]
              by_cases hft : k = .ft ∧ ((h c1).body.map Node.mem).blank = true
              · rw [if_pos hft, if_pos hft]; exact ⟨fun _ => rfl, fun _ => rfl⟩
              · rw [if_neg hft, if_neg hft]; exact ⟨i1, i2⟩
        · have hm : (h a).mapped = false := by simpa using hm
          obtain ⟨r, ref, x, _, _, _, rfl⟩ := (view_away hm).mp hv
          rw [Body.dget_map] at hdg
          cases hda : dget x.kids k with
          | none => rw [hda] at hdg; cases hdg
          | some y =>
            rw [hda] at hdg
            cases hdg
            have hno : ¬ Leads h a (k :: ks) m := by
              intro hl
              cases hl with
              | cons t2 c2 h1 _ _ => rw [hm] at h1; cases h1
            refine ⟨fun hl => absurd hl hno, fun _ => ?_⟩
            rw [show MM.view C L h' (.sto r y.2) = MM.view C L h (.sto r y.2) from rfl,
              look_sto_heap (h := h') (h' := h) r y.2 ks _]

/-! ### Changing an object -/

theorem reach_of_edit {w : World} {i : ObjId} {b : Body ObjId} {a : ObjId} (hr : Reach (edit i b w).heap a i) :
    Reach w.heap a i := by
  have key : ∀ {a c : ObjId}, Reach (edit i b w).heap a c → c = i → Reach w.heap a i := by
    intro a c hr
    induction hr with
    | refl a => rintro rfl; exact Reach.refl _
    | step a k c hm hk _ ih =>
      intro hc
      by_cases ha : a = i
      · subst ha; exact Reach.refl _
      · rw [edit_ne b w ha] at hm hk
        exact Reach.step a k i hm hk (ih hc)
  exact key hr rfl

/-- A change by a method that keeps objects as their classes build them. -/
theorem Fine.edit {w : World} (hs : Fine C w) {i : ObjId} {b : Body ObjId} (hm : (w.heap i).mapped = true)
    (hb : Formed b) (hkids : ∀ k ∈ b.subs, k < w.next) (hac : ∀ k ∈ b.subs, ¬ Reach w.heap k i) :
    Fine C (MM.edit i b w) := by
  have hmapped : ∀ j, ((MM.edit i b w).heap j).mapped = (w.heap j).mapped := by
    intro j
    by_cases hj : j = i
    · subst hj; rw [edit_self]
    · rw [edit_ne b w hj]
  have hun : ∀ j, ((MM.edit i b w).heap j).mapped = false → (MM.edit i b w).heap j = w.heap j := by
    intro j hj
    refine edit_ne b w ?_
    rintro rfl
    rw [hmapped, hm] at hj; cases hj
  refine ⟨?_, ?_, ?_, ?_, ?_⟩
  · intro p hp k hk
    by_cases hpi : p = i
    · subst hpi; rw [edit_self] at hk; exact hkids k hk
    · rw [edit_ne b w hpi] at hp hk
      exact hs.kids p hp k hk
  · obtain ⟨rank, hrk⟩ := hs.ranked
    classical
    refine ⟨fun j => rank j + if Reach (MM.edit i b w).heap j i then rankSum rank b.subs + 1 else 0, ?_⟩
    intro p hp k hk
    by_cases hpi : p = i
    · subst hpi
      rw [edit_self] at hk
      simp only at hk ⊢
      rw [if_neg (fun h => hac k hk (reach_of_edit h)), if_pos (Reach.refl _)]
      have := le_rankSum (rank := rank) hk
      oomega
    · have h1 := hp
      have h2 := hk
      rw [edit_ne b w hpi] at h1 h2
      have h3 := hrk p h1 k h2
      simp only
      by_cases hkr : Reach (MM.edit i b w).heap k i
      · rw [if_pos hkr, if_pos (Reach.step p k i hp hk hkr)]
        exact Nat.add_lt_add_right h3 _
      · rw [if_neg hkr]
        exact Nat.lt_of_lt_of_le h3 (Nat.le_add_right _ _)
  · intro j hj
    have e := hun j hj
    rw [e] at hj ⊢
    exact hs.away j hj
  · intro j hj
    have e := hun j hj
    rw [e] at hj
    refine Full.of_same ?_ (hs.full j hj)
    refine look_kept fun k hk => ?_
    rw [reach_unmapped hj hk]
    exact e
  · intro j hj
    by_cases hji : j = i
    · subst hji; rw [edit_self]; exact hb
    · rw [edit_ne b w hji] at hj ⊢; exact hs.formed j hj

/-- Objects that do not contain the changed one have the same content. -/
theorem content_edit {w : World} {i : ObjId} {b : Body ObjId} {j : ObjId} (hj : ¬ Reach w.heap j i) :
    SameContent C w.repo.log w.heap (.mem j) (MM.edit i b w).repo.log (MM.edit i b w).heap (.mem j) :=
  look_edit fun h => hj (reach_of_edit h)

theorem Fine.irrefl {w : World} (hs : Fine C w) {i k : ObjId} (hm : (w.heap i).mapped = true)
    (hk : k ∈ (w.heap i).body.subs) : ¬ Reach w.heap k i := by
  intro hr
  obtain ⟨rank, hrk⟩ := hs.ranked
  have h1 := hrk i hm k hk
  rcases hr.rank hrk with e | e
  · rw [e] at h1; exact absurd h1 (Nat.lt_irrefl _)
  · exact absurd (Nat.lt_trans h1 e) (Nat.lt_irrefl _)

/-! ### Why loading fails -/

/-- Where something is stored, only a failure of git keeps it from being read. -/
theorem decodeG_error {r : Realm} {k : Kind} {loc : Str} {s s' : Repo} {b : Body Link} {e : PyErr}
    (h : decode C s.log r k loc = .ok b) (he : decodeG C r k loc s = (.error e, s')) : e = .runtime := by
  have hcmd : ∀ {α : Type} (f : Log → Except PyErr α) (s : Repo) (a : α), f s.log = .ok a →
      (∃ s', (gitCmd fun L => ([], f L)) s = (.ok a, s') ∧ s'.log = s.log) ∨
        ∃ s', (gitCmd fun L => ([], f L)) s = (.error .runtime, s') := by
    intro α f s a ha
    unfold gitCmd
    split
    · exact Or.inr ⟨_, rfl⟩
    · simp only [ha]; exact Or.inl ⟨_, rfl, rfl⟩
    · simp only [ha]; exact Or.inl ⟨_, rfl, rfl⟩
  by_cases hk : k = .metadata
  · subst hk
    unfold decodeG at he
    simp only at he
    simp only [decode] at h
    obtain ⟨t, h1, h⟩ := ok_bind h
    obtain ⟨ref, h2, h⟩ := ok_bind h
    rcases hcmd (fun L => textAt C L r loc) s t h1 with ⟨s1, e1, l1⟩ | ⟨s1, e1⟩
    · rw [M.bind_of_ok (show gitLoadStr C r loc s = (.ok t, s1) from e1), h2,
        M.bind_of_ok (M.ofExcept_ok ref s1)] at he
      cases hloc : ref.loc with
      | none => rw [hloc] at h; cases h
      | some loc' =>
        rw [hloc] at h he
        simp only at h he
        obtain ⟨t', h3, h⟩ := ok_bind h
        obtain ⟨m, h4, h⟩ := ok_bind h
        rw [← l1] at h3
        rcases hcmd (fun L => textAt C L r loc') s1 t' h3 with ⟨s2, e2, _⟩ | ⟨s2, e2⟩
        · rw [M.bind_of_ok (show gitLoadStr C r loc' s1 = (.ok t', s2) from e2), h4,
            M.bind_of_ok (M.ofExcept_ok m s2)] at he
          cases he
        · rw [M.bind_of_error (show gitLoadStr C r loc' s1 = (.error .runtime, s2) from e2)] at he
          cases he; rfl
    · rw [M.bind_of_error (show gitLoadStr C r loc s = (.error .runtime, s1) from e1)] at he
      cases he; rfl
  · rw [decodeG_ne hk] at he
    rcases hcmd (fun L => decode C L r k loc) s b h with ⟨s1, e1, _⟩ | ⟨s1, e1⟩
    · rw [e1] at he; cases he
    · rw [e1] at he; cases he; rfl

/-- Loading an object that can be read only fails if git fails. -/
theorem Fine.loadError {w w' : World} (hs : Fine C w) {i : ObjId} {e : PyErr}
    (h : ensureMapped C i w = (.error e, w')) : e = .runtime := by
  by_cases hm : (w.heap i).mapped = true
  · rw [ensureMapped_mapped hm] at h; cases h
  · have hm : (w.heap i).mapped = false := by simpa using hm
    obtain ⟨b0, hv0⟩ := view_ok_of_look (hs.full i hm [] [])
    obtain ⟨r, ref, a, h1, h2, h3, _⟩ := (view_away hm).mp hv0
    obtain ⟨r', ref', hrne, h1', h2', hsv⟩ := hs.away i hm
    rw [h1] at h1'; cases h1'
    rw [h2] at h2'; cases h2'
    obtain ⟨hfe, _, _⟩ := strictFetch_ok h3
    have hread : (∃ w1, readIn C i w = (.ok (), w1)) ∨ ∃ w1, readIn C i w = (.error .runtime, w1) := by
      unfold readIn
      rw [M.bind_of_ok (getObj_run i w), if_neg (by simp [hm]), h1, h2]
      simp only
      unfold fetch at hfe
      by_cases hn : ref.isNone = true
      · rw [if_pos hn] at hfe ⊢
        by_cases hcls : ref.cls = (w.heap i).kind.name
        · rw [if_pos hcls] at hfe
          have : (w.heap i).kind ≠ .mrr := by intro e; rw [if_pos e] at hfe; cases hfe
          rw [decide_eq_true hcls, M.bind_of_ok (M.assert_true w), if_neg (fun h => this h.1)]
          exact Or.inl ⟨_, rfl⟩
        · rw [if_neg hcls] at hfe; cases hfe
      · rw [if_neg hn] at hfe ⊢
        have hr0 : r ∈ (w.heap i).savedOn := by
          rcases hsv with h | h
          · exact absurd h hn
          · exact h
        rw [if_neg (by simpa using hr0)]
        by_cases ha : (w.heap i).kind.accepts ref.cls = true
        · rw [if_pos ha] at hfe
          rw [ha, M.bind_of_ok (M.assert_true w)]
          cases hl : ref.loc with
          | none => rw [hl] at hfe; cases hfe
          | some loc =>
            rw [hl] at hfe
            simp only at hfe ⊢
            cases hd : decodeG C r (w.heap i).kind loc w.repo with
            | mk res s1 =>
              have hlift : liftG (decodeG C r (w.heap i).kind loc) w = (res, { w with repo := s1 }) := by
                unfold liftG; rw [hd]
              cases res with
              | error e1 =>
                rw [M.bind_of_error hlift, decodeG_error hfe hd]
                exact Or.inr ⟨_, rfl⟩
              | ok b =>
                rw [M.bind_of_ok hlift]
                obtain ⟨is, w', hal, hrep, _⟩ := allocKids_ok (r := r) b.kids { w with repo := s1 }
                rw [M.bind_of_ok hal]
                exact Or.inl ⟨_, rfl⟩
        · rw [if_neg ha] at hfe; cases hfe
    unfold ensureMapped at h
    rw [M.bind_of_ok (getObj_run i w), if_neg (by simp [hm])] at h
    rcases hread with ⟨w1, h4⟩ | ⟨w1, h4⟩
    · rw [M.bind_of_ok h4, M.bind_of_ok (updObj_run i _ w1)] at h
      cases h
    · rw [M.bind_of_error h4] at h
      cases h; rfl

theorem getChild_error {w w' : World} (hs : Fine C w) {i : ObjId} {n : Str} {e : PyErr}
    (h : getChild C i n w = (.error e, w')) : e = .runtime := by
  unfold getChild at h
  cases h1 : ensureMapped C i w with
  | mk r w1 =>
    cases r with
    | error e1 =>
      rw [M.bind_of_error h1] at h
      cases h
      exact hs.loadError h1
    | ok b => rw [M.bind_of_ok h1, M.bind_of_ok (getObj_run i w1)] at h; cases h

theorem getObjectAt_error (p : List Str) : ∀ {w w' : World}, Fine C w → ∀ {i : ObjId} {e : PyErr}, i < w.next →
    getObjectAt C p i w = (.error e, w') → e = .runtime := by
  induction p with
  | nil => intro w w' _ i e _ h; cases h
  | cons n p ih =>
    intro w w' hs i e hi h
    unfold getObjectAt at h
    rw [M.bind_of_ok (getObj_run i w)] at h
    by_cases hk : (w.heap i).kind.isMtree = true
    · rw [if_pos hk] at h
      cases h1 : getChild C i n w with
      | mk r w1 =>
        cases r with
        | error e1 => rw [M.bind_of_error h1] at h; cases h; exact getChild_error hs h1
        | ok c =>
          rw [M.bind_of_ok h1] at h
          obtain ⟨hl, hm, hc⟩ := getChild_ok hs hi h1
          cases c with
          | none => cases h
          | some j =>
            simp only at h
            have hj : j < w1.next := by
              cases hd : dget (w1.heap i).body.kids (.name n) with
              | none => rw [hd] at hc; cases hc
              | some x =>
                rw [hd] at hc
                cases hc
                exact hl.fine.kids i hm _ (dget_sub (t := x.1) hd)
            exact ih hl.fine hj h
    · rw [if_neg hk] at h; cases h

end MM
