/-
Reading objects: `read_in` and `ensure_mapped`.
-/
import Verif.WriteOk

namespace MM

/-- `omega` for object identifiers. -/
macro "oomega" : tactic => `(tactic| (unfold ObjId at *; omega))

/-! ### Places with the same content -/

theorem all2_dget {α : Type} [DecidableEq α] {β : Type} {ρ : β → β → Prop} {l l' : List (α × (Str × β))}
    (h : All2 (fun e e' => e.1 = e'.1 ∧ e.2.1 = e'.2.1 ∧ ρ e.2.2 e'.2.2) l l') (k : α) :
    (dget l k = none ∧ dget l' k = none) ∨
      ∃ t c c', dget l k = some (t, c) ∧ dget l' k = some (t, c') ∧ ρ c c' := by
  induction h with
  | nil => exact Or.inl ⟨rfl, rfl⟩
  | @cons a b as bs h1 _ ih =>
    obtain ⟨a1, a2, a3⟩ := a
    obtain ⟨b1, b2, b3⟩ := b
    obtain ⟨e1, e2, e3⟩ := h1
    simp only at e1 e2 e3
    subst e1 e2
    by_cases hk : a1 = k
    · right
      exact ⟨a2, a3, b3, by simp [dget, hk], by simp [dget, hk], e3⟩
    · simp only [dget, if_neg hk]
      exact ih

/-- Corresponding places whose parts correspond have the same content. -/
theorem look_bisim {C : Cfg} {L L' : Log} {h h' : Heap} (ρ : Node → Node → Prop)
    (hρ : ∀ n m, ρ n m →
      (∃ e e', view C L h n = .error e ∧ view C L' h' m = .error e') ∨
      ∃ b b', view C L h n = .ok b ∧ view C L' h' m = .ok b' ∧ b.data = b'.data ∧
        All2 (fun e e' => e.1 = e'.1 ∧ e.2.1 = e'.2.1 ∧ ρ e.2.2 e'.2.2) b.kids b'.kids) :
    ∀ ks t n m, ρ n m → look C L h ks t n = look C L' h' ks t m := by
  have hblank : ∀ b b' : Body Node, b.data = b'.data →
      All2 (fun e e' => e.1 = e'.1 ∧ e.2.1 = e'.2.1 ∧ ρ e.2.2 e'.2.2) b.kids b'.kids →
      b.blank = b'.blank := by
    intro b b' hd hk
    unfold Body.blank
    rw [hd]
    cases h1 : b.kids with
    | nil => rw [h1] at hk; cases h2 : b'.kids with
      | nil => rfl
      | cons => rw [h2] at hk; cases hk
    | cons => rw [h1] at hk; cases h2 : b'.kids with
      | nil => rw [h2] at hk; cases hk
      | cons => rfl
  intro ks
  induction ks with
  | nil =>
    intro t n m hnm
    rcases hρ n m hnm with ⟨e, e', h1, h2⟩ | ⟨b, b', h1, h2, hd, hk⟩
    · rw [look_missing_of_view h1, look_missing_of_view h2]
    · rw [look_nil t h1, look_nil t h2, hd, hblank b b' hd hk]
  | cons k ks ih =>
    intro t n m hnm
    rcases hρ n m hnm with ⟨e, e', h1, h2⟩ | ⟨b, b', h1, h2, hd, hk⟩
    · rw [look_missing_of_view h1, look_missing_of_view h2]
    · rw [look_cons h1, look_cons h2]
      rcases all2_dget hk k with ⟨g1, g2⟩ | ⟨t', c, c', g1, g2, hc⟩
      · rw [g1, g2]
      · rw [g1, g2]
        simp only
        rcases hρ c c' hc with ⟨e, e', v1, v2⟩ | ⟨d, d', v1, v2, hd', hk'⟩
        · rw [v1, v2]
        · rw [v1, v2]
          simp only
          rw [hblank d d' hd' hk', ih t' c c' hc]

/-- Stored content does not depend on the objects in memory. -/
theorem look_sto_heap {C : Cfg} {L : Log} {h h' : Heap} (r : Realm) (l : Link) :
    SameContent C L h (.sto r l) L h' (.sto r l) := by
  intro ks t
  refine look_bisim (fun n m => n = m ∧ ∃ r l, n = .sto r l) ?_ ks t _ _ ⟨rfl, r, l, rfl⟩
  rintro n m ⟨rfl, r, l, rfl⟩
  have e : view C L h (.sto r l) = view C L h' (.sto r l) := rfl
  cases hv : view C L h (.sto r l) with
  | error e0 => exact Or.inl ⟨e0, e0, rfl, by rw [← e, hv]⟩
  | ok b =>
    refine Or.inr ⟨b, b, rfl, by rw [← e, hv], rfl, ?_⟩
    obtain ⟨a, _, rfl⟩ := view_sto.mp hv
    rw [Body.map_kids]
    generalize a.kids = l'
    induction l' with
    | nil => exact All2.nil
    | cons x l' ih => exact All2.cons ⟨rfl, rfl, rfl, r, _, rfl⟩ ih

/-- If every place shows the same parts, or has the same content for another reason,
then every place has the same content. -/
theorem look_congr {C : Cfg} {L L' : Log} {h h' : Heap} (P : Node → Prop)
    (hp : ∀ n, P n → (∀ ks t, look C L h ks t n = look C L' h' ks t n) ∨
      (view C L h n = view C L' h' n ∧
        ∀ b, view C L h n = .ok b → ∀ e ∈ b.kids, P e.2.2)) :
    ∀ ks t n, P n → look C L h ks t n = look C L' h' ks t n := by
  have key : ∀ n, P n → look C L h [] [] n = look C L' h' [] [] n := by
    intro n hn
    rcases hp n hn with h1 | ⟨h1, _⟩
    · exact h1 [] []
    · simp only [look, h1]
  have vkey : ∀ n, P n → (∃ e e', view C L h n = .error e ∧ view C L' h' n = .error e') ∨
      ∃ b b', view C L h n = .ok b ∧ view C L' h' n = .ok b' ∧ b.blank = b'.blank := by
    intro n hn
    have := key n hn
    cases h1 : view C L h n with
    | error e =>
      rw [look_missing_of_view h1] at this
      cases h2 : view C L' h' n with
      | error e' => exact Or.inl ⟨e, e', rfl, rfl⟩
      | ok b' => rw [look_nil [] h2] at this; cases this
    | ok b =>
      rw [look_nil [] h1] at this
      cases h2 : view C L' h' n with
      | error e' => rw [look_missing_of_view h2] at this; cases this
      | ok b' =>
        rw [look_nil [] h2] at this
        injection this with _ _ h3
        exact Or.inr ⟨b, b', rfl, rfl, h3⟩
  intro ks
  induction ks with
  | nil =>
    intro t n hn
    rcases hp n hn with h1 | ⟨h1, _⟩
    · exact h1 [] t
    · simp only [look, h1]
  | cons k ks ih =>
    intro t n hn
    rcases hp n hn with h1 | ⟨h1, h2⟩
    · exact h1 (k :: ks) t
    · cases hv : view C L h n with
      | error e => rw [look_missing_of_view hv, look_missing_of_view (h1 ▸ hv)]
      | ok b =>
        have hv' : view C L' h' n = .ok b := by rw [← h1]; exact hv
        rw [look_cons hv, look_cons hv']
        cases hd : dget b.kids k with
        | none => rfl
        | some x =>
          obtain ⟨t', c⟩ := x
          have hc : P c := h2 b hv _ (mem_of_dget hd)
          simp only
          rcases vkey c hc with ⟨e, e', v1, v2⟩ | ⟨d, d', v1, v2, hb⟩
          · rw [v1, v2]
          · rw [v1, v2]
            simp only
            rw [hb, ih t' c hc]

/-! ### What reading does -/

/-- Reading does not change repositories. -/
theorem gitCmd_read {α : Type} {f : Log → Except PyErr α} (s : Repo) :
    ((gitCmd fun L => ([], f L)) s).2.log = s.log := by
  unfold gitCmd
  split <;> simp

theorem gitCmd_read_ok {α : Type} {f : Log → Except PyErr α} {s s' : Repo} {a : α}
    (h : (gitCmd fun L => ([], f L)) s = (.ok a, s')) : f s.log = .ok a ∧ s'.log = s.log := by
  obtain ⟨h1, h2⟩ := gitCmd_ok h
  exact ⟨h1, by simpa using h2⟩

theorem decodeG_ne {C : Cfg} {r : Realm} {k : Kind} {loc : Str} (hk : k ≠ .metadata) :
    decodeG C r k loc = gitCmd fun L => ([], decode C L r k loc) := by
  cases k <;> first | rfl | exact absurd rfl hk

theorem decodeG_log (C : Cfg) (r : Realm) (k : Kind) (loc : Str) :
    M.Keeps (decodeG C r k loc) (fun s s' => s'.log = s.log) := by
  by_cases hk : k = .metadata
  · subst hk
    have hr : ∀ s : Repo, s.log = s.log := fun _ => rfl
    have ht : ∀ a b c : Repo, b.log = a.log → c.log = b.log → c.log = a.log :=
      fun _ _ _ h1 h2 => h2.trans h1
    unfold decodeG
    refine M.Keeps.bind ht (fun s => gitCmd_read s) fun s => ?_
    refine M.Keeps.bind ht (M.Keeps.ofExcept hr _) fun ref => ?_
    split
    · exact M.Keeps.raise hr _
    · refine M.Keeps.bind ht (fun s => gitCmd_read s) fun s => ?_
      exact M.Keeps.bind ht (M.Keeps.ofExcept hr _) fun ref => M.Keeps.pure hr _
  · rw [decodeG_ne hk]
    exact fun s => gitCmd_read s

theorem decodeG_ok {C : Cfg} {r : Realm} {k : Kind} {loc : Str} {s s' : Repo} {b : Body Link}
    (h : decodeG C r k loc s = (.ok b, s')) : decode C s.log r k loc = .ok b ∧ s'.log = s.log := by
  have hl := decodeG_log C r k loc s
  rw [h] at hl
  refine ⟨?_, hl⟩
  by_cases hk : k = .metadata
  · subst hk
    unfold decodeG at h
    simp only at h
    obtain ⟨t, s1, e1, ha⟩ := M.bind_ok h
    obtain ⟨h1, l1⟩ := gitCmd_read_ok e1
    obtain ⟨ref, s2, e2, hb⟩ := M.bind_ok ha
    obtain ⟨h2, e2'⟩ := M.ofExcept_eq_ok e2
    rw [e2'] at hb
    simp only [decode]
    rw [bind_of_eq_ok _ h1, bind_of_eq_ok _ h2]
    cases hloc : ref.loc with
    | none => rw [hloc] at hb; cases hb
    | some loc' =>
      rw [hloc] at hb
      obtain ⟨t', s3, e3, hc⟩ := M.bind_ok hb
      obtain ⟨h3, l3⟩ := gitCmd_read_ok e3
      obtain ⟨m, s4, e4, hd⟩ := M.bind_ok hc
      obtain ⟨h4, _⟩ := M.ofExcept_eq_ok e4
      rw [l1] at h3
      simp only
      rw [bind_of_eq_ok _ h3, bind_of_eq_ok _ h4]
      simp only [M.pure_run, Prod.mk.injEq] at hd
      exact hd.1
  · rw [decodeG_ne hk] at h
    exact (gitCmd_read_ok h).1

/-- Without failures of git, reading gives what is stored. -/
theorem decodeG_total {C : Cfg} {r : Realm} {k : Kind} {loc : Str} {s : Repo} {b : Body Link}
    (hf : s.faults = []) (h : decode C s.log r k loc = .ok b) :
    decodeG C r k loc s = (.ok b, s) := by
  have hcmd : ∀ {α : Type} (f : Log → Except PyErr α), (gitCmd fun L => ([], f L)) s = (f s.log, s) := by
    intro α f
    unfold gitCmd
    rw [hf]
    obtain ⟨log, faults⟩ := s
    simp only at hf
    subst hf
    rfl
  by_cases hk : k = .metadata
  · subst hk
    unfold decodeG
    simp only
    simp only [decode] at h
    obtain ⟨t, h1, h⟩ := ok_bind h
    obtain ⟨ref, h2, h⟩ := ok_bind h
    have e1 : gitLoadStr C r loc s = (.ok t, s) := by
      unfold gitLoadStr; rw [hcmd, h1]
    rw [M.bind_of_ok e1, h2, M.bind_of_ok (M.ofExcept_ok ref s)]
    cases hloc : ref.loc with
    | none => rw [hloc] at h; cases h
    | some loc' =>
      rw [hloc] at h
      simp only at h ⊢
      obtain ⟨t', h3, h⟩ := ok_bind h
      obtain ⟨m, h4, h⟩ := ok_bind h
      have e3 : gitLoadStr C r loc' s = (.ok t', s) := by
        unfold gitLoadStr; rw [hcmd, h3]
      rw [M.bind_of_ok e3, h4, M.bind_of_ok (M.ofExcept_ok m s)]
      injection h with h
      subst h
      rfl
  · rw [decodeG_ne hk, hcmd, h]

/-- New objects for sub-objects: they do not touch the others. -/
theorem allocKids_ok {r : Realm} : ∀ (ks : List (Key × (Str × Link))) (w : World),
    ∃ is w', allocKids r ks w = (.ok is, w') ∧ w'.repo = w.repo ∧ w'.caches = w.caches ∧
      w'.refs = w.refs ∧ w.next ≤ w'.next ∧ (∀ j, j < w.next → w'.heap j = w.heap j) ∧
      (∀ j, w'.next ≤ j → w'.heap j = w.heap j) ∧
      All2 (fun e e' => e.1 = e'.1 ∧ e.2.1 = e'.2.1 ∧ w.next ≤ e'.2.2 ∧ e'.2.2 < w'.next ∧
        w'.heap e'.2.2 = e.2.2.obj r) ks is ∧
      (∀ j, w.next ≤ j → j < w'.next → ∃ e ∈ ks, w'.heap j = e.2.2.obj r) ∧
      (is.map fun e => e.2.2).Nodup := by
  intro ks
  induction ks with
  | nil =>
    intro w
    refine ⟨[], w, rfl, rfl, rfl, rfl, Nat.le_refl _, fun _ _ => rfl, fun _ _ => rfl, All2.nil, ?_,
      List.nodup_nil⟩
    intro j h1 h2
    exact absurd (Nat.lt_of_le_of_lt h1 h2) (Nat.lt_irrefl _)
  | cons e ks ih =>
    intro w
    obtain ⟨k, t, l⟩ := e
    let w1 : World := { w with heap := w.heap.set w.next (l.obj r), next := w.next + 1 }
    obtain ⟨is, w', h1, h2, h3, h4, h5, h6, h7, h8, h9, h10⟩ := ih w1
    have hn1 : w1.next = w.next + 1 := rfl
    refine ⟨(k, t, w.next) :: is, w', ?_, h2, h3, h4, by oomega, ?_, ?_, ?_, ?_, ?_⟩
    · unfold allocKids
      rw [M.bind_of_ok (show alloc (l.obj r) w = (.ok w.next, w1) from rfl), M.bind_of_ok h1]
      rfl
    · intro j hj
      rw [h6 j (by oomega)]
      exact Heap.set_ne (by oomega)
    · intro j hj
      rw [h7 j hj]
      exact Heap.set_ne (by oomega)
    · refine All2.cons ⟨rfl, rfl, Nat.le_refl _, Nat.lt_of_lt_of_le (Nat.lt_succ_self _) h5, ?_⟩ (all2_imp ?_ h8)
      · rw [h6 w.next (by oomega)]
        show (w.heap.set w.next (l.obj r)) w.next = _
        simp
      · rintro a _ b ⟨g1, g2, g3, g4, g5⟩
        exact ⟨g1, g2, by oomega, g4, g5⟩
    · intro j g1 g2
      by_cases hj : j = w.next
      · refine ⟨(k, t, l), List.mem_cons_self .., ?_⟩
        subst hj
        rw [h6 w.next (by oomega)]
        show (w.heap.set w.next (l.obj r)) w.next = _
        simp
      · obtain ⟨e, he, h⟩ := h9 j (by oomega) g2
        exact ⟨e, List.mem_cons_of_mem _ he, h⟩
    · rw [List.map_cons]
      refine List.nodup_cons.mpr ⟨fun hm => ?_, h10⟩
      obtain ⟨x, hx, e⟩ := List.mem_map.mp hm
      obtain ⟨_, _, g⟩ := all2_right h8 hx
      have := g.2.2.1
      simp only at e
      oomega

/-- How `ensure_mapped` ends for an object that is not loaded: an error that changes
nothing, an empty object for a none reference, or the stored content with new
objects for its parts. -/
inductive ReadCase (C : Cfg) (i : ObjId) (w : World) (w' : World) : Except PyErr Bool → Prop
  | failed (e : PyErr) : w'.heap = w.heap → w'.next = w.next → w'.repo.log = w.repo.log →
      w'.caches = w.caches → ReadCase C i w w' (.error e)
  | none (r : Realm) (ref : Ref) : (w.heap i).realm = some r → (w.heap i).ref = some ref →
      ref.isNone = true → ref.cls = (w.heap i).kind.name → w'.repo.log = w.repo.log →
      w'.caches = w.caches → w'.next = w.next →
      w'.heap = w.heap.set i { w.heap i with mapped := true, body := (w.heap i).body.purged } →
      ReadCase C i w w' (.ok true)
  | read (r : Realm) (ref : Ref) (loc : Str) (b : Body Link) (is : List (Key × (Str × ObjId)))
      (so : List Realm) :
      (w.heap i).realm = some r → (w.heap i).ref = some ref → ref.isNone = false →
      ref.loc = some loc → r ∈ (w.heap i).savedOn → (w.heap i).kind.accepts ref.cls = true →
      decode C w.repo.log r (w.heap i).kind loc = .ok b → w'.repo.log = w.repo.log →
      w'.caches = w.caches → w.next ≤ w'.next →
      (∀ j, j ≠ i → j < w.next → w'.heap j = w.heap j) →
      (∀ j, j ≠ i → w'.next ≤ j → w'.heap j = w.heap j) →
      All2 (fun e e' => e.1 = e'.1 ∧ e.2.1 = e'.2.1 ∧ w.next ≤ e'.2.2 ∧ e'.2.2 < w'.next ∧
        (e'.2.2 ≠ i → w'.heap e'.2.2 = e.2.2.obj r)) b.kids is →
      (∀ j, j ≠ i → w.next ≤ j → j < w'.next → ∃ e ∈ b.kids, w'.heap j = e.2.2.obj r) →
      so = (if (w.heap i).kind = .mrr then [r] else (w.heap i).savedOn) →
      w'.heap i = ⟨true, some r, some ⟨(w.heap i).kind.name, some loc⟩, so, ⟨b.data, is⟩⟩ →
      (is.map fun e => e.2.2).Nodup → ReadCase C i w w' (.ok true)

theorem ensureMapped_mapped {C : Cfg} {i : ObjId} {w : World} (hm : (w.heap i).mapped = true) :
    ensureMapped C i w = (.ok false, w) := by
  unfold ensureMapped
  rw [M.bind_of_ok (getObj_run i w), if_pos hm]
  rfl

theorem ensureMapped_cases (C : Cfg) (i : ObjId) (w : World) (hm : (w.heap i).mapped = false) :
    ReadCase C i w (ensureMapped C i w).2 (ensureMapped C i w).1 := by
  have herr : ∀ e w1, readIn C i w = (.error e, w1) → w1.heap = w.heap → w1.next = w.next →
      w1.repo.log = w.repo.log → w1.caches = w.caches →
      ReadCase C i w (ensureMapped C i w).2 (ensureMapped C i w).1 := by
    intro e w1 h h1 h2 h3 h4
    have : ensureMapped C i w = (.error e, w1) := by
      unfold ensureMapped
      rw [M.bind_of_ok (getObj_run i w), if_neg (by simp [hm])]
      exact M.bind_of_error h
    rw [this]
    exact ReadCase.failed e h1 h2 h3 h4
  have hok : ∀ w1, readIn C i w = (.ok (), w1) → ensureMapped C i w =
      (.ok true, { w1 with heap := w1.heap.set i { w1.heap i with mapped := true } }) := by
    intro w1 h
    unfold ensureMapped
    rw [M.bind_of_ok (getObj_run i w), if_neg (by simp [hm]), M.bind_of_ok h,
      M.bind_of_ok (updObj_run i _ w1)]
    rfl
  cases hr : (w.heap i).realm with
  | none =>
    refine herr .assertion w ?_ rfl rfl rfl rfl
    unfold readIn
    rw [M.bind_of_ok (getObj_run i w), if_neg (by simp [hm]), hr]
    rfl
  | some r =>
    cases hf : (w.heap i).ref with
    | none =>
      refine herr .assertion w ?_ rfl rfl rfl rfl
      unfold readIn
      rw [M.bind_of_ok (getObj_run i w), if_neg (by simp [hm]), hr, hf]
      rfl
    | some ref =>
      have e0 : readIn C i w = (if ref.isNone then do
          M.assert (ref.cls = (w.heap i).kind.name)
          if (w.heap i).kind = .mrr ∧ dget (w.heap i).body.kids .dlm = none then M.raise .attribute
          else setObj i { w.heap i with body := (w.heap i).body.purged }
        else if r ∉ (w.heap i).savedOn then M.raise .runtime
        else do
          M.assert ((w.heap i).kind.accepts ref.cls)
          match ref.loc with
          | none => M.raise .type
          | some loc => do
            let b ← liftG (decodeG C r (w.heap i).kind loc)
            let ks ← allocKids r b.kids
            setObj i { mapped := true
                       realm := some r
                       ref := some ⟨(w.heap i).kind.name, some loc⟩
                       savedOn := if (w.heap i).kind = .mrr then [r] else (w.heap i).savedOn
                       body := ⟨b.data, ks⟩ }) w := by
        unfold readIn
        rw [M.bind_of_ok (getObj_run i w), if_neg (by simp [hm])]
        simp only [hr, hf]
        rfl
      by_cases hn : ref.isNone = true
      · rw [if_pos hn] at e0
        by_cases hcls : ref.cls = (w.heap i).kind.name
        · rw [show decide (ref.cls = (w.heap i).kind.name) = true from decide_eq_true hcls,
            M.bind_of_ok (M.assert_true w)] at e0
          by_cases hmrr : (w.heap i).kind = .mrr ∧ dget (w.heap i).body.kids .dlm = none
          · rw [if_pos hmrr] at e0
            exact herr .attribute w e0 rfl rfl rfl rfl
          · rw [if_neg hmrr, setObj_run] at e0
            rw [hok _ e0]
            refine ReadCase.none r ref hr hf hn hcls rfl rfl rfl ?_
            funext j
            by_cases hj : j = i
            · subst hj; simp
            · simp [Heap.set_ne hj]
        · rw [show decide (ref.cls = (w.heap i).kind.name) = false from decide_eq_false hcls] at e0
          exact herr .assertion w (e0.trans (M.bind_of_error (M.assert_false w))) rfl rfl rfl rfl
      · rw [if_neg hn] at e0
        by_cases hs : r ∈ (w.heap i).savedOn
        · rw [if_neg (by simpa using hs)] at e0
          by_cases hacc : (w.heap i).kind.accepts ref.cls = true
          · rw [hacc, M.bind_of_ok (M.assert_true w)] at e0
            cases hloc : ref.loc with
            | none => rw [hloc] at e0; exact herr .type w e0 rfl rfl rfl rfl
            | some loc =>
              rw [hloc] at e0
              simp only at e0
              have hlog := decodeG_log C r (w.heap i).kind loc w.repo
              cases hx : decodeG C r (w.heap i).kind loc w.repo with
              | mk res s =>
                rw [hx] at hlog
                simp only at hlog
                have hlift : liftG (decodeG C r (w.heap i).kind loc) w = (res, { w with repo := s }) := by
                  unfold liftG; rw [hx]
                cases res with
                | error e =>
                  rw [M.bind_of_error hlift] at e0
                  exact herr e _ e0 rfl rfl hlog rfl
                | ok b =>
                  rw [M.bind_of_ok hlift] at e0
                  obtain ⟨is, w1, h1, h2, h3, h4, h5, h6, h7, h8, h9, h10⟩ :=
                    allocKids_ok (r := r) b.kids { w with repo := s }
                  rw [M.bind_of_ok h1, setObj_run] at e0
                  rw [hok _ e0]
                  have hni : ∀ j, j ≠ i → ∀ o o' : Obj, ((w1.heap.set i o).set i o') j = w1.heap j := by
                    intro j hj o o'; rw [Heap.set_ne hj, Heap.set_ne hj]
                  refine ReadCase.read r ref loc b is _ hr hf (by simpa using hn) hloc hs hacc
                    (decodeG_ok hx).1 ?_ h3 h5 ?_ ?_ ?_ ?_ rfl ?_ h10
                  · show w1.repo.log = _
                    rw [h2]; exact hlog
                  · intro j hj hlt
                    show ((w1.heap.set i _).set i _) j = _
                    rw [hni j hj]
                    exact h6 j hlt
                  · intro j hj hlt
                    show ((w1.heap.set i _).set i _) j = _
                    rw [hni j hj]
                    exact h7 j hlt
                  · refine all2_imp ?_ h8
                    rintro a _ b ⟨g1, g2, g3, g4, g5⟩
                    refine ⟨g1, g2, g3, g4, fun hne => ?_⟩
                    show ((w1.heap.set i _).set i _) b.2.2 = _
                    rw [hni _ hne]
                    exact g5
                  · intro j hj g1 g2
                    obtain ⟨e, he, g⟩ := h9 j g1 g2
                    refine ⟨e, he, ?_⟩
                    show ((w1.heap.set i _).set i _) j = _
                    rw [hni j hj]
                    exact g
                  · simp
          · have : (w.heap i).kind.accepts ref.cls = false := by simpa using hacc
            rw [this] at e0
            exact herr .assertion w (e0.trans (M.bind_of_error (M.assert_false w))) rfl rfl rfl rfl
        · rw [if_pos hs] at e0
          exact herr .runtime w e0 rfl rfl rfl rfl

end MM
