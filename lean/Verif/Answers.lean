/-
While git works, requests for root records are answered, and elements are added, in a process whose content
is trim.
-/
import Verif.Kempt
import Verif.WriteTotal
import Verif.Props.Tree

namespace MM

variable {C : Cfg} {r : Realm}

/-! ### Git goes on working -/

private theorem won_trans : ∀ a b c : World, WorksOn a b → WorksOn b c → WorksOn a c := fun _ _ _ h h' h0 => h' (h h0)

theorem worksOn_allocKids (x : Realm) (ks : List (Key × (Str × Link))) : M.Keeps (allocKids x ks) WorksOn := by
  induction ks with
  | nil => exact fun w h => h
  | cons k ks ih =>
    unfold allocKids
    exact M.Keeps.bind won_trans (fun w h => h) fun i => M.Keeps.bind won_trans ih fun is w h => h

theorem liftG_bind_run {α β : Type} (g : G α) (f : α → G β) (w : World) :
    liftG (g >>= f) w = (liftG g >>= fun a => liftG (f a)) w := by
  rw [M.bind_run]
  show (match (g >>= f) w.repo with | (r, s) => (r, { w with repo := s })) = _
  rw [M.bind_run]
  unfold liftG
  rcases g w.repo with ⟨_ | a, s⟩ <;> rfl

theorem worksOn_decode (C : Cfg) (x : Realm) (k : Kind) (loc : Str) : M.Keeps (liftG (decodeG C x k loc)) WorksOn := by
  by_cases hk : k = .metadata
  · subst hk
    intro w
    unfold decodeG
    rw [liftG_bind_run]
    refine M.Keeps.bind won_trans (fun w h => works_liftG_cmd h) (fun s w => ?_) w
    rw [liftG_bind_run]
    refine M.Keeps.bind won_trans (fun w h => ?_) (fun ref w => ?_) w
    · unfold liftG M.ofExcept; cases Ref.fromText C.floats s <;> exact h
    · cases ref.loc with
      | none => exact fun h => h
      | some l =>
        simp only
        rw [liftG_bind_run]
        refine M.Keeps.bind won_trans (fun w h => works_liftG_cmd h) (fun s w => ?_) w
        rw [liftG_bind_run]
        refine M.Keeps.bind won_trans (fun w h => ?_) (fun m w h => h) w
        unfold liftG M.ofExcept; cases Sets.fromText C.floats s <;> exact h
  · rw [decodeG_ne hk]
    exact fun w h => works_liftG_cmd h

theorem worksOn_read (C : Cfg) (i : ObjId) : M.Keeps (readIn C i) WorksOn := by
  unfold readIn
  refine M.Keeps.bind won_trans (fun w h => h) fun o => ?_
  split
  · exact fun w h => h
  · split
    · split
      · refine M.Keeps.bind won_trans (fun w h => ?_) fun _ => ?_
        · unfold M.assert; split <;> exact h
        · split <;> exact fun w h => h
      · split
        · exact fun w h => h
        · refine M.Keeps.bind won_trans (fun w h => ?_) fun _ => ?_
          · unfold M.assert; split <;> exact h
          · split
            · exact fun w h => h
            · exact M.Keeps.bind won_trans (worksOn_decode C _ _ _) fun b =>
                M.Keeps.bind won_trans (worksOn_allocKids _ _) fun ks w h => h
    · exact fun w h => h

theorem worksOn_load (C : Cfg) (i : ObjId) : M.Keeps (ensureMapped C i) WorksOn := by
  unfold ensureMapped
  refine M.Keeps.bind won_trans (fun w h => h) fun o => ?_
  split
  · exact fun w h => h
  · exact M.Keeps.bind won_trans (worksOn_read C i) fun _ w h => h

theorem worksOn_getChild (C : Cfg) (i : ObjId) (n : Str) : M.Keeps (getChild C i n) WorksOn := by
  unfold getChild
  exact M.Keeps.bind won_trans (worksOn_load C i) fun _ w h => h

theorem worksOn_addChild (C : Cfg) (i : ObjId) (n : Str) (x : ObjId) : M.Keeps (addChild C i n x) WorksOn := by
  unfold addChild
  refine M.Keeps.bind won_trans (fun w h => ?_) fun _ => M.Keeps.bind won_trans (fun w h => ?_) fun _ =>
    M.Keeps.bind won_trans (worksOn_load C i) fun _ => M.Keeps.bind won_trans (fun w h => h) fun o => ?_
  · unfold M.assert; split <;> exact h
  · unfold M.assert; split <;> exact h
  · split
    · exact fun w h => h
    · intro w h
      rw [change_run]
      exact h

theorem worksOn_addChildAt (C : Cfg) (x : ObjId) (p : List Str) : ∀ i, M.Keeps (addChildAt C x p i) WorksOn := by
  induction p with
  | nil => intro i w h; exact h
  | cons n p ih =>
    intro i
    cases p with
    | nil =>
      unfold addChildAt
      refine M.Keeps.bind won_trans (worksOn_getChild C i n) fun e => ?_
      split
      · refine M.Keeps.bind won_trans (fun w h => h) fun o => ?_
        split
        · exact fun w h => h
        · exact worksOn_addChild C i n x
      · exact worksOn_addChild C i n x
    | cons n' p =>
      unfold addChildAt
      refine M.Keeps.bind won_trans (worksOn_getChild C i n) fun e => ?_
      split
      · refine M.Keeps.bind won_trans (fun w h => h) fun o => ?_
        split
        · exact ih _
        · exact fun w h => h
      · exact M.Keeps.bind won_trans (fun w h => h) fun o => M.Keeps.bind won_trans (fun w h => h) fun e =>
          M.Keeps.bind won_trans (worksOn_addChild C i n e) fun _ => ih e

theorem repo_same {w w' : World} (hl : w'.repo.log = w.repo.log) (h : w.repo.faults = []) (h' : w'.repo.faults = []) :
    w'.repo = w.repo := by
  cases hw : w.repo with
  | mk l f =>
    cases hw' : w'.repo with
    | mk l' f' =>
      rw [hw, hw'] at hl; rw [hw] at h; rw [hw'] at h'
      simp only at hl h h'
      rw [hl, h, h']

/-! ### Paths in trees of datasets -/

/-- What is found behind something is found only if that is found. -/
theorem look_front {L : Log} {h : Heap} {k : Key} (ks : List Key) : ∀ {n : Node} {t s : Str} {d : Data} {b : Bool},
    look C L h (ks ++ [k]) t n = .found s d b → ∃ s' d' b', look C L h ks t n = .found s' d' b' := by
  induction ks with
  | nil =>
    intro n t s d b hl
    cases hv : view C L h n with
    | error e => rw [look_missing_of_view hv] at hl; cases hl
    | ok b => exact ⟨_, _, _, look_nil t hv⟩
  | cons k0 ks ih =>
    intro n t s d b hl
    cases hv : view C L h n with
    | error e => rw [look_missing_of_view hv] at hl; cases hl
    | ok bn =>
      rw [List.cons_append, look_cons hv] at hl
      rw [look_cons hv]
      cases hx : dget bn.kids k0 with
      | none => rw [hx] at hl; cases hl
      | some x =>
        rw [hx] at hl
        obtain ⟨t', c⟩ := x
        simp only at hl ⊢
        cases hc : view C L h c with
        | error e => rw [hc] at hl; cases hl
        | ok b' =>
          rw [hc] at hl
          simp only at hl ⊢
          split at hl
          · cases hl
          · rename_i hne
            rw [if_neg hne]
            exact ih hl

theorem snocRec {α : Type} {P : List α → Prop} (nil : P []) (snoc : ∀ a x, P a → P (a ++ [x])) (a : List α) : P a := by
  have key : ∀ n (a : List α), a.length = n → P a := by
    intro n
    induction n with
    | zero => intro a ha; rw [List.length_eq_zero_iff.mp ha]; exact nil
    | succ n ih =>
      intro a ha
      have hne : a ≠ [] := by rintro rfl; cases ha
      rw [← List.dropLast_concat_getLast hne]
      exact snoc _ _ (ih _ (by simp [ha]))
  exact key a.length a rfl

theorem Kempt.onPath {X : ObjId → Prop} {w : World} (h : Kempt C r X w) (hf : Fine C w) {dt : ObjId} (hd : dt < w.next)
    (hk : (w.heap dt).kind = .mtree .mrr) (a : List Str) : rootRecordName ∉ a → ∀ {t s : Str} {d : Data} {b : Bool},
    look C w.repo.log w.heap (names a) t (.mem dt) = .found s d b → d.kind = .mtree .mrr := by
  induction a using snocRec with
  | nil =>
    intro _ t s d b hl
    exact (look_kind hl).trans hk
  | snoc a x ih =>
    intro hn t s d b hl
    have hl' := hl
    rw [names_append] at hl
    obtain ⟨s', d', b', h1⟩ := look_front _ hl
    have h2 := ih (fun e => hn (by simp [e])) h1
    have := (h.form hf (names a) dt hd (.name x) t s' d' b' s d b h1 hl).1 h2
    rw [this, if_neg]
    intro e
    cases e
    exact hn (by simp)

theorem Kempt.atRecord {X : ObjId → Prop} {w : World} (h : Kempt C r X w) (hf : Fine C w) {dt : ObjId} (hd : dt < w.next)
    (hk : (w.heap dt).kind = .mtree .mrr) {a : List Str} (ha : rootRecordName ∉ a) {t s : Str} {d : Data} {b : Bool}
    (hl : look C w.repo.log w.heap (names (a ++ [rootRecordName])) t (.mem dt) = .found s d b) : d.kind = .mrr := by
  rw [names_append] at hl
  obtain ⟨s', d', b', h1⟩ := look_front _ hl
  have := (h.form hf (names a) dt hd (.name rootRecordName) t s' d' b' s d b h1 hl).1 (h.onPath hf hd hk a ha h1)
  rw [this, if_pos rfl]

/-- Nothing is in the way of a record. -/
theorem Kempt.free {X : ObjId → Prop} {w : World} (h : Kempt C r X w) (hf : Fine C w) {dt : ObjId} (hd : dt < w.next)
    (hk : (w.heap dt).kind = .mtree .mrr) {path : List Str} (hp : rootRecordName ∉ path)
    (ha : look C w.repo.log w.heap (names (path ++ [rootRecordName])) [] (.mem dt) = .absent) :
    ¬ Blocked C w dt (path ++ [rootRecordName]) := by
  rintro ⟨a, b, t, d, e, h1, h2, h3, h4⟩
  by_cases hb : b = []
  · rw [hb, List.append_nil] at h1
    rw [← h1, ha] at h3
    cases h3
  · have hm := h4.resolve_left hb
    have hna : rootRecordName ∉ a := by
      intro hin
      obtain ⟨b', y, rfl⟩ : ∃ b' y, b = b' ++ [y] := ⟨b.dropLast, b.getLast hb, (List.dropLast_concat_getLast hb).symm⟩
      rw [← List.append_assoc] at h1
      have := List.append_inj_left' h1 rfl
      exact hp (by rw [this]; simp [hin])
    rw [h.onPath hf hd hk a hna h3] at hm
    cases hm

/-! ### Requests -/

/-- A process that works with trim content -/
structure Live (C : Cfg) (r : Realm) (t u : ObjId) (X : ObjId → Prop) (w : World) : Prop where
  desk : Desk C r t u w
  tidy : Kempt C r X w
  trees : HashTrees w.repo.log r

variable {t u : ObjId} {X : ObjId → Prop}

theorem Live.loads {w w' : World} (hr : r ≠ []) (l : Live C r t u X w) (hl : Loads C w w') :
    Live C r t u X w' :=
  ⟨l.desk.loads hr hl, l.tidy.loads hr l.desk l.trees hl, by rw [hl.log]; exact l.trees⟩

theorem Live.treeKind {w : World} (l : Live C r t u X w) {v : Str} {p : PPath} {dt : ObjId} (h : VerAt w t v p dt) :
    (w.heap dt).kind = .mtree .mrr :=
  h.part.elim fun _ hp => (l.tidy.edge t h.lt h.mapped _ (mem_of_dget hp)).2.2 l.desk.tk

theorem Live.mono {Y : ObjId → Prop} {w : World} (l : Live C r t u X w)
    (h : ∀ j, X j → Y j ∨ ((w.heap j).mapped = true ∧ (w.heap j).body.kids ≠ [])) : Live C r t u Y w := by
  refine ⟨l.desk, l.tidy.mono fun j hj => ?_, l.trees⟩
  rcases h j hj with g | ⟨g1, g2⟩
  · exact Or.inl g
  · right
    intro t s d b hl
    rw [look_nil t (view_mapped g1)] at hl
    cases hl
    unfold Body.blank Body.map
    simp [g2]

/-- However it ends -/
theorem Live.listFor_any {w w' : World} (hr : r ≠ []) (l : Live C r t u X w) (auto : Option Bool) (id : Uuid)
    {res : Except PyErr (Option ObjId)} (h : MM.listFor C auto u id w = (res, w')) : Live C r t u X w' := by
  have d' := l.desk.listFor hr auto id h
  have hc := listFor_case l.desk.sound.fine auto l.desk.ul id
  rw [h] at hc
  cases hc with
  | failed _ hl => exact l.loads hr hl
  | none _ hl => exact l.loads hr hl
  | found _ _ _ hl => exact l.loads hr hl
  | made w1 hl hm hn ha hd =>
    have l1 := l.desk.loads hr hl
    have t1 := l.tidy.loads hr l.desk l.trees hl
    have hne : u ≠ w1.next := Nat.ne_of_lt l1.ul
    have h5 : (MM.create (Obj.new (Body.empty .vlist)) w1).heap u = w1.heap u := create_ne _ _ hne
    refine ⟨d', ?_, by show HashTrees w1.repo.log r; rw [hl.log]; exact l.trees⟩
    have f2 := (l1.create (b := Body.empty .vlist) trivial rfl).1
    refine (t1.create (b := Body.empty .vlist) l1.sound.fine rfl).extend f2.sound.fine f2.ul (by rw [h5]; exact hm)
      (by rw [h5]; rfl) (fun _ hx => hx) (fun e => ?_) (fun e he => ?_)
    · exfalso
      have := dget_dset_self (w1.heap u).body.kids (.uuid id) (([], w1.next) : Str × ObjId)
      rw [show dset (w1.heap u).body.kids (.uuid id) ([], w1.next) = [] from e] at this
      cases this
    · rcases mem_dset he with rfl | he
      · right
        refine edge_small ⟨fun e => absurd (d'.uk.symm.trans e) (by decide), fun e => absurd (d'.uk.symm.trans e) (by decide)⟩
          fun _ => ?_
        · show ((MM.edit u _ _).heap w1.next).kind.isMtree = false
          rw [edit_ne _ _ hne.symm, create_self]; rfl
      · left; rw [h5]; exact he

theorem Live.listFor {w : World} (hr : r ≠ []) (l : Live C r t u X w) (hf : w.repo.faults = []) (auto : Option Bool) (id : Uuid) :
    ∃ o w', MM.listFor C auto u id w = (.ok o, w') ∧ Live C r t u X w' ∧ w'.repo = w.repo ∧
      (noCreate auto = false → o ≠ none) := by
  obtain ⟨o, w', h, hrep⟩ := listFor_total l.desk.sound.fine hf auto l.desk.ul id
  refine ⟨o, w', h, l.listFor_any hr auto id h, hrep, ?_⟩
  · rintro hn rfl
    have := ((listFor_run l.desk.sound auto l.desk.ul l.desk.uk id h).2.2.2.2.1 rfl).2.1
    rw [hn] at this; cases this

/-- However it ends: the only thing that may be empty afterwards is a dataset tree made by this call, which
needs no git command to be changed. -/
theorem Live.treeFor_any {w w' : World} (hr : r ≠ []) (l : Live C r t u X w) (auto : Option Bool) (now v : Str) {p : PPath}
    (hp : Canonical p) {res : Except PyErr (Option ObjId)} (h : MM.treeFor C auto now t v p w = (res, w')) :
    Live C r t u X w' ∨ ∃ dt, res = .ok (some dt) ∧ noCreate auto = false ∧
      look C w.repo.log w.heap [.ver v p] [] (.mem t) = .absent ∧ (w'.heap dt).mapped = true ∧ (w'.heap dt).body.kids = [] ∧
      Live C r t u (fun j => X j ∨ j = dt) w' := by
  have d' := l.desk.treeFor hr auto now v hp h
  have hc := treeFor_case l.desk.sound.fine auto now l.desk.tl v p
  rw [h] at hc
  cases hc with
  | failed _ hl => exact Or.inl (l.loads hr hl)
  | none _ hl => exact Or.inl (l.loads hr hl)
  | found _ _ _ hl => exact Or.inl (l.loads hr hl)
  | made w1 hl hm hn ha hd =>
    have l1 := l.desk.loads hr hl
    have t1 := l.tidy.loads hr l.desk l.trees hl
    have hne : t ≠ w1.next := Nat.ne_of_lt l1.tl
    have h5 : (MM.create (Obj.new (Body.empty (.mtree .mrr))) w1).heap t = w1.heap t := create_ne _ _ hne
    have h6 : ((MM.edit t ⟨(w1.heap t).body.data, vset (w1.heap t).body.kids v p (now, w1.next)⟩
        (MM.create (Obj.new (Body.empty (.mtree .mrr))) w1)).heap w1.next) = Obj.new (Body.empty (.mtree .mrr)) := by
      rw [edit_ne _ _ hne.symm, create_self]
    refine Or.inr ⟨w1.next, rfl, hn, ha, congrArg Obj.mapped h6, congrArg (fun o => o.body.kids) h6, d', ?_,
      by show HashTrees w1.repo.log r; rw [hl.log]; exact l.trees⟩
    have f2 := (l1.create (b := Body.empty (.mtree .mrr)) trivial rfl).1
    refine (t1.create (b := Body.empty (.mtree .mrr)) l1.sound.fine rfl).extend f2.sound.fine f2.tl (by rw [h5]; exact hm)
      (by rw [h5]; rfl) (fun _ hx => Or.inl hx) (fun e => ?_) (fun e he => ?_)
    · exfalso
      have := dget_vset (l1.sound.fine.formed t hm).keys v p ((now, w1.next) : Str × ObjId) (.ver v p)
      rw [show vset (w1.heap t).body.kids v p (now, w1.next) = [] from e, if_pos rfl] at this
      cases this
    · rcases mem_vset he with rfl | he
      · right
        refine ⟨fun _ _ _ _ _ _ => Or.inr (Or.inr rfl), fun hk => absurd (d'.tk.symm.trans hk) (by decide), fun _ => ?_⟩
        · exact congrArg Obj.kind h6
      · left; rw [h5]; exact he

theorem Live.treeFor {w : World} (hr : r ≠ []) (l : Live C r t u X w) (hf : w.repo.faults = []) (auto : Option Bool) (now v : Str)
    {p : PPath} (hp : Canonical p) :
    ∃ o w', MM.treeFor C auto now t v p w = (.ok o, w') ∧
      Live C r t u (fun j => X j ∨ (noCreate auto = false ∧ o = some j)) w' ∧ w'.repo = w.repo ∧
      (noCreate auto = false → o ≠ none) := by
  obtain ⟨o, w', h, hrep⟩ := treeFor_total l.desk.sound.fine hf auto now l.desk.tl v p
  refine ⟨o, w', h, ?_, hrep, ?_⟩
  · rcases l.treeFor_any hr auto now v hp h with g | ⟨dt, g1, g2, _, _, _, g⟩
    · exact g.mono fun j hj => Or.inl (Or.inl hj)
    · cases g1
      exact g.mono fun j hj => Or.inl (hj.imp (fun h => h) fun e => ⟨g2, by rw [e]⟩)
  · rintro hn rfl
    have := ((treeFor_run l.desk.sound auto now l.desk.tl l.desk.tk v p h).2.2.2.2.1 rfl).2.1
    rw [hn] at this; cases this

theorem Live.entryFor_any {w w' : World} (hr : r ≠ []) (l : Live C r t u X w) {vl : ObjId} (hv : vl < w.next)
    (hvk : (w.heap vl).kind = .vlist) (v now : Str) {p : PPath} (hp : Canonical p) {x : ObjId} (hx : Reach w.heap t x)
    (hxk : (w.heap x).kind = .mrr) {res : Except PyErr Unit} (h : MM.entryFor C vl v now p x w = (res, w')) :
    Live C r t u X w' := by
  have d' := l.desk.entryFor hr hv hvk v now hp hx hxk h
  have hc := entryFor_case l.desk.sound.fine hv v now p x
  have hgk := (entryFor_run l.desk.sound hv hvk v now p (hx.lt l.desk.sound.fine.kids l.desk.tl) hxk h).2.1.grown.kind
  rw [h] at hc
  cases hc with
  | failed _ hl => exact l.loads hr hl
  | known _ _ hl => exact l.loads hr hl
  | entered w1 hl hm ha hd =>
    have l1 := l.desk.loads hr hl
    have t1 := l.tidy.loads hr l.desk l.trees hl
    refine ⟨d', ?_, by show HashTrees w1.repo.log r; rw [hl.log]; exact l.trees⟩
    refine t1.extend l1.sound.fine (Nat.lt_of_lt_of_le hv hl.next) hm rfl (fun _ hx => hx) (fun e => ?_) (fun e he => ?_)
    · exfalso
      have := dget_vset (l1.sound.fine.formed vl hm).keys v p ((now, x) : Str × ObjId) (.ver v p)
      rw [show vset (w1.heap vl).body.kids v p (now, x) = [] from e, if_pos rfl] at this
      cases this
    · rcases mem_vset he with rfl | he
      · right
        refine edge_small ⟨fun e => absurd (((hgk vl hv).trans hvk).symm.trans e) (by decide),
          fun e => absurd (((hgk vl hv).trans hvk).symm.trans e) (by decide)⟩ fun _ => ?_
        exact congrArg Kind.isMtree ((hgk x (hx.lt l.desk.sound.fine.kids l.desk.tl)).trans hxk)
      · exact Or.inl he

theorem Live.entryFor {w : World} (hr : r ≠ []) (l : Live C r t u X w) (hf : w.repo.faults = []) {vl : ObjId} (hv : vl < w.next)
    (hvk : (w.heap vl).kind = .vlist) (v now : Str) {p : PPath} (hp : Canonical p) {x : ObjId} (hx : Reach w.heap t x)
    (hxk : (w.heap x).kind = .mrr) :
    ∃ w', MM.entryFor C vl v now p x w = (.ok (), w') ∧ Live C r t u X w' ∧ w'.repo = w.repo := by
  obtain ⟨w', h, hrep⟩ := entryFor_total l.desk.sound.fine hf hv v now p x
  exact ⟨w', h, l.entryFor_any hr hv hvk v now hp hx hxk h, hrep⟩

theorem content_madeRecord {w : World} (hs : Fine C w) (id : Uuid) (v : Str) {j : ObjId} (hj : j < w.next) :
    SameContent C w.repo.log w.heap (.mem j) (MM.madeRecord id v w).repo.log (MM.madeRecord id v w).heap (.mem j) := by
  have h1 := hs.create (o := Obj.new (Body.empty .metadata)) rfl (formed_empty _) (by intro k hk; cases hk)
  have h2 := h1.create (o := Obj.new (Body.empty (.mtree .metadata))) rfl (formed_empty _) (by intro k hk; cases hk)
  have j1 : j < (MM.create (Obj.new (Body.empty .metadata)) w).next := Nat.lt_succ_of_lt hj
  intro ks t
  rw [content_create hs (Obj.new (Body.empty .metadata)) hj ks t,
    content_create h1 (Obj.new (Body.empty (.mtree .metadata))) j1 ks t]
  exact content_create h2 _ (Nat.lt_succ_of_lt j1) ks t

/-- Getting or making a record at a path of a dataset tree does not fail. -/
theorem Live.recordAlways {w : World} (hr : r ≠ []) (l : Live C r t u X w) (hf : w.repo.faults = []) (auto : Option Bool) {dt : ObjId} (hd : dt < w.next)
    (hk : (w.heap dt).kind = .mtree .mrr) {path : List Str} (hp : ∀ n ∈ path, CompOk n) (hn : rootRecordName ∉ path)
    (id : Uuid) (v : Str) : ∃ o w', MM.recordFor C auto dt path id v w = (.ok o, w') ∧ w'.repo.faults = [] := by
  have hs := l.desk.sound.fine
  by_cases hc : noCreate auto = true
  · obtain ⟨o, w', h1, h2⟩ := recordFor_total hs hf hc hd id v (by rw [hk]; rfl)
      (fun s d b hl => l.tidy.atRecord hs hd hk hn hl)
    exact ⟨o, w', h1, by rw [h2]; exact hf⟩
  · obtain ⟨o, w1, h1, hr1⟩ := getObjectAt_total (C := C) (path ++ [rootRecordName]) hs hf hd
    cases o with
    | some m =>
      obtain ⟨o, w', h1, h2⟩ : ∃ o w', MM.recordFor C auto dt path id v w = (.ok o, w') ∧ w'.repo = w.repo := by
        obtain ⟨o, w', h3, h4⟩ := recordFor_total (auto := some false) hs hf rfl hd (path := path) id v (by rw [hk]; rfl)
          (fun s d b hl => l.tidy.atRecord hs hd hk hn hl)
        refine ⟨o, w', ?_, h4⟩
        have hh : hasDataset C dt path w = (.ok true, w1) := by
          unfold hasDataset
          rw [M.bind_of_ok h1]; rfl
        unfold MM.recordFor at h3 ⊢
        rw [M.bind_of_ok (getObj_run dt w), if_neg (by simp [hk, Kind.isMtree]), M.bind_of_ok hh] at h3 ⊢
        exact h3
      exact ⟨o, w', h1, by rw [h2]; exact hf⟩
    | none =>
      have hst := getObjectAt_any (C := C) (path ++ [rootRecordName]) hs hd
      rw [h1] at hst
      have habs := getObjectAt_none _ hs hd h1 []
      rw [List.append_nil] at habs
      have hd1 := Nat.lt_of_lt_of_le hd hst.next
      have hk1 := (hst.kind dt hd).trans hk
      have hh : hasDataset C dt path w = (.ok false, w1) := by
        unfold hasDataset
        rw [M.bind_of_ok h1]; rfl
      unfold MM.recordFor
      rw [M.bind_of_ok (getObj_run dt w), if_neg (by simp [hk, Kind.isMtree]), M.bind_of_ok hh, if_neg (by simp), if_neg hc,
        M.bind_of_ok (alloc_run _ w1), M.bind_of_ok (alloc_run _ _), M.bind_of_ok (alloc_run _ _)]
      show ∃ o w', (addDataset C dt path (w1.next + 2) >>= fun _ => pure (some (w1.next + 2)) : W _)
        (MM.madeRecord id v w1) = (.ok o, w') ∧ w'.repo.faults = []
      obtain ⟨hf3, hn3, hrep3, hold, _⟩ := madeRecord_spec hst.fine id v
      have hd3 : dt < (MM.madeRecord id v w1).next := Nat.lt_of_lt_of_le hd1 (by rw [hn3]; exact Nat.le_add_right _ _)
      have hk3 : ((MM.madeRecord id v w1).heap dt).kind = .mtree .mrr := by rw [hold dt hd1]; exact hk1
      have hw3 : (MM.madeRecord id v w1).repo.faults = [] := by rw [hrep3, hr1]; exact hf
      have habs1 := habs
      rw [hst.content dt hd, content_madeRecord hst.fine id v hd1] at habs1
      have t3 := (l.tidy.loads hr l.desk l.trees hst).madeRecord hst.fine id v
      have hfree := t3.free hf3 hd3 hk3 hn habs1
      have hno := mt (C12_fails_iff (child := w1.next + 2) hf3 hw3 hd3 (by rw [hk3]; rfl) (compOk_dataset hp)).mp
        (fun e => e.elim (by simp) hfree)
      have hwo := worksOn_addChildAt C (w1.next + 2) (path ++ [rootRecordName]) dt (MM.madeRecord id v w1) hw3
      cases ha : addDataset C dt path (w1.next + 2) (MM.madeRecord id v w1) with
      | mk res w3 =>
        have ha' : addChildAt C (w1.next + 2) (path ++ [rootRecordName]) dt (MM.madeRecord id v w1) = (res, w3) := ha
        rw [ha'] at hno hwo
        cases res with
        | error e => exact absurd ⟨e, rfl⟩ hno
        | ok _ => rw [M.bind_of_ok ha]; exact ⟨_, _, rfl, hwo⟩

theorem Live.recordFor_any {w w' : World} (hr : r ≠ []) (l : Live C r t u X w) (auto : Option Bool) {dt : ObjId} (hd : dt < w.next)
    (hk : (w.heap dt).kind = .mtree .mrr) {path : List Str} (hp : ∀ n ∈ path, CompOk n ∧ NameOk n)
    (hn : rootRecordName ∉ path) (id : Uuid) (v : Str) {res : Except PyErr (Option ObjId)}
    (h : MM.recordFor C auto dt path id v w = (res, w')) : Live C r t u X w' := by
  obtain ⟨_, hg, _⟩ := recordFor_run l.desk.sound auto hd (fun _ => hk) (fun n hn => (hp n hn).1) id v h
  have d' := l.desk.recordFor hr auto hd (fun _ => hk) hp id v h
  refine ⟨d', ?_, by rw [hg.grown.log]; exact l.trees⟩
  have hc := recordFor_case l.desk.sound.fine auto hd (fun n hn => (hp n hn).1) id v
  rw [h] at hc
  cases hc with
  | failed _ _ hl => exact l.tidy.loads hr l.desk l.trees hl
  | none _ hl => exact l.tidy.loads hr l.desk l.trees hl
  | found _ _ hl => exact l.tidy.loads hr l.desk l.trees hl
  | made w0 w1 _ q n rest node hl _ _ _ hpath hl1 had =>
    have d0 := l.desk.loads hr hl
    have t0 := l.tidy.loads hr l.desk l.trees hl
    have hd0 := Nat.lt_of_lt_of_le hd hl.next
    have d2 := (d0.madeRecord id v).1
    obtain ⟨_, hn3, hrep3, hold, _, _, hrec⟩ := madeRecord_spec d0.sound.fine id v
    have d1 := d2.loads hr hl1
    have t1 := (t0.madeRecord d0.sound.fine id v).loads hr d2 (by rw [hrep3, hl.log]; exact l.trees) hl1
    have hd3 : dt < (MM.madeRecord id v w0).next := Nat.lt_of_lt_of_le hd0 (by rw [hn3]; exact Nat.le_add_right _ _)
    have hx3 : w0.next + 2 < (MM.madeRecord id v w0).next := by rw [hn3]; exact Nat.lt_succ_self _
    exact t1.added d1.sound had (Nat.lt_of_lt_of_le hd3 hl1.next)
      (by rw [hl1.kind dt hd3, hold dt hd0, hl.kind dt hd]; exact hk)
      (Nat.lt_of_lt_of_le hx3 hl1.next) (by rw [hl1.kind _ hx3, hrec]; rfl) (fun _ => ⟨path, hn, hpath⟩)
  | refused w0 _ _ hl _ _ _ hl1 =>
    have d0 := l.desk.loads hr hl
    have d2 := (d0.madeRecord id v).1
    obtain ⟨_, _, hrep3, _⟩ := madeRecord_spec d0.sound.fine id v
    exact ((l.tidy.loads hr l.desk l.trees hl).madeRecord d0.sound.fine id v).loads hr d2
      (by rw [hrep3, hl.log]; exact l.trees) hl1

/-- A record can be made in a new dataset tree whatever git does. -/
theorem recordFor_fresh {w : World} {auto : Option Bool} (ha : noCreate auto = false) {dt : ObjId} (hd : dt < w.next)
    (hk : (w.heap dt).kind = .mtree .mrr) (hm : (w.heap dt).mapped = true) (he : (w.heap dt).body.kids = []) (id : Uuid) (v : Str) :
    ∃ m w', MM.recordFor C auto dt [] id v w = (.ok (some m), w') := by
  have child : ∀ {w : World}, (w.heap dt).mapped = true → (w.heap dt).body.kids = [] → ∀ n, getChild C dt n w = (.ok none, w) := by
    intro w hm he n
    unfold getChild
    rw [M.bind_of_ok (ensureMapped_mapped hm), M.bind_of_ok (getObj_run dt w), he]
    rfl
  have hh : hasDataset C dt [] w = (.ok false, w) := by
    unfold hasDataset
    have : getObjectAt C ([] ++ [rootRecordName]) dt w = (.ok none, w) := by
      show (getObj dt >>= _ : W _) w = _
      rw [M.bind_of_ok (getObj_run dt w), if_pos (by rw [hk]; rfl), M.bind_of_ok (child hm he _)]
      rfl
    rw [M.bind_of_ok this]
    rfl
  unfold MM.recordFor
  rw [M.bind_of_ok (getObj_run dt w), if_neg (by simp [hk, Kind.isMtree]), M.bind_of_ok hh, if_neg (by simp), if_neg (by simp [ha]),
    M.bind_of_ok (alloc_run _ w), M.bind_of_ok (alloc_run _ _), M.bind_of_ok (alloc_run _ _)]
  show ∃ m w', (addDataset C dt [] (w.next + 2) >>= fun _ => pure (some (w.next + 2)) : W _) (MM.madeRecord id v w) =
    (.ok (some m), w')
  have hold : (MM.madeRecord id v w).heap dt = w.heap dt := by
    unfold MM.madeRecord
    rw [create_ne _ _ (by show dt ≠ w.next + 1 + 1; oomega), create_ne _ _ (by show dt ≠ w.next + 1; oomega),
      create_ne _ _ (by oomega)]
  generalize MM.madeRecord id v w = w3 at hold ⊢
  have hadd : ∃ w', addDataset C dt [] (w.next + 2) w3 = (.ok (), w') := by
    show ∃ w', (getChild C dt rootRecordName >>= _ : W _) w3 = _
    rw [M.bind_of_ok (child (by rw [hold]; exact hm) (by rw [hold]; exact he) _)]
    show ∃ w', addChild C dt rootRecordName (w.next + 2) w3 = _
    unfold addChild
    rw [M.bind_of_ok (show (M.assert (rootRecordName ≠ c!".") : W Unit) w3 = (.ok (), w3) by rfl),
      M.bind_of_ok (show (M.assert (!rootRecordName.contains '/') : W Unit) w3 = (.ok (), w3) by rfl),
      M.bind_of_ok (ensureMapped_mapped (by rw [hold]; exact hm)), M.bind_of_ok (getObj_run dt w3), hold, he]
    exact ⟨_, rfl⟩
  obtain ⟨w', hadd⟩ := hadd
  rw [M.bind_of_ok hadd]
  exact ⟨_, _, rfl⟩

theorem Live.recordFor {w : World} (hr : r ≠ []) (l : Live C r t u X w) (hf : w.repo.faults = []) (auto : Option Bool) {dt : ObjId}
    (hd : dt < w.next) (hk : (w.heap dt).kind = .mtree .mrr) {path : List Str} (hp : ∀ n ∈ path, CompOk n ∧ NameOk n)
    (hn : rootRecordName ∉ path) (id : Uuid) (v : Str) :
    ∃ o w', MM.recordFor C auto dt path id v w = (.ok o, w') ∧ Live C r t u X w' ∧ w'.repo = w.repo ∧
      (noCreate auto = false → o ≠ none) := by
  obtain ⟨o, w', h, hw⟩ := l.recordAlways hr hf auto hd hk (fun n hn => (hp n hn).1) hn id v
  obtain ⟨_, hg, _, _, hnone, _⟩ := recordFor_run l.desk.sound auto hd (fun _ => hk) (fun n hn => (hp n hn).1) id v h
  refine ⟨o, w', h, l.recordFor_any hr auto hd hk hp hn id v h, repo_same hg.grown.log hf hw, ?_⟩
  · rintro hc rfl
    have := (hnone rfl).2.1
    rw [hc] at this; cases this

theorem Live.ownPart_any {w w' : World} (hr : r ≠ []) (l : Live C r t u X w) (auto : Option Bool) (now : Str) {dt : ObjId}
    (hdt : Reach w.heap t dt) (hk : (w.heap dt).kind = .mtree .mrr) (id : Uuid) (v : Str) {p : PPath} (hc : Canonical p)
    {path : List Str} (hp : ∀ n ∈ path, CompOk n ∧ NameOk n) (hn : rootRecordName ∉ path)
    {res : Except PyErr (Option ObjId)} (h : MM.ownPart C auto now u dt id v p path w = (res, w')) : Live C r t u X w' := by
  have hd := hdt.lt l.desk.sound.fine.kids l.desk.tl
  unfold MM.ownPart at h
  cases h1 : MM.listFor C auto u id w with
  | mk r1 w1 =>
    have l1 := l.listFor_any hr auto id h1
    cases r1 with
    | error e => rw [M.bind_of_error h1] at h; cases h; exact l1
    | ok o =>
      obtain ⟨_, g1, _, a1, _⟩ := listFor_run l.desk.sound auto l.desk.ul l.desk.uk id h1
      rw [M.bind_of_ok h1] at h
      cases o with
      | none => cases h; exact l1
      | some vl =>
        simp only at h
        have hla := a1 vl rfl
        have hd1 := Nat.lt_of_lt_of_le hd g1.grown.next
        have hk1 := (g1.grown.kind dt hd).trans hk
        cases h2 : MM.recordFor C auto dt path id v w1 with
        | mk r2 w2 =>
          have l2 := l1.recordFor_any hr auto hd1 hk1 hp hn id v h2
          cases r2 with
          | error e => rw [M.bind_of_error h2] at h; cases h; exact l2
          | ok o =>
            obtain ⟨_, g2, _, a2, _⟩ := recordFor_run l1.desk.sound auto hd1 (fun _ => hk1) (fun n hn => (hp n hn).1) id v h2
            rw [M.bind_of_ok h2] at h
            cases o with
            | none => cases h; exact l2
            | some m =>
              simp only at h
              have hra := a2 m rfl
              have hla2 := hla.grown g2.grown
              cases h3 : MM.entryFor C vl v now p m w2 with
              | mk r3 w3 =>
                have l3 := l2.entryFor_any hr (hla2.vl_lt l2.desk.sound.fine) (hla2.kind l2.desk.sound l2.desk.uk) v now hc
                  (((hdt.grown g1.grown l.desk.sound.fine l.desk.tl).grown g2.grown l1.desk.sound.fine l1.desk.tl).trans
                    hra.leads.reach) hra.kind h3
                cases r3 with
                | error e => rw [M.bind_of_error h3] at h; cases h; exact l3
                | ok _ => rw [M.bind_of_ok h3] at h; cases h; exact l3

/-- No record is returned only if none may be made. -/
theorem Live.ownPart_none {w w' : World} (hr : r ≠ []) (l : Live C r t u X w) {auto : Option Bool} {now : Str} {dt : ObjId}
    (hd : dt < w.next) (hk : (w.heap dt).kind = .mtree .mrr) {id : Uuid} {v : Str} {p : PPath}
    {path : List Str} (hp : ∀ n ∈ path, CompOk n) (h : MM.ownPart C auto now u dt id v p path w = (.ok none, w')) :
    noCreate auto = true := by
  unfold MM.ownPart at h
  obtain ⟨o, w1, h1, h⟩ := M.bind_ok h
  obtain ⟨_, g1, _, _, n1, _⟩ := listFor_run l.desk.sound auto l.desk.ul l.desk.uk id h1
  have l1 := l.listFor_any hr auto id h1
  cases o with
  | none => exact (n1 rfl).2.1
  | some vl =>
    obtain ⟨o, w2, h2, h⟩ := M.bind_ok h
    obtain ⟨_, _, _, _, n2, _⟩ := recordFor_run l1.desk.sound auto (Nat.lt_of_lt_of_le hd g1.grown.next)
      (fun _ => (g1.grown.kind dt hd).trans hk) hp id v h2
    cases o with
    | none => exact (n2 rfl).2.1
    | some m =>
      obtain ⟨_, _, _, h⟩ := M.bind_ok h
      cases h

theorem Live.ownPart {w : World} (hr : r ≠ []) (l : Live C r t u X w) (hf : w.repo.faults = []) (auto : Option Bool) (now : Str) {dt : ObjId}
    (hdt : Reach w.heap t dt) (hk : (w.heap dt).kind = .mtree .mrr) (id : Uuid) (v : Str) {p : PPath} (hc : Canonical p)
    {path : List Str} (hp : ∀ n ∈ path, CompOk n ∧ NameOk n) (hn : rootRecordName ∉ path) :
    ∃ o w', MM.ownPart C auto now u dt id v p path w = (.ok o, w') ∧ Live C r t u X w' ∧ w'.repo = w.repo ∧
      (noCreate auto = false → o ≠ none) := by
  have hd := hdt.lt l.desk.sound.fine.kids l.desk.tl
  unfold MM.ownPart
  obtain ⟨o, w1, h1, l1, r1, n1⟩ := l.listFor hr hf auto id
  obtain ⟨_, g1, _, a1, _⟩ := listFor_run l.desk.sound auto l.desk.ul l.desk.uk id h1
  rw [M.bind_of_ok h1]
  cases o with
  | none => exact ⟨_, _, rfl, l1, r1, fun h => absurd rfl (n1 h)⟩
  | some vl =>
    simp only
    have hla := a1 vl rfl
    have hd1 := Nat.lt_of_lt_of_le hd g1.grown.next
    have hk1 := (g1.grown.kind dt hd).trans hk
    obtain ⟨o, w2, h2, l2, r2, n2⟩ := l1.recordFor hr (by rw [r1]; exact hf) auto hd1 hk1 hp hn id v
    obtain ⟨_, g2, _, a2, _⟩ := recordFor_run l1.desk.sound auto hd1 (fun _ => hk1) (fun n hn => (hp n hn).1) id v h2
    rw [M.bind_of_ok h2]
    cases o with
    | none => exact ⟨_, _, rfl, l2, r2.trans r1, fun h => absurd rfl (n2 h)⟩
    | some m =>
      simp only
      have hra := a2 m rfl
      have hla2 := hla.grown g2.grown
      obtain ⟨w3, h3, l3, r3⟩ := l2.entryFor hr (by rw [r2, r1]; exact hf) (hla2.vl_lt l2.desk.sound.fine) (hla2.kind l2.desk.sound l2.desk.uk) v now hc
        (((hdt.grown g1.grown l.desk.sound.fine l.desk.tl).grown g2.grown l1.desk.sound.fine l1.desk.tl).trans
          hra.leads.reach) hra.kind
      rw [M.bind_of_ok h3]
      exact ⟨_, _, rfl, l3, (r3.trans r2).trans r1, fun _ e => by cases e⟩

theorem VerAt.reach {w : World} {v : Str} {p : PPath} {dt : ObjId} (h : VerAt w t v p dt) : Reach w.heap t dt :=
  h.part.elim fun _ ht => Reach.step t dt dt h.mapped (dget_sub ht) (Reach.refl _)

/-- A tree with a record is not empty. -/
theorem RecordAt.full {w : World} {dt m : ObjId} {path : List Str} (h : RecordAt w dt path m) :
    (w.heap dt).mapped = true ∧ (w.heap dt).body.kids ≠ [] := by
  obtain ⟨n, ns, e⟩ := names_ne path
  have hl := h.leads
  rw [e] at hl
  cases hl with
  | cons _ _ hm hd _ => exact ⟨hm, by intro e; rw [e] at hd; cases hd⟩

theorem Live.rootPart_any {w w' : World} (hr : r ≠ []) (l : Live C r t u X w) (auto : Option Bool) (now : Str) (id : Uuid) (v : Str)
    {p : PPath} (hc : Canonical p) {res : Except PyErr (Option ObjId)} (h : MM.rootPart C auto now t u id v p w = (res, w')) :
    Live C r t u X w' := by
  unfold MM.rootPart at h
  cases h1 : MM.listFor C auto u id w with
  | mk r1 w1 =>
    have l1 := l.listFor_any hr auto id h1
    cases r1 with
    | error e => rw [M.bind_of_error h1] at h; cases h; exact l1
    | ok o =>
      obtain ⟨_, g1, _, a1, _⟩ := listFor_run l.desk.sound auto l.desk.ul l.desk.uk id h1
      rw [M.bind_of_ok h1] at h
      cases o with
      | none => cases h; exact l1
      | some vl =>
        simp only at h
        have hla := a1 vl rfl
        cases h2 : MM.treeFor C auto now t v p w1 with
        | mk r2 w2 =>
          have l2 := l1.treeFor_any hr auto now v hc h2
          cases r2 with
          | error e =>
            rw [M.bind_of_error h2] at h; cases h
            exact l2.elim (fun g => g) fun ⟨_, e, _⟩ => by cases e
          | ok o =>
            obtain ⟨_, g2, _, a2, _⟩ := treeFor_run l1.desk.sound auto now l1.desk.tl l1.desk.tk v p h2
            rw [M.bind_of_ok h2] at h
            cases o with
            | none =>
              cases h
              exact l2.elim (fun g => g) fun ⟨_, e, _⟩ => by cases e
            | some dt =>
              simp only at h
              have hva := a2 dt rfl
              cases h3 : MM.recordFor C auto dt [] id v w2 with
              | mk r3 w3 =>
                -- a tree made here gets its record
                have l3 : Live C r t u X w3 ∧ Sound C w2 ∧ dt < w2.next ∧ (w2.heap dt).kind = .mtree .mrr ∧ t < w2.next := by
                  rcases l2 with l2 | ⟨dt', e, ha, _, hm, hk0, l2⟩
                  · have hd2 := hva.el_lt l2.desk.sound.fine
                    exact ⟨l2.recordFor_any hr auto hd2 (l2.treeKind hva) (by simp) (by simp) id v h3, l2.desk.sound, hd2,
                      l2.treeKind hva, l2.desk.tl⟩
                  · cases e
                    have hd2 := hva.el_lt l2.desk.sound.fine
                    have hk2 := l2.treeKind hva
                    refine ⟨?_, l2.desk.sound, hd2, hk2, l2.desk.tl⟩
                    obtain ⟨m, w3', h3'⟩ := recordFor_fresh (C := C) ha hd2 hk2 hm hk0 id v
                    rw [h3'] at h3
                    cases h3
                    obtain ⟨_, g3, _, a3, _⟩ := recordFor_run l2.desk.sound auto hd2 (fun _ => hk2) (by simp) id v h3'
                    refine (l2.recordFor_any hr auto hd2 hk2 (by simp) (by simp) id v h3').mono fun j hj =>
                      hj.elim Or.inl fun e => ?_
                    subst e
                    exact Or.inr (a3 m rfl).full
                obtain ⟨l3, s2, hd2, hk2, tl2⟩ := l3
                cases r3 with
                | error e => rw [M.bind_of_error h3] at h; cases h; exact l3
                | ok o =>
                  obtain ⟨_, g3, _, a3, _⟩ := recordFor_run s2 auto hd2 (fun _ => hk2) (by simp) id v h3
                  rw [M.bind_of_ok h3] at h
                  cases o with
                  | none => cases h; exact l3
                  | some m =>
                    simp only at h
                    have hra := a3 m rfl
                    have hla2 := (hla.grown g2.grown).grown g3.grown
                    cases h4 : MM.entryFor C vl v now p m w3 with
                    | mk r4 w4 =>
                      have l4 := l3.entryFor_any hr (hla2.vl_lt l3.desk.sound.fine) (hla2.kind l3.desk.sound l3.desk.uk) v now hc
                        ((hva.reach.grown g3.grown s2.fine tl2).trans hra.leads.reach) hra.kind h4
                      cases r4 with
                      | error e => rw [M.bind_of_error h4] at h; cases h; exact l4
                      | ok _ => rw [M.bind_of_ok h4] at h; cases h; exact l4

theorem Live.rootPart {w : World} (hr : r ≠ []) (l : Live C r t u X w) (hf : w.repo.faults = []) (auto : Option Bool) (now : Str) (id : Uuid) (v : Str)
    {p : PPath} (hc : Canonical p) :
    ∃ o w', MM.rootPart C auto now t u id v p w = (.ok o, w') ∧ Live C r t u X w' ∧ w'.repo = w.repo ∧
      (noCreate auto = false → o ≠ none) := by
  unfold MM.rootPart
  obtain ⟨o, w1, h1, l1, r1, n1⟩ := l.listFor hr hf auto id
  obtain ⟨_, g1, _, a1, _⟩ := listFor_run l.desk.sound auto l.desk.ul l.desk.uk id h1
  rw [M.bind_of_ok h1]
  cases o with
  | none => exact ⟨_, _, rfl, l1, r1, fun h => absurd rfl (n1 h)⟩
  | some vl =>
    simp only
    have hla := a1 vl rfl
    obtain ⟨o, w2, h2, l2, r2, n2⟩ := l1.treeFor hr (by rw [r1]; exact hf) auto now v hc
    obtain ⟨_, g2, _, a2, _⟩ := treeFor_run l1.desk.sound auto now l1.desk.tl l1.desk.tk v p h2
    rw [M.bind_of_ok h2]
    cases o with
    | none =>
      exact ⟨_, _, rfl, l2.mono (fun j hj => Or.inl (hj.elim (fun g => g) (fun e => by cases e.2))), r2.trans r1,
        fun h => absurd rfl (n2 h)⟩
    | some dt =>
      simp only
      have hva := a2 dt rfl
      have hd2 := hva.el_lt l2.desk.sound.fine
      have hk2 := l2.treeKind hva
      obtain ⟨o, w3, h3, l3, r3, n3⟩ := l2.recordFor hr (by rw [r2, r1]; exact hf) auto hd2 hk2 (path := []) (by simp) (by simp) id v
      obtain ⟨_, g3, _, a3, _⟩ := recordFor_run l2.desk.sound auto hd2 (fun _ => hk2) (by simp) id v h3
      rw [M.bind_of_ok h3]
      cases o with
      | none =>
        refine ⟨_, _, rfl, l3.mono (fun j hj => Or.inl (hj.elim (fun g => g) (fun e => absurd rfl (n3 e.1)))),
          (r3.trans r2).trans r1, fun h => absurd rfl (n3 h)⟩
      | some m =>
        simp only
        have hra := a3 m rfl
        have hla2 := (hla.grown g2.grown).grown g3.grown
        have l3' : Live C r t u X w3 := l3.mono fun j hj => hj.elim Or.inl fun e => by
          cases e.2
          exact Or.inr hra.full
        obtain ⟨w4, h4, l4, r4⟩ := l3'.entryFor hr (by rw [r3, r2, r1]; exact hf) (hla2.vl_lt l3.desk.sound.fine) (hla2.kind l3.desk.sound l3.desk.uk) v now hc
          ((hva.reach.grown g3.grown l2.desk.sound.fine l2.desk.tl).trans hra.leads.reach) hra.kind
        rw [M.bind_of_ok h4]
        exact ⟨_, _, rfl, l4, ((r4.trans r3).trans r2).trans r1, fun _ e => by cases e⟩

/-- While git works, every request is answered. -/
theorem Live.rootRecord {w : World} (hr : r ≠ []) (l : Live C r t u X w) (hf : w.repo.faults = []) (auto : Option Bool) (now : Str) (id : Uuid) (v : Str)
    {pre : PPath} (hc : Canonical pre) {path : List Str} (hp : ∀ n ∈ path, CompOk n ∧ NameOk n) (hn : rootRecordName ∉ path)
    {root : Option Uuid} {rv : Option Str} (hroot : path ≠ [] → root ≠ none ∧ rv ≠ none) :
    ∃ o w', MM.rootRecord C auto now t u id v pre path root rv w = (.ok o, w') ∧ Live C r t u X w' ∧ w'.repo = w.repo ∧
      (noCreate auto = false → o ≠ none) := by
  unfold MM.rootRecord
  by_cases hpe : path = []
  · rw [if_pos hpe]
    obtain ⟨o, w1, h1, l1, r1, n1⟩ := l.treeFor hr hf auto now v hc
    obtain ⟨_, g1, _, a1, _⟩ := treeFor_run l.desk.sound auto now l.desk.tl l.desk.tk v pre h1
    rw [M.bind_of_ok h1]
    cases o with
    | none =>
      exact ⟨_, _, rfl, l1.mono (fun j hj => Or.inl (hj.elim (fun g => g) (fun e => by cases e.2))), r1, fun h => absurd rfl (n1 h)⟩
    | some dt =>
      simp only
      have hva := a1 dt rfl
      have hk1 := l1.treeKind hva
      obtain ⟨o, w2, h2, l2, r2, n2⟩ := l1.ownPart hr (by rw [r1]; exact hf) auto now hva.reach hk1 id v hc hp hn
      obtain ⟨_, a2, _⟩ := ownPart_run l1.desk.sound auto now l1.desk.ul l1.desk.uk (hva.el_lt l1.desk.sound.fine)
        (fun _ => hk1) ⟨by rw [hk1]; simp, by rw [hk1]; simp⟩ id v pre (fun n hn => (hp n hn).1) h2
      refine ⟨o, w2, h2, l2.mono fun j hj => hj.elim Or.inl fun e => ?_, r2.trans r1, n2⟩
      cases e.2
      cases o with
      | none => exact absurd rfl (n2 e.1)
      | some m => exact Or.inr (a2 m rfl).record.full
  · rw [if_neg hpe]
    obtain ⟨e1, e2⟩ := hroot hpe
    cases root with
    | none => exact absurd rfl e1
    | some root =>
      cases rv with
      | none => exact absurd rfl e2
      | some rv =>
        simp only
        obtain ⟨o, w1, h1, l1, r1, n1⟩ := l.rootPart hr hf auto now root rv hc
        obtain ⟨_, a1, _⟩ := rootPart_run l.desk.sound auto now l.desk.tl l.desk.tk l.desk.ul l.desk.uk root rv pre h1
        rw [M.bind_of_ok h1]
        cases o with
        | none => exact ⟨_, _, rfl, l1, r1, fun h => absurd rfl (n1 h)⟩
        | some dt =>
          simp only
          have hva := (a1 dt rfl).1
          obtain ⟨o, w2, h2, l2, r2, n2⟩ := l1.ownPart hr (by rw [r1]; exact hf) auto now hva.reach (l1.treeKind hva) id v (C01_canonical _) hp hn
          exact ⟨o, w2, h2, l2, r2.trans r1, n2⟩

/-- However a request ends: nothing that is empty is left, unless a request for a root dataset failed that made a
dataset tree. -/
theorem Live.rootRecord_any {w w' : World} (hr : r ≠ []) (l : Live C r t u X w) (auto : Option Bool) (now : Str) (id : Uuid) (v : Str)
    {pre : PPath} (hc : Canonical pre) {path : List Str} (hp : ∀ n ∈ path, CompOk n ∧ NameOk n) (hn : rootRecordName ∉ path)
    {root : Option Uuid} {rv : Option Str} {res : Except PyErr (Option ObjId)}
    (h : MM.rootRecord C auto now t u id v pre path root rv w = (res, w'))
    (hm : path ≠ [] ∨ noCreate auto = true ∨ look C w.repo.log w.heap [.ver v pre] [] (.mem t) ≠ .absent ∨ ∃ o, res = .ok o) :
    Live C r t u X w' := by
  unfold MM.rootRecord at h
  by_cases hpe : path = []
  · rw [if_pos hpe] at h
    cases h1 : MM.treeFor C auto now t v pre w with
    | mk r1 w1 =>
      have l1 := l.treeFor_any hr auto now v hc h1
      cases r1 with
      | error e =>
        rw [M.bind_of_error h1] at h; cases h
        exact l1.elim (fun g => g) fun ⟨_, e, _⟩ => by cases e
      | ok o =>
        obtain ⟨_, g1, _, a1, _⟩ := treeFor_run l.desk.sound auto now l.desk.tl l.desk.tk v pre h1
        rw [M.bind_of_ok h1] at h
        cases o with
        | none =>
          cases h
          exact l1.elim (fun g => g) fun ⟨_, e, _⟩ => by cases e
        | some dt =>
          simp only at h
          have hva := a1 dt rfl
          rcases l1 with l1 | ⟨dt', e, ha, hab, _, _, l1⟩
          · exact l1.ownPart_any hr auto now hva.reach (l1.treeKind hva) id v hc hp hn h
          · cases e
            have hk1 := l1.treeKind hva
            obtain ⟨o, rfl⟩ : ∃ o, res = .ok o := by
              rcases hm with hm | hm | hm | hm
              · exact absurd hpe hm
              · rw [ha] at hm; cases hm
              · exact absurd hab hm
              · exact hm
            obtain ⟨_, a2, _⟩ := ownPart_run l1.desk.sound auto now l1.desk.ul l1.desk.uk (hva.el_lt l1.desk.sound.fine)
              (fun _ => hk1) ⟨by rw [hk1]; simp, by rw [hk1]; simp⟩ id v pre (fun n hn => (hp n hn).1) h
            refine (l1.ownPart_any hr auto now hva.reach hk1 id v hc hp hn h).mono fun j hj => hj.elim Or.inl fun e => ?_
            subst e
            cases o with
            | none =>
              exact absurd (l1.ownPart_none hr (hva.el_lt l1.desk.sound.fine) hk1 (fun n hn => (hp n hn).1) h) (by simp [ha])
            | some m => exact Or.inr (a2 m rfl).record.full
  · rw [if_neg hpe] at h
    cases root with
    | none => cases h; exact l
    | some root =>
      cases rv with
      | none => cases h; exact l
      | some rv =>
        simp only at h
        cases h1 : MM.rootPart C auto now t u root rv pre w with
        | mk r1 w1 =>
          have l1 := l.rootPart_any hr auto now root rv hc h1
          cases r1 with
          | error e => rw [M.bind_of_error h1] at h; cases h; exact l1
          | ok o =>
            obtain ⟨_, a1, _⟩ := rootPart_run l.desk.sound auto now l.desk.tl l.desk.tk l.desk.ul l.desk.uk root rv pre h1
            rw [M.bind_of_ok h1] at h
            cases o with
            | none => cases h; exact l1
            | some dt =>
              simp only at h
              have hva := (a1 dt rfl).1
              exact l1.ownPart_any hr auto now hva.reach (l1.treeKind hva) id v (C01_canonical _) hp hn h

end MM
