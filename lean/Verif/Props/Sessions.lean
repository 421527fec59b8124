/-
C66: nothing is lost when sessions follow each other.
-/
import Verif.Props.Whole
import Verif.Props.MetadataMap

namespace MM

variable {C : Cfg} {r : Realm}

/-! ### Sessions that follow each other -/

/-- Any number of sessions, one after the other, of new processes and of processes that worked before: each opens the repository and finds the top-level
objects, makes calls, and saves.  Between and during the sessions others may change the repository, as in
`Meanwhile`, `SavesBoth` and `After`. -/
inductive Sessions (C : Cfg) (r : Realm) (L : Log) : Log → Prop
  | refl : Sessions C r L L
  | session (s : Repo) (i : World) (t u : ObjId) (w0 w w' : World) (L' : Log) : Sessions C r L s.log → Idle s i →
      topLevel C r i = (.ok (some (t, u)), w0) → Meanwhile C r i.next t u w0 w → SavesBoth C r t u w w' →
      After C r w'.repo.log L' → Sessions C r L L'
  | others (L1 L2 : Log) : Sessions C r L L1 → After C r L1 L2 → Sessions C r L L2

theorem vacant_content (hr : r ≠ []) {i : World} (hi : Vacant i) {t u : ObjId} {w : World} (hst : Stocked C r i.repo.log)
    (htop : topLevel C r i = (.ok (some (t, u)), w)) (h0 : Heap) :
    SameContent C i.repo.log h0 (.sto r tvlLink) w.repo.log w.heap (.mem t) ∧
      SameContent C i.repo.log h0 (.sto r uuidSetLink) w.repo.log w.heap (.mem u) := by
  have d := desk_found hr hi hst
  obtain ⟨w1, h1, h2, rfl, rfl⟩ := topLevel_found htop
  obtain ⟨s1, c1⟩ := (hi.intact (C := C) (r := r)).2.2.open hr (l := tvlLink) rfl
    (hst tvlLink tvlRefName (Or.inl ⟨rfl, rfl⟩) i.heap).1
  obtain ⟨s2, c2⟩ := s1.open hr (l := uuidSetLink) rfl
    (hst uuidSetLink uuidSetRefName (Or.inr ⟨rfl, rfl⟩) (create (tvlLink.obj r) i).heap).1
  have c1' := content_create s1.fine (uuidSetLink.obj r) (j := i.next) (Nat.lt_succ_self i.next)
  have l1 := d.sound.fine.readStep d.tl
  rw [h1] at l1
  have d1 := d.loads hr l1
  have l2 := d1.sound.fine.readStep d1.ul
  rw [h2] at l2
  refine ⟨(look_sto_heap r tvlLink).trans ((c1.trans c1').trans ((l1.content i.next d.tl).trans (l2.content i.next d1.tl))),
    (look_sto_heap r uuidSetLink).trans (c2.trans ((l1.content (i.next + 1) d.ul).trans (l2.content (i.next + 1) d1.ul)))⟩

/-- What a process finds is what is stored. -/
theorem opened_content (hr : r ≠ []) {s : Repo} {i : World} (hi : Idle s i) {t u : ObjId} {w : World} (hst : Stocked C r s.log)
    (htop : topLevel C r i = (.ok (some (t, u)), w)) (h0 : Heap) :
    SameContent C s.log h0 (.sto r tvlLink) w.repo.log w.heap (.mem t) ∧
      SameContent C s.log h0 (.sto r uuidSetLink) w.repo.log w.heap (.mem u) := by
  obtain ⟨e, sd, _, hin⟩ := twin_topLevel (C := C) (r := r) (fun j => i.next ≤ j) i i.cleared hi.side
  have hrep : i.cleared.repo = s := hi.repo
  cases hx : topLevel C r i.cleared with
  | mk res v =>
    rw [htop, hx] at e sd
    rw [htop] at hin
    simp only at e sd
    subst e
    obtain ⟨c1, c2⟩ := vacant_content hr hi.vacant (by rw [hrep]; exact hst) hx h0
    rw [hrep] at c1 c2
    obtain ⟨g1, g2⟩ := hin _ rfl _ rfl
    have k1 := sd.looks (C := C) g1 w.repo.log
    have k2 := sd.looks (C := C) g2 w.repo.log
    rw [sd.repo] at c1 c2
    exact ⟨c1.trans k1.symm, c2.trans k2.symm⟩

/-- Others do not change what the repository shows. -/
theorem Stocked.after {L L' : Log} (hst : Stocked C r L) (ha : After C r L L') :
    Stocked C r L' ∧ ∀ l nm, Named l nm → ∀ h h', SameContent C L h (.sto r l) L' h' (.sto r l) := by
  have key : ∀ l nm, Named l nm → ∀ h, SameContent C L h (.sto r l) L' h (.sto r l) := by
    intro l nm hl h
    refine named_kept ha.grows ha.unique hl (ha.names nm ?_) (Or.inr fun h0 => (hst l nm hl h0).1) h
    rcases hl with ⟨_, e⟩ | ⟨_, e⟩
    · exact Or.inl e
    · exact Or.inr e
  exact ⟨fun l nm hl h => ⟨Full.of_same (key l nm hl h) (hst l nm hl h).1, (hst l nm hl h).2.of_same (key l nm hl h)⟩,
    fun l nm hl h h' => (key l nm hl h).trans (look_sto_heap r l)⟩

/-- Everything that the repository shows is shown later, and both top-level objects are there. -/
theorem Sessions.kept (hr : r ≠ []) {L L' : Log} (hs : Sessions C r L L') (hst : Stocked C r L) :
    Stocked C r L' ∧ ∀ h h', Over C L h (.sto r tvlLink) L' h' (.sto r tvlLink) ∧
      Over C L h (.sto r uuidSetLink) L' h' (.sto r uuidSetLink) := by
  induction hs with
  | refl => exact ⟨hst, fun h h' => ⟨(look_sto_heap r tvlLink).over, (look_sto_heap r uuidSetLink).over⟩⟩
  | session s i t u w0 w w' L' _ hi htop hb hsv ha ih =>
    obtain ⟨st, ov⟩ := ih
    have ho : Opens C r s i.next t u w0 := .found i t u w0 hi st htop
    refine ⟨C64_stocked hr ho hb hsv ha, fun h h' => ?_⟩
    obtain ⟨v0, b0⟩ := ho.bench hr
    obtain ⟨v, b, sy, rich⟩ := b0.meanwhile hr hb
    obtain ⟨s1, s2⟩ := b.saved hr hsv ha
    obtain ⟨c1, c2⟩ := opened_content hr hi st htop h
    obtain ⟨o1, o2⟩ := ov h h
    exact ⟨((o1.trans c1.over).trans (b0.look b0.gt).over).trans ((rich t b0.desk.tl).trans (s1.same h').over),
      ((o2.trans c2.over).trans (b0.look b0.gu).over).trans ((rich u b0.desk.ul).trans (s2.same h').over)⟩
  | others L1 L2 _ ha ih =>
    obtain ⟨st, ov⟩ := ih
    obtain ⟨st2, same⟩ := st.after ha
    exact ⟨st2, fun h h' => ⟨(ov h h).1.trans (same tvlLink tvlRefName (Or.inl ⟨rfl, rfl⟩) h h').over,
      (ov h h).2.trans (same uuidSetLink uuidSetRefName (Or.inr ⟨rfl, rfl⟩) h h').over⟩⟩

/-- What a repository shows, as an object in memory -/
theorem Stocked.shows (hr : r ≠ []) {L : Log} (h : Stocked C r L) {l : Link} {nm : Str} (hl : Named l nm) (hn : l.ref.isNone = false) :
    ∃ w i, Shows C r w i L l := by
  obtain ⟨_, c⟩ := (start_sound (C := C) ⟨L, []⟩).open hr hn (h l nm hl (start ⟨L, []⟩).heap).1
  exact ⟨create (l.obj r) (start ⟨L, []⟩), (start ⟨L, []⟩).next, ⟨fun h0 => c.symm.trans (look_sto_heap r l), fun h0 => (h l nm hl h0).1⟩⟩

/-! ### Metadata later -/

/-- Of metadata, every extractor run that was found is found later, or a run that was added since for
the same extractor and an equal configuration; other data is the same. -/
def Answered (d d' : Data) : Prop :=
  match d, d' with
  | .metadata m, .metadata m' => ∀ e c i, c.WF → ask m e c = .ok i →
      ∃ i', ask m' e c = .ok i' ∧ (i' = i ∨ i'.config.eq c = true)
  | d, d' => d' = d

theorem getByConfig_kept {s : InstanceSet} (hs : s.WF) {run : Instance} (hw : run.WF) {c : Config} (hc : c.WF) {i : Instance}
    (h : s.getByConfig c = .ok i) :
    ∃ i', (s.add run).getByConfig c = .ok i' ∧ (i' = i ∨ (run.config.eq c = true ∧ i' = run)) := by
  unfold InstanceSet.getByConfig at h ⊢
  cases hn : InstanceSet.indexOf? s.params c with
  | none => rw [hn] at h; cases h
  | some n =>
    rw [hn] at h
    unfold InstanceSet.add
    cases hk : InstanceSet.indexOf? s.params run.config with
    | some k =>
      simp only [hn]
      unfold InstanceSet.getByIndex at h ⊢
      simp only
      by_cases he : (n : Int) = (k : Int)
      · rw [he, dget_dset_self]
        refine ⟨run, rfl, Or.inr ⟨?_, rfl⟩⟩
        have : n = k := Int.ofNat.inj he
        subst this
        obtain ⟨a, h1, h2⟩ := InstanceSet.indexOf?_some hn
        obtain ⟨b, h3, h4⟩ := InstanceSet.indexOf?_some hk
        rw [h1] at h3; cases h3
        have ha := hs.1 a (List.mem_of_getElem? h1)
        exact Config.eq_trans hw.2.2.2.1 ha hc (Config.eq_symm ha hw.2.2.2.1 h4) h2
      · rw [dget_dset_ne _ _ (Ne.symm he)]
        exact ⟨i, h, Or.inl rfl⟩
    | none =>
      simp only
      rw [InstanceSet.indexOf?_append, hn]
      simp only
      unfold InstanceSet.getByIndex at h ⊢
      have hlt : n < s.params.length := by
        obtain ⟨a, h1, _⟩ := InstanceSet.indexOf?_some hn
        exact (List.getElem?_eq_some_iff.mp h1).1
      simp only
      rw [dget_dset_ne _ _ (by omega)]
      exact ⟨i, h, Or.inl rfl⟩

theorem ask_kept {m : Sets} (hm : m.WF) (e' : Str) {run : Instance} (hw : run.WF) {e : Str} {c : Config} (hc : c.WF) {i : Instance}
    (h : ask m e c = .ok i) :
    ∃ i', ask (m.addRun e' run) e c = .ok i' ∧ (i' = i ∨ (run.config.eq c = true ∧ i' = run)) := by
  unfold ask Sets.runsFor Sets.addRun at *
  by_cases he : e = e'
  · subst he
    rw [dget_dset_self]
    cases hd : dget m e with
    | none => rw [hd] at h; cases h
    | some s =>
      rw [hd] at h
      exact getByConfig_kept (hm.2 _ (mem_of_dget hd)) hw hc h
  · rw [dget_dset_ne _ _ (Ne.symm he)]
    exact ⟨i, h, Or.inl rfl⟩

theorem ask_runs : ∀ (runs : List (Str × Instance)) {m : Sets}, m.WF → (∀ x ∈ runs, x.2.WF) → ∀ {e : Str} {c : Config},
    c.WF → ∀ {i : Instance}, ask m e c = .ok i →
    ∃ i', ask (runs.foldl (fun m x => m.addRun x.1 x.2) m) e c = .ok i' ∧ (i' = i ∨ i'.config.eq c = true)
  | [], _, _, _, _, _, _, i, h => ⟨i, h, Or.inl rfl⟩
  | x :: l, m, hm, hw, e, c, hc, i, h => by
    have hx := hw x (List.mem_cons_self ..)
    obtain ⟨i1, h1, h2⟩ := ask_kept hm x.1 hx hc h
    obtain ⟨i2, h3, h4⟩ := ask_runs l (Sets.wf_addRun hm x.1 hx) (fun y hy => hw y (List.mem_cons_of_mem _ hy)) hc h1
    refine ⟨i2, h3, ?_⟩
    rcases h4 with rfl | h4
    · rcases h2 with rfl | ⟨h5, rfl⟩
      · exact Or.inl rfl
      · exact Or.inr h5
    · exact Or.inr h4

theorem Later.answered {d d' : Data} (h : Later d d') (hd : DataOk d) : Answered d d' := by
  rcases h with rfl | ⟨m, runs, rfl, hw, rfl⟩
  · cases d' <;> first | rfl | exact fun e c i _ h => ⟨i, h, Or.inl rfl⟩
  · exact fun e c i hc h => ask_runs runs hd hw hc h

/-! ### C66 -/

/-- C66: a session asks for the record of dataset `ds` in version `dv`, gets `m`, and saves.  After any
number of further sessions, whatever they ask for and add, a process that asks for this record gets one
that has everything that `m` had when it was saved: the same data at the same places, and metadata with
the same runs and those that were added since, in which every run is found or a later one with an equal
configuration. -/
theorem C66_kept (hr : r ≠ []) {s : Repo} {g t u : ObjId} {w0 w1 w2 w w' : World} (ho : Opens C r s g t u w0)
    (h1 : Meanwhile C r g t u w0 w1) {auto : Option Bool} {now : Str} {ds : Uuid} {dv : Str} {pre : PPath} {path : List Str}
    {root : Option Uuid} {rv : Option Str} {m : ObjId} (hc : Canonical pre) (hp : ∀ n ∈ path, CompOk n ∧ NameOk n)
    (hask : rootRecord C auto now t u ds dv pre path root rv w1 = (.ok (some m), w2))
    (h2 : Meanwhile C r g t u w2 w) (hsave : SavesBoth C r t u w w') {L : Log} (ha : After C r w'.repo.log L)
    {s' : Repo} (hse : Sessions C r L s'.log) (hf : s'.faults = []) {i : World} (hi : Idle s' i)
    (auto' : Option Bool) (now' : Str) {id : Uuid} {v : Str} {sub : Option (Uuid × Str)}
    (hsub : sub = some (ds, dv) ∨ (sub = none ∧ path = [] ∧ ds = id ∧ dv = v))
    (hroot : path ≠ [] → root = some id ∧ rv = some v) :
    ∃ t' u' m' w3, topRecord C auto' now' r id v pre path sub i = (.ok (some (t', u'), some m'), w3) ∧
      ∀ ks x d b, look C w.repo.log w.heap ks [] (.mem m) = .found x d b →
        ∃ d' b', look C w3.repo.log w3.heap ks [] (.mem m') = .found x d' b' ∧ Later d d' ∧ Answered d d' := by
  obtain ⟨v0, b0⟩ := ho.bench hr
  obtain ⟨v1, b1, _⟩ := b0.meanwhile hr h1
  obtain ⟨e, _, _, hm⟩ := twin_rootRecord (C := C) b1.gt b1.gu auto now ds dv pre path root rv w1 v1 b1.side
  rw [hask] at e hm
  cases hx : rootRecord C auto now t u ds dv pre path root rv v1 with
  | mk res v2 =>
    rw [hx] at e
    simp only at e
    subst e
    have d2 := b1.desk.rootRecord hr auto now ds dv hc hp root rv hx
    have run := rootRecord_run b1.desk.sound auto now b1.desk.tl b1.desk.tk b1.desk.ul b1.desk.uk ds dv pre
      (fun n hn => (hp n hn).1) root rv hx
    have b2 := b1.step (twin_rootRecord b1.gt b1.gu auto now ds dv pre path root rv) (by rw [hx]; exact d2)
    rw [hask, hx] at b2
    obtain ⟨v', b, st, _⟩ := b2.meanwhile hr h2
    have hd := (run.done m rfl).stays d2.sound.fine st
    obtain ⟨s1, s2⟩ := b.saved hr hsave ha
    have hst : Stocked C r L := by
      intro l nm hl h
      rcases hl with ⟨rfl, rfl⟩ | ⟨rfl, rfl⟩
      · exact ⟨s1.full h, (b.desk.all_proper t b.desk.tl).of_same (s1.same h)⟩
      · exact ⟨s2.full h, (b.desk.all_proper u b.desk.ul).of_same (s2.same h)⟩
    obtain ⟨hst', hov⟩ := hse.kept hr hst
    obtain ⟨wt, t1, g1⟩ := hst'.shows hr (l := tvlLink) (nm := tvlRefName) (Or.inl ⟨rfl, rfl⟩) rfl
    obtain ⟨wu, u1, g2⟩ := hst'.shows hr (l := uuidSetLink) (nm := uuidSetRefName) (Or.inr ⟨rfl, rfl⟩) rfl
    obtain ⟨o1, o2⟩ := hov v'.heap wt.heap
    have ot : Over C v'.repo.log v'.heap (.mem t) wt.repo.log wt.heap (.mem t1) :=
      ((s1.same _).over.trans o1).trans (g1.same _).symm.over
    have ou : Over C v'.repo.log v'.heap (.mem u) wu.repo.log wu.heap (.mem u1) :=
      ((s2.same _).over.trans (hov v'.heap wu.heap).2).trans (g2.same _).symm.over
    have hf' : ∀ {ks K}, (∃ x d b, MM.look C v'.repo.log v'.heap ks [] (.mem t) = .found x d b ∧ d.kind = K) →
        ∃ x d b, MM.look C wt.repo.log wt.heap ks [] (.mem t1) = .found x d b ∧ d.kind = K := by
      rintro ks K ⟨x, d, bb, h3, h4⟩
      obtain ⟨d', b', h5, h6, _⟩ := ot ks [] x d bb h3
      exact ⟨x, d', b', h5, h6.kind.trans h4⟩
    have hu' : ∀ {k : Key}, MM.look C v'.repo.log v'.heap [k] [] (.mem u) ≠ .absent →
        MM.look C wu.repo.log wu.heap [k] [] (.mem u1) ≠ .absent := by
      intro k hk
      cases hx : MM.look C v'.repo.log v'.heap [k] [] (.mem u) with
      | absent => exact absurd hx hk
      | missing => exact absurd hx (b.desk.sound.fine.all u [k] [])
      | found x d bb =>
        obtain ⟨_, _, h5, _⟩ := ou [k] [] x d bb hx
        rw [h5]; intro e; cases e
    obtain ⟨tv, htv, htree, hrec, hds, hid, hl⟩ := Done.there b.desk.sound b.desk.tk hd hroot
    obtain ⟨t', u', m', w3, k1, k2⟩ := found_idle hr hi g1 g2 hf auto' now' id v pre
      (fun n hn => (hp n hn).1) hsub htv (hf' htree) (fun q hq => hf' (hrec q hq)) (hu' hds) (fun h => hu' (hid h))
    refine ⟨t', u', m', w3, k1, fun ks x d bb hlk => ?_⟩
    rw [b.look (hm (some m) rfl m rfl) ks [], ← hl ks] at hlk
    obtain ⟨d', b', h5, h6, _⟩ := ot _ _ _ _ _ hlk
    exact ⟨d', b', (k2 ks).trans h5, h6, h6.answered (b.desk.all_proper t b.desk.tl _ _ _ _ _ hlk).1⟩

/-! ### A non-trivial case -/

/-- A second session opens what was saved (objects 0 and 1), -/
def againOpen : Except PyErr (Option (ObjId × ObjId)) × World :=
  topLevel sampleCfg sampleRealm (start ⟨wholeSecond.2.repo.log, []⟩)

/-- asks for the record of the dataset, adds a run to its dataset-level metadata (6), -/
def againRan : World :=
  (addExtractorRun sampleCfg 6 c!"second" sampleRun
    (rootRecord sampleCfg none c!"0.2" 0 1 sampleUuid c!"v1" ⟨[], []⟩ [] none none againOpen.2).2).2

/-- and saves. -/
def againFirst : Except PyErr Ref × World := writeOut sampleCfg 20 (some sampleRealm) false 0 againRan

def againSecond : Except PyErr Ref × World := writeOut sampleCfg 20 (some sampleRealm) false 1 againFirst.2

theorem againOpened : topLevel sampleCfg sampleRealm (start ⟨wholeSecond.2.repo.log, []⟩) = (.ok (some (0, 1)), againOpen.2) :=
  of_okVal (x := againOpen) (by decide +kernel)

theorem againSaved : SavesBoth sampleCfg sampleRealm 0 1 againRan againSecond.2 :=
  SavesBoth.direct (of_isOk (x := againFirst) (by decide +kernel)) (of_isOk (x := againSecond) (by decide +kernel))

theorem againBusy : Busy sampleCfg 0 0 1 againOpen.2 againRan :=
  .ran _ 6 _ _ (.asked _ none _ _ _ _ [] _ _ .refl ⟨rfl, fun c hc => by cases hc⟩ (fun n hn => by cases hn)) (Nat.zero_le _)
    (by decide +kernel) wf_sampleRun

theorem againFree : CollisionFree sampleCfg againSecond.2.repo.log := collisionFree_of_check (by decide +kernel)

theorem againSessions : Sessions sampleCfg sampleRealm wholeSecond.2.repo.log againSecond.2.repo.log := by
  have h1 := againOpened
  have h2 := againBusy
  have h3 := againSaved
  have h4 := againFree
  generalize againSecond.2 = ws at h3 h4 ⊢
  generalize againRan = wr at h2 h3
  generalize againOpen.2 = wo at h1 h2
  generalize wholeSecond.2.repo.log = L at h1 ⊢
  exact .session ⟨L, []⟩ _ 0 1 wo wr ws _ .refl (idle_start _) h1 h2.meanwhile h3 ⟨Grows.refl _, fun _ _ => rfl, h4⟩

/-- The second session did add a run: the metadata has two extractors. -/
example : (look sampleCfg againSecond.2.repo.log againSecond.2.heap [.dlm] [] (.mem 4)).extractors = 2 := by decide +kernel

/-- After both sessions the metadata of the first is found, in the dataset and in the file. -/
example (auto : Option Bool) : ∃ t' u' m' w3,
    topRecord sampleCfg auto c!"0.3" sampleRealm sampleUuid c!"v1" ⟨[], []⟩ [] none (start ⟨againSecond.2.repo.log, []⟩) =
      (.ok (some (t', u'), some m'), w3) ∧
    ∀ ks x d b, look sampleCfg wholeFiled.repo.log wholeFiled.heap ks [] (.mem 8) = .found x d b →
      ∃ d' b', look sampleCfg w3.repo.log w3.heap ks [] (.mem m') = .found x d' b' ∧ Later d d' ∧ Answered d d' := by
  have hc : CollisionFree sampleCfg wholeSecond.2.repo.log := collisionFree_of_check (by decide +kernel)
  have ha : rootRecord sampleCfg (some true) c!"0.1" 2 3 sampleUuid c!"v1" ⟨[], []⟩ [] none none wholeOpen =
      (.ok (some 8), wholeAsked.2) := of_okVal (x := wholeAsked) (by decide +kernel)
  have hb := wholeBusy
  have ho := wholeOpens
  have hs := wholeSaved
  have hse := againSessions
  generalize againSecond.2.repo.log = wl at hse ⊢
  generalize wholeSecond.2 = ws at hc hs hse
  generalize wholeFiled = wf at hb hs ⊢
  generalize wholeAsked.2 = wa at ha hb
  generalize wholeOpen = wo at ha ho
  exact C66_kept (C := sampleCfg) (by decide) ho .refl (path := [])
    ⟨rfl, fun c hc => by cases hc⟩ (fun n hn => by cases hn) ha hb.meanwhile hs ⟨Grows.refl _, fun _ _ => rfl, hc⟩ (s' := ⟨wl, []⟩) hse
    rfl (idle_start _) auto c!"0.3" (id := sampleUuid) (v := c!"v1") (sub := none)
    (Or.inr ⟨rfl, rfl, rfl, rfl⟩) (fun q => absurd rfl q)

end MM
