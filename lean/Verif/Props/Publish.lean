/-
C63: what one session publishes is what a later session finds.
-/
import Verif.Props.Common
import Verif.Props.Crash
import Verif.Check

namespace MM

variable {C : Cfg} {r : Realm}

/-! ### Requests that find everything -/

theorem listFor_found {us x : ObjId} {u : Uuid} {w w' : World}
    (h : listFor C (some false) us u w = (.ok (some x), w')) (auto : Option Bool) :
    listFor C auto us u w = (.ok (some x), w') := by
  unfold listFor at h ⊢
  obtain ⟨l, w1, h1, h2⟩ := M.bind_ok h
  rw [M.bind_of_ok h1]
  by_cases hu : u ∈ l
  · rw [if_pos hu] at h2 ⊢; exact h2
  · rw [if_neg hu, if_pos (show noCreate (some false) = true from rfl)] at h2
    cases h2

theorem treeFor_found {now : Str} {tvl x : ObjId} {v : Str} {p : PPath} {w w' : World}
    (h : treeFor C (some false) now tvl v p w = (.ok (some x), w')) (auto : Option Bool) :
    treeFor C auto now tvl v p w = (.ok (some x), w') := by
  unfold treeFor at h ⊢
  obtain ⟨l, w1, h1, h2⟩ := M.bind_ok h
  rw [M.bind_of_ok h1]
  by_cases hu : (v, p) ∈ l
  · rw [if_pos hu] at h2 ⊢; exact h2
  · rw [if_neg hu, if_pos (show noCreate (some false) = true from rfl)] at h2
    cases h2

theorem recordFor_found {dt x : ObjId} {path : List Str} {id : Uuid} {v : Str} {w w' : World}
    (h : recordFor C (some false) dt path id v w = (.ok (some x), w')) (auto : Option Bool) :
    recordFor C auto dt path id v w = (.ok (some x), w') := by
  unfold recordFor at h ⊢
  obtain ⟨o, w1, h1, h2⟩ := M.bind_ok h
  rw [M.bind_of_ok h1]
  by_cases hk : (!o.kind.isMtree) = true
  · rw [if_pos hk] at h2; cases h2
  · rw [if_neg hk] at h2 ⊢
    obtain ⟨b, w2, h3, h4⟩ := M.bind_ok h2
    rw [M.bind_of_ok h3]
    by_cases hb : b = true
    · rw [if_pos hb] at h4 ⊢; exact h4
    · rw [if_neg hb, if_pos (show noCreate (some false) = true from rfl)] at h4
      cases h4

theorem ownPart_found {now : Str} {us dt x : ObjId} {id : Uuid} {v : Str} {pre : PPath} {path : List Str} {w w' : World}
    (h : ownPart C (some false) now us dt id v pre path w = (.ok (some x), w')) (auto : Option Bool) :
    ownPart C auto now us dt id v pre path w = (.ok (some x), w') := by
  unfold ownPart at h ⊢
  obtain ⟨vl, w1, h1, h2⟩ := M.bind_ok h
  cases vl with
  | none => cases h2
  | some vl =>
    rw [M.bind_of_ok (listFor_found h1 auto)]
    simp only at h2 ⊢
    obtain ⟨m, w2, h3, h4⟩ := M.bind_ok h2
    cases m with
    | none => cases h4
    | some m =>
      rw [M.bind_of_ok (recordFor_found h3 auto)]
      exact h4

theorem rootPart_found {now : Str} {tvl us x : ObjId} {id : Uuid} {v : Str} {pre : PPath} {w w' : World}
    (h : rootPart C (some false) now tvl us id v pre w = (.ok (some x), w')) (auto : Option Bool) :
    rootPart C auto now tvl us id v pre w = (.ok (some x), w') := by
  unfold rootPart at h ⊢
  obtain ⟨vl, w1, h1, h2⟩ := M.bind_ok h
  cases vl with
  | none => cases h2
  | some vl =>
    rw [M.bind_of_ok (listFor_found h1 auto)]
    simp only at h2 ⊢
    obtain ⟨dt, w2, h3, h4⟩ := M.bind_ok h2
    cases dt with
    | none => cases h4
    | some dt =>
      rw [M.bind_of_ok (treeFor_found h3 auto)]
      simp only at h4 ⊢
      obtain ⟨m, w3, h5, h6⟩ := M.bind_ok h4
      cases m with
      | none => cases h6
      | some m =>
        rw [M.bind_of_ok (recordFor_found h5 auto)]
        exact h6

/-- A request without auto-create that finds a record gives the same with auto-create. -/
theorem rootRecord_found {now : Str} {tvl us m : ObjId} {id : Uuid} {v : Str} {pre : PPath} {path : List Str}
    {root : Option Uuid} {rv : Option Str} {w w' : World}
    (h : rootRecord C (some false) now tvl us id v pre path root rv w = (.ok (some m), w')) (auto : Option Bool) :
    rootRecord C auto now tvl us id v pre path root rv w = (.ok (some m), w') := by
  unfold rootRecord at h ⊢
  by_cases hp : path = []
  · rw [if_pos hp] at h ⊢
    obtain ⟨dt, w1, h1, h2⟩ := M.bind_ok h
    cases dt with
    | none => cases h2
    | some dt =>
      rw [M.bind_of_ok (treeFor_found h1 auto)]
      exact ownPart_found h2 auto
  · rw [if_neg hp] at h ⊢
    cases root with
    | none => cases h
    | some root =>
      cases rv with
      | none => cases h
      | some rv =>
        simp only at h ⊢
        obtain ⟨dt, w1, h1, h2⟩ := M.bind_ok h
        cases dt with
        | none => cases h2
        | some dt =>
          rw [M.bind_of_ok (rootPart_found h1 auto)]
          exact ownPart_found h2 auto

/-! ### What is published -/

/-- Object `i` is loaded and not marked as saved (or writing is forced), and is written in full
into repository `r`.  The conditions on what is below it are those of C17: all of it belongs to
the repository, and what passes for saved is stored as it is. -/
structure Saves (C : Cfg) (r : Realm) (w : World) (i : ObjId) (w' : World) : Prop where
  history : History C r w
  loaded : (w.heap i).mapped = true
  storable : Storable w.heap i
  alone : Alone r w.heap i
  trusted : Trusted C r w i
  owned : Owned r w.heap i
  wrote : ∃ n force ref, ((w.heap i).savedOn = [] ∨ force = true) ∧ writeOut C n (some r) force i w = (.ok ref, w')

/-- After a top-level object was saved, and as long as its name is not set again, the repository
shows the object's content under the name, whatever else is stored. -/
theorem C63_published_partial {w w' : World} (hr : r ≠ []) {i : ObjId} (hs : Saves C r w i w') {l : Link} {nm : Str}
    (hl : Named l nm) (hk : (w.heap i).kind = l.kind) {L : Log} (hg : Grows w'.repo.log L) (hc : CollisionFree C L)
    (hn : refOf L r nm = refOf w'.repo.log r nm) (h0 : Heap) :
    SameContent C w.repo.log w.heap (.mem i) L h0 (.sto r l) ∧ Full C L h0 (.sto r l) := by
  obtain ⟨n, force, ref, hu, h⟩ := hs.wrote
  have hc' : CollisionFree C w'.repo.log := hc.mono hg
  obtain ⟨e, e1, _, _⟩ := hl.ref
  have h1 := fun h0 => C17_published_partial hr hs.history h hc' hs.loaded hs.storable hs.alone hs.trusted hs.owned
    (nm := nm) (by rw [hk]; exact e1) hu h0
  rw [hk, ← e] at h1
  have hfull : ∀ h0, Full C w'.repo.log h0 (.sto r l) := fun h0 => by
    have d := (hs.history.intact hr).done hr (via := .own) h hc' hs.storable hs.alone hs.trusted hs.owned
    have hj : Full C w'.repo.log w'.heap (.mem i) := d.good.full
    exact Full.of_same ((d.look i).symm.trans (h1 h0)) hj
  have hkept := named_kept hg hc hl hn (Or.inr hfull) h0
  exact ⟨(h1 h0).trans hkept, Full.of_same hkept (hfull h0)⟩

/-- The repository shows, under the name of `l`, all of the content of an object. -/
structure Shows (C : Cfg) (r : Realm) (w : World) (i : ObjId) (L : Log) (l : Link) : Prop where
  same : ∀ h0, SameContent C w.repo.log w.heap (.mem i) L h0 (.sto r l)
  full : ∀ h0, Full C L h0 (.sto r l)

/-- A process finds the records that are in the top-level objects that the repository shows. -/
theorem found_shown (hr : r ≠ []) {wt wu w : World} {t u : ObjId}
    (st : Shows C r wt t w.repo.log tvlLink) (su : Shows C r wu u w.repo.log uuidSetLink)
    (hw : Sound C w) (hf : w.repo.faults = [])
    (auto : Option Bool) (now : Str) (id : Uuid) (v : Str) (pre : PPath) {path : List Str} (hp : ∀ n ∈ path, CompOk n)
    {sub : Option (Uuid × Str)} {ds : Uuid} {dv tv : Str}
    (hsub : sub = some (ds, dv) ∨ (sub = none ∧ path = [] ∧ ds = id ∧ dv = v)) (htv : tv = if path = [] then dv else v)
    (htree : ∃ s d b, look C wt.repo.log wt.heap [.ver tv pre] [] (.mem t) = .found s d b ∧ d.kind = .mtree .mrr)
    (hrec : ∀ q, q = path ∨ q = [] → ∃ s d b,
      look C wt.repo.log wt.heap (.ver tv pre :: names (q ++ [rootRecordName])) [] (.mem t) = .found s d b ∧ d.kind = .mrr)
    (hds : look C wu.repo.log wu.heap [.uuid ds] [] (.mem u) ≠ .absent)
    (hid : path ≠ [] → look C wu.repo.log wu.heap [.uuid id] [] (.mem u) ≠ .absent) :
    ∃ t' u' m w', topRecord C auto now r id v pre path sub w = (.ok (some (t', u'), some m), w') ∧
      ∀ ks, look C w'.repo.log w'.heap ks [] (.mem m) =
        look C wt.repo.log wt.heap (.ver tv pre :: (names (path ++ [rootRecordName]) ++ ks)) [] (.mem t) := by
  have pt := st.same w.heap
  have ft := st.full w.heap
  have pu := su.same w.heap
  have fu := su.full w.heap
  obtain ⟨w1, hto, s1, hrep, hlt, hk1, hk2, c1, c2, _⟩ := topLevel_total hw hf hr ft fu
  have et : SameContent C wt.repo.log wt.heap (.mem t) w1.repo.log w1.heap (.mem w.next) := pt.trans c1
  have eu : SameContent C wu.repo.log wu.heap (.mem u) w1.repo.log w1.heap (.mem (w.next + 1)) := pu.trans c2
  have key : ∀ root rv, (if path = [] then some dv else rv) = some tv → (path ≠ [] → root = some id ∧ rv ≠ none) →
      ∃ m w2, rootRecord C auto now w.next (w.next + 1) ds dv pre path root rv w1 = (.ok (some m), w2) ∧
        ∀ ks, look C w2.repo.log w2.heap ks [] (.mem m) =
          look C wt.repo.log wt.heap (.ver tv pre :: (names (path ++ [rootRecordName]) ++ ks)) [] (.mem t) := by
    intro root rv hrv hroot
    have hel : Elements C w1 w.next (w.next + 1) ds dv pre path root rv := by
      refine ⟨tv, hrv, ?_, by rw [← eu]; exact hds, fun hpe => ⟨?_, id, (hroot hpe).1, by rw [← eu]; exact hid hpe⟩⟩
      · obtain ⟨s, d, b, h, _⟩ := hrec path (Or.inl rfl)
        rw [← et, h]; simp
      · obtain ⟨s, d, b, h, _⟩ := hrec [] (Or.inr rfl)
        rw [← et]
        exact fun q => by rw [show names ([] ++ [rootRecordName]) = [.name rootRecordName] from rfl, q] at h; cases h
    obtain ⟨m, w2, h2⟩ := (C35_missing s1 (some false) now (by oomega) hk1 hlt hk2 ds dv pre hp root rv
      (by rw [hrep]; exact hf) rfl (fun q => ⟨by rw [(hroot q).1]; simp, (hroot q).2⟩)
      (fun tv' e s d b h => by
        rw [hrv] at e; cases e
        rw [← et] at h
        obtain ⟨s', d', b', h', hd⟩ := htree
        rw [h'] at h; cases h; exact hd)
      (fun tv' e q hq s d b h => by
        rw [hrv] at e; cases e
        rw [← et] at h
        obtain ⟨s', d', b', h', hd⟩ := hrec q hq
        rw [h'] at h; cases h; exact hd)).1 hel
    refine ⟨m, w2, rootRecord_found h2 auto, fun ks => ?_⟩
    obtain ⟨tv', e, hl⟩ := C35_returned s1 (some false) now (by oomega) hk1 hlt hk2 ds dv pre hp root rv rfl h2
    rw [hrv] at e; cases e
    rw [← hl, et]
  have run : ∀ m w2, (match sub with
      | some (sid, sv) => rootRecord C auto now w.next (w.next + 1) sid sv pre path (some id) (some v)
      | none => rootRecord C auto now w.next (w.next + 1) id v pre path none none) w1 = (.ok (some m), w2) →
      topRecord C auto now r id v pre path sub w = (.ok (some (w.next, w.next + 1), some m), w2) := by
    intro m w2 h
    unfold topRecord
    rw [M.bind_of_ok hto]
    simp only
    rw [M.bind_of_ok (show (pure (some (w.next, w.next + 1)) : W (Option (ObjId × ObjId))) w1 =
      (.ok (some (w.next, w.next + 1)), w1) from rfl)]
    simp only
    cases sub with
    | none => exact (M.bind_of_ok h).trans rfl
    | some x => exact (M.bind_of_ok h).trans rfl
  rcases hsub with hsub | ⟨hsub, hpe, e1, e2⟩
  · obtain ⟨m, w2, h, hl⟩ := key (some id) (some v) (by rw [htv]; split <;> rfl) (fun _ => ⟨rfl, by simp⟩)
    exact ⟨_, _, m, w2, run m w2 (by rw [hsub]; exact h), hl⟩
  · obtain ⟨m, w2, h, hl⟩ := key none none (by rw [htv, if_pos hpe, if_pos hpe]) (fun q => absurd hpe q)
    rw [e1, e2] at h
    exact ⟨_, _, m, w2, run m w2 (by rw [hsub]; exact h), hl⟩

theorem Saves.shows {w w' : World} (hr : r ≠ []) {i : ObjId} (hs : Saves C r w i w') {l : Link} {nm : Str}
    (hl : Named l nm) (hk : (w.heap i).kind = l.kind) {L : Log} (hg : Grows w'.repo.log L) (hc : CollisionFree C L)
    (hn : refOf L r nm = refOf w'.repo.log r nm) : Shows C r w i L l :=
  ⟨fun h0 => (C63_published_partial hr hs hl hk hg hc hn h0).1, fun h0 => (C63_published_partial hr hs hl hk hg hc hn h0).2⟩

/-- C63: a tree version list `t` and a UUID set `u` are saved, in whatever processes and in
whatever order.  Later, when both names are still those of these savings, a process asks for the
record of dataset `ds` in version `dv` at a path below the root dataset, with any value of
`auto_create`.  If `t` and `u` had the elements of the request when they were saved, then the
process gets the record, with the content it had in `t`. -/
theorem C63_found_partial (hr : r ≠ []) {wt wt' wu wu' : World} {t u : ObjId}
    (st : Saves C r wt t wt') (htk : (wt.heap t).kind = .tvl) (su : Saves C r wu u wu') (huk : (wu.heap u).kind = .uuidset)
    {w : World} (hw : Sound C w) (hf : w.repo.faults = []) (hc : CollisionFree C w.repo.log)
    (gt : Grows wt'.repo.log w.repo.log) (nt : refOf w.repo.log r tvlRefName = refOf wt'.repo.log r tvlRefName)
    (gu : Grows wu'.repo.log w.repo.log) (nu : refOf w.repo.log r uuidSetRefName = refOf wu'.repo.log r uuidSetRefName)
    (auto : Option Bool) (now : Str) (id : Uuid) (v : Str) (pre : PPath) {path : List Str} (hp : ∀ n ∈ path, CompOk n)
    {sub : Option (Uuid × Str)} {ds : Uuid} {dv tv : Str}
    (hsub : sub = some (ds, dv) ∨ (sub = none ∧ path = [] ∧ ds = id ∧ dv = v)) (htv : tv = if path = [] then dv else v)
    (htree : ∃ s d b, look C wt.repo.log wt.heap [.ver tv pre] [] (.mem t) = .found s d b ∧ d.kind = .mtree .mrr)
    (hrec : ∀ q, q = path ∨ q = [] → ∃ s d b,
      look C wt.repo.log wt.heap (.ver tv pre :: names (q ++ [rootRecordName])) [] (.mem t) = .found s d b ∧ d.kind = .mrr)
    (hds : look C wu.repo.log wu.heap [.uuid ds] [] (.mem u) ≠ .absent)
    (hid : path ≠ [] → look C wu.repo.log wu.heap [.uuid id] [] (.mem u) ≠ .absent) :
    ∃ t' u' m w', topRecord C auto now r id v pre path sub w = (.ok (some (t', u'), some m), w') ∧
      ∀ ks, look C w'.repo.log w'.heap ks [] (.mem m) =
        look C wt.repo.log wt.heap (.ver tv pre :: (names (path ++ [rootRecordName]) ++ ks)) [] (.mem t) :=
  found_shown hr (st.shows hr (Or.inl ⟨rfl, rfl⟩) htk gt hc nt) (su.shows hr (Or.inr ⟨rfl, rfl⟩) huk gu hc nu) hw hf
    auto now id v pre hp hsub htv htree hrec hds hid

/-! ### The view of the UUID set -/

/-- If git works, a part that is there is found, and the repository is as it was. -/
theorem part_works {w : World} (hs : Fine C w) (hf : w.repo.faults = []) (e : PyErr) {i : ObjId} (hi : i < w.next)
    {k : Key} (hk : k ≠ .ft) (h : look C w.repo.log w.heap [k] [] (.mem i) ≠ .absent) :
    ∃ x w', part C e i k w = (.ok x, w') ∧ w'.repo = w.repo := by
  obtain ⟨b, w1, h1, hrep⟩ := hs.loads hf i
  obtain ⟨hst, hm⟩ := hs.loaded hi h1
  rw [hst.content i hi] at h
  obtain ⟨y, hy⟩ := (look_entry hst.fine hm hk).mp h
  have hd := dget_of_mem (hst.fine.formed i hm).keys hy
  obtain ⟨w2, h3, hrep2⟩ := hst.fine.readTotal (by rw [hrep]; exact hf) y.2
  refine ⟨y, w2, ?_, hrep2.trans hrep⟩
  unfold part
  rw [M.bind_of_ok h1, M.bind_of_ok (getObj_run i w1), hd]
  simp only
  rw [M.bind_of_ok h3]
  rfl

theorem listed_shown (hr : r ≠ []) {wt wu w : World} {t u : ObjId}
    (st : Shows C r wt t w.repo.log tvlLink) (su : Shows C r wu u w.repo.log uuidSetLink)
    (hw : Sound C w) (hf : w.repo.faults = [])
    {ds : Uuid} {v : Str} {p : PPath} (hel : look C wu.repo.log wu.heap [.uuid ds, .ver v p] [] (.mem u) ≠ .absent) :
    ∃ t' u' w1 x w2 s m w3, topLevel C r w = (.ok (some (t', u')), w1) ∧ getVersionList C u' ds w1 = (.ok x, w2) ∧
      getVersioned C x v p w2 = (.ok (s, p, m), w3) ∧
      ∀ ks, look C w3.repo.log w3.heap ks s (.mem m) =
        look C wu.repo.log wu.heap (.uuid ds :: .ver v p :: ks) [] (.mem u) := by
  have ft := st.full w.heap
  have pu := su.same w.heap
  have fu := su.full w.heap
  obtain ⟨w1, hto, s1, hrep, hlt, hk1, hk2, c1, c2, _⟩ := topLevel_total hw hf hr ft fu
  have eu : SameContent C wu.repo.log wu.heap (.mem u) w1.repo.log w1.heap (.mem (w.next + 1)) := pu.trans c2
  have hf1 : w1.repo.faults = [] := by rw [hrep]; exact hf
  have hne : look C w1.repo.log w1.heap [.uuid ds] [] (.mem (w.next + 1)) ≠ .absent := fun q =>
    hel (by rw [eu]; exact look_prefix s1.fine (by simp) _ q)
  obtain ⟨x, w2, h2, hrep2⟩ := part_works s1.fine hf1 .key hlt (by simp) hne
  obtain ⟨hx, hm2, hd2⟩ := part_ok s1.fine hlt h2
  have hl2 := part_any s1.fine .key hlt (.uuid ds)
  rw [h2] at hl2
  have hg2 : getVersionList C (w.next + 1) ds w1 = (.ok x.2, w2) := by
    rw [getVersionList_part, M.bind_of_ok h2]; rfl
  have e2 : ∀ ks, look C wu.repo.log wu.heap (.uuid ds :: .ver v p :: ks) [] (.mem u) =
      look C w2.repo.log w2.heap (.ver v p :: ks) [] (.mem x.2) := fun ks => by
    rw [eu, hl2.content _ hlt, look_part hm2 hd2 (by simp)]
    exact look_stamp ..
  obtain ⟨y, w3, h3, _⟩ := part_works hl2.fine (by rw [hrep2]; exact hf1) .key hx (k := .ver v p) (by simp)
    (by rw [← e2 []]; exact hel)
  obtain ⟨_, hm3, hd3⟩ := part_ok hl2.fine hx h3
  have hl3 := part_any hl2.fine .key hx (.ver v p)
  rw [h3] at hl3
  have hg3 : getVersioned C x.2 v p w2 = (.ok (y.1, p, y.2), w3) := by
    rw [getVersioned_part, M.bind_of_ok h3]; rfl
  refine ⟨_, _, w1, x.2, w2, y.1, y.2, w3, hto, hg2, hg3, fun ks => ?_⟩
  rw [e2 ks, hl3.content _ hx, look_part hm3 hd3 (by simp)]

/-- C63, for the UUID set: under the same conditions, a process that reads the top-level objects
finds every element of every version list of `u`, with its time stamp and content. -/
theorem C63_listed_partial (hr : r ≠ []) {wt wt' wu wu' : World} {t u : ObjId}
    (st : Saves C r wt t wt') (htk : (wt.heap t).kind = .tvl) (su : Saves C r wu u wu') (huk : (wu.heap u).kind = .uuidset)
    {w : World} (hw : Sound C w) (hf : w.repo.faults = []) (hc : CollisionFree C w.repo.log)
    (gt : Grows wt'.repo.log w.repo.log) (nt : refOf w.repo.log r tvlRefName = refOf wt'.repo.log r tvlRefName)
    (gu : Grows wu'.repo.log w.repo.log) (nu : refOf w.repo.log r uuidSetRefName = refOf wu'.repo.log r uuidSetRefName)
    {ds : Uuid} {v : Str} {p : PPath} (hel : look C wu.repo.log wu.heap [.uuid ds, .ver v p] [] (.mem u) ≠ .absent) :
    ∃ t' u' w1 x w2 s m w3, topLevel C r w = (.ok (some (t', u')), w1) ∧ getVersionList C u' ds w1 = (.ok x, w2) ∧
      getVersioned C x v p w2 = (.ok (s, p, m), w3) ∧
      ∀ ks, look C w3.repo.log w3.heap ks s (.mem m) =
        look C wu.repo.log wu.heap (.uuid ds :: .ver v p :: ks) [] (.mem u) :=
  listed_shown hr (st.shows hr (Or.inl ⟨rfl, rfl⟩) htk gt hc nt) (su.shows hr (Or.inr ⟨rfl, rfl⟩) huk gu hc nu) hw hf hel

/-! ### One session after another -/

/-- C63 for a session that saves its tree version list and then its UUID set: both savings are
as required above. -/
theorem Session.saves (hr : r ≠ []) {w w1 w2 : World} (hs : Session C r w) {t u : ObjId}
    (htk : (w.heap t).kind = .tvl) (huk : (w.heap u).kind = .uuidset)
    (mt : (w.heap t).mapped = true) (mu : (w.heap u).mapped = true)
    (nt : (w.heap t).savedOn = []) (nu : (w.heap u).savedOn = [])
    (st : Storable w.heap t) (su : Storable w.heap u) (at' : Alone r w.heap t) (au : Alone r w.heap u)
    (hp : NoStaleParent r w.heap t) {n n' : Nat} {ref ref' : Ref}
    (h1 : writeOut C n (some r) false t w = (.ok ref, w1)) (h2 : writeOut C n' (some r) false u w1 = (.ok ref', w2))
    (hc : CollisionFree C w2.repo.log) :
    Saves C r w t w1 ∧ Saves C r w1 u w2 ∧ (w1.heap u).kind = .uuidset ∧
      SameContent C w.repo.log w.heap (.mem u) w1.repo.log w1.heap (.mem u) ∧ Grows w1.repo.log w2.repo.log ∧
      refOf w2.repo.log r tvlRefName = refOf w1.repo.log r tvlRefName := by
  have t2 := writeAs_any (C := C) hr .own n' false u w1
  have hca1 : w1.caches = [] := caches_writeAs (via := .own) h1 (hs.sane hr).caches
  have hw2 : writeAs C .own n' (some r) false u w1 = (.ok ref', w2) := h2
  rw [hw2] at t2
  have hca2 : w2.caches = [] := caches_writeAs (via := .own) h2 hca1
  have hg12 : Grows w1.repo.log w2.repo.log := by
    have := t2.grows (by rw [hca1]; exact List.nodup_nil)
    unfold World.eff at this
    rw [hca1, hca2] at this
    exact this
  have hc : CollisionFree C w1.repo.log := hc.mono hg12
  have sane := hs.sane hr
  have hh := hs.history hr
  have tt := sane.trusted t
  have ot := sane.owned t
  have hs1 : Session C r w1 := Session.write w .own n false t ref w1 hs h1 hc st at' hp
  obtain ⟨rank, post⟩ := (hh.intact hr).post hr (via := .own) h1 hc st at' tt ot
  have d := (hh.intact hr).done hr (via := .own) h1 hc st at' tt ot
  have hnr : ¬ Reach w.heap t u := fun q => by
    have := (names_reach st u q mu).1
    rw [htk, huk] at this
    revert this
    decide
  have hout : w1.heap u = w.heap u := d.tried.limits.out u (Or.inl hnr)
  have su1 : Storable w1.heap u := su.mono post.step.same
  have hn2 : refOf w2.repo.log r tvlRefName = refOf w1.repo.log r tvlRefName := by
    have := writeAs_tried (C := C) hr .own n' false u w1 su1
    rw [hw2] at this
    rcases this.limits.refs r tvlRefName with q | q
    · rw [hout, huk] at q; exact absurd q.2 (by decide)
    · exact q
  refine ⟨⟨hh, mt, st, at', tt, ot, n, false, ref, Or.inl nt, h1⟩,
    ⟨hs1.history hr, by rw [hout]; exact mu, su1, au.step post.step, (hs1.sane hr).trusted u,
      (hs1.sane hr).owned u, n', false, ref', Or.inl (by rw [hout]; exact nu), h2⟩, by rw [hout]; exact huk, d.look u, hg12, hn2⟩

/-- C63 for two sessions in one repository: the first saves its tree version list and its UUID
set, both not saved before.  Others may then store objects, without setting the two names.  A new
process that asks for a record that the first session had gets it, whatever `auto_create` is. -/
theorem C63_sessions_partial (hr : r ≠ []) {w w1 w2 : World} (hs : Session C r w) {t u : ObjId}
    (htk : (w.heap t).kind = .tvl) (huk : (w.heap u).kind = .uuidset)
    (mt : (w.heap t).mapped = true) (mu : (w.heap u).mapped = true)
    (nt : (w.heap t).savedOn = []) (nu : (w.heap u).savedOn = [])
    (st : Storable w.heap t) (su : Storable w.heap u) (at' : Alone r w.heap t) (au : Alone r w.heap u)
    (hp : NoStaleParent r w.heap t) {n n' : Nat} {ref ref' : Ref}
    (h1 : writeOut C n (some r) false t w = (.ok ref, w1)) (h2 : writeOut C n' (some r) false u w1 = (.ok ref', w2))
    {L : Log} (hg : Grows w2.repo.log L) (hn : ∀ m, refOf L r m = refOf w2.repo.log r m) (hc : CollisionFree C L)
    (auto : Option Bool) (now : Str) (id : Uuid) (v : Str) (pre : PPath) {path : List Str} (hpa : ∀ n ∈ path, CompOk n)
    {sub : Option (Uuid × Str)} {ds : Uuid} {dv tv : Str}
    (hsub : sub = some (ds, dv) ∨ (sub = none ∧ path = [] ∧ ds = id ∧ dv = v)) (htv : tv = if path = [] then dv else v)
    (htree : ∃ s d b, look C w.repo.log w.heap [.ver tv pre] [] (.mem t) = .found s d b ∧ d.kind = .mtree .mrr)
    (hrec : ∀ q, q = path ∨ q = [] → ∃ s d b,
      look C w.repo.log w.heap (.ver tv pre :: names (q ++ [rootRecordName])) [] (.mem t) = .found s d b ∧ d.kind = .mrr)
    (hds : look C w.repo.log w.heap [.uuid ds] [] (.mem u) ≠ .absent)
    (hid : path ≠ [] → look C w.repo.log w.heap [.uuid id] [] (.mem u) ≠ .absent) :
    ∃ t' u' m w', topRecord C auto now r id v pre path sub (start ⟨L, []⟩) = (.ok (some (t', u'), some m), w') ∧
      ∀ ks, look C w'.repo.log w'.heap ks [] (.mem m) =
        look C w.repo.log w.heap (.ver tv pre :: (names (path ++ [rootRecordName]) ++ ks)) [] (.mem t) := by
  obtain ⟨s1, s2, k2, e2, hg12, hn2⟩ := hs.saves hr htk huk mt mu nt nu st su at' au hp h1 h2 (hc.mono hg)
  exact C63_found_partial (w := start ⟨L, []⟩) hr s1 htk s2 k2 (start_sound _) rfl hc (hg12.trans hg)
    ((hn _).trans hn2) hg (hn _) auto now id v pre hpa hsub htv htree hrec (by rw [← e2]; exact hds) (fun q => by rw [← e2]; exact hid q)

/-! ### A non-trivial case -/

/-- A root record (1) with dataset-level metadata (0) in a dataset tree (2) and a version list (3),
a tree version list (4) and a UUID set (5) -/
def publishBodies : List (Body ObjId) :=
  [⟨.metadata [(c!"ext", ⟨[], []⟩)], []⟩,
   ⟨.mrr (some sampleUuid) (some c!"v1"), [(.dlm, [], 0)]⟩,
   ⟨.mtree .mrr, [(.name rootRecordName, [], 1)]⟩,
   ⟨.vlist, [(.ver c!"v1" ⟨[], []⟩, c!"0.1", 1)]⟩,
   ⟨.tvl, [(.ver c!"v1" ⟨[], []⟩, c!"0.1", 2)]⟩,
   ⟨.uuidset, [(.uuid sampleUuid, [], 3)]⟩]

def publishWorld : World := populate (start ⟨[], []⟩) publishBodies

def publishFirst : Except PyErr Ref × World := writeOut sampleCfg 20 (some sampleRealm) false 4 publishWorld

def publishSecond : Except PyErr Ref × World := writeOut sampleCfg 20 (some sampleRealm) false 5 publishFirst.2

theorem publish_session : Session sampleCfg sampleRealm publishWorld ∧
    ∀ j, (publishWorld.heap j).savedOn = [] :=
  session_populate publishBodies (session_start _) (fun _ => rfl) (by decide)

theorem publish_new (j : ObjId) : (publishWorld.heap j).mapped = true ∧ (publishWorld.heap j).ref = none := by
  have : ∀ (bs : List (Body ObjId)) (w : World), (∀ j, (w.heap j).mapped = true ∧ (w.heap j).ref = none) →
      ∀ j, ((populate w bs).heap j).mapped = true ∧ ((populate w bs).heap j).ref = none := by
    intro bs
    induction bs with
    | nil => intro w h; exact h
    | cons b bs ih =>
      intro w h
      refine ih _ fun j => ?_
      by_cases hj : j = w.next
      · subst hj; rw [create_self]; exact ⟨rfl, rfl⟩
      · rw [create_ne _ _ hj]; exact h j
  exact this publishBodies _ (fun _ => ⟨rfl, rfl⟩) j

/-- The kind of what is found -/
def Res.kindIs (k : Kind) : Res → Bool
  | .found _ d _ => decide (d.kind = k)
  | _ => false

theorem Res.of_kindIs {k : Kind} {x : Res} (h : x.kindIs k = true) : ∃ s d b, x = .found s d b ∧ d.kind = k := by
  cases x with
  | found s d b => exact ⟨s, d, b, rfl, of_decide_eq_true h⟩
  | _ => cases h

theorem publish_first : publishFirst = (.ok (okRef publishFirst), publishFirst.2) := of_isOk (by decide +kernel)

theorem publish_second : publishSecond = (.ok (okRef publishSecond), publishSecond.2) := of_isOk (by decide +kernel)

theorem publish_alone (i : ObjId) : Alone sampleRealm publishWorld.heap i := by
  intro nm _ j _ ref href
  rw [(publish_new j).2] at href; cases href

theorem publish_storable {i : ObjId} (hi : i < 6) : Storable publishWorld.heap i :=
  storable_of_check (n := 6) (by decide +kernel) hi

theorem publish_saves : Saves sampleCfg sampleRealm publishWorld 4 publishFirst.2 ∧
    Saves sampleCfg sampleRealm publishFirst.2 5 publishSecond.2 ∧ (publishWorld.heap 4).kind = .tvl ∧
    (publishFirst.2.heap 5).kind = .uuidset ∧
    SameContent sampleCfg publishWorld.repo.log publishWorld.heap (.mem 5) publishFirst.2.repo.log publishFirst.2.heap (.mem 5) ∧
    Grows publishFirst.2.repo.log publishSecond.2.repo.log ∧
    refOf publishSecond.2.repo.log sampleRealm tvlRefName = refOf publishFirst.2.repo.log sampleRealm tvlRefName := by
  have hc : CollisionFree sampleCfg publishSecond.2.repo.log := collisionFree_of_check (by decide +kernel)
  obtain ⟨h1, h2, h3, h4⟩ := publish_session.1.saves (by decide) (t := 4) (u := 5) (by decide +kernel)
    (by decide +kernel) (publish_new _).1 (publish_new _).1 (publish_session.2 _) (publish_session.2 _)
    (publish_storable (by decide)) (publish_storable (by decide)) (publish_alone _) (publish_alone _)
    (fun p hp => by rw [publish_session.2] at hp; cases hp) publish_first publish_second hc
  exact ⟨h1, h2, by decide +kernel, h3, h4⟩

/-- The hypotheses hold for a session with a record, and a later process that asks for it with any
`auto_create`.  The record that it gets has the metadata of the first session. -/
example (auto : Option Bool) : ∃ t' u' m w',
    topRecord sampleCfg auto c!"0.2" sampleRealm sampleUuid c!"v1" ⟨[], []⟩ [] none (start ⟨publishSecond.2.repo.log, []⟩) =
      (.ok (some (t', u'), some m), w') ∧
    (look sampleCfg w'.repo.log w'.heap [.dlm] [] (.mem m)).extractors = 1 := by
  have hc : CollisionFree sampleCfg publishSecond.2.repo.log := collisionFree_of_check (by decide +kernel)
  obtain ⟨t', u', m, w', h, hl⟩ := C63_sessions_partial (by decide) publish_session.1 (t := 4) (u := 5) (by decide +kernel)
    (by decide +kernel) (publish_new _).1 (publish_new _).1 (publish_session.2 _) (publish_session.2 _)
    (publish_storable (by decide)) (publish_storable (by decide)) (publish_alone _) (publish_alone _)
    (fun p hp => by rw [publish_session.2] at hp; cases hp) publish_first publish_second (Grows.refl _) (fun _ => rfl) hc auto c!"0.2" sampleUuid
    c!"v1" ⟨[], []⟩ (path := []) (fun n hn => by cases hn) (Or.inr ⟨rfl, rfl, rfl, rfl⟩) rfl
    (Res.of_kindIs (by decide +kernel))
    (fun q hq => by
      have : q = [] := by rcases hq with rfl | rfl <;> rfl
      subst this
      exact Res.of_kindIs (by decide +kernel))
    (Res.of_notAbsent (by decide +kernel)) (fun q => absurd rfl q)
  refine ⟨t', u', m, w', h, ?_⟩
  rw [hl]
  decide +kernel

/-- The same for the element of the version list. -/
example : ∃ t' u' w1 x w2 s m w3,
    topLevel sampleCfg sampleRealm (start ⟨publishSecond.2.repo.log, []⟩) = (.ok (some (t', u')), w1) ∧
    getVersionList sampleCfg u' sampleUuid w1 = (.ok x, w2) ∧
    getVersioned sampleCfg x c!"v1" ⟨[], []⟩ w2 = (.ok (s, ⟨[], []⟩, m), w3) ∧
    (look sampleCfg w3.repo.log w3.heap [.dlm] s (.mem m)).extractors = 1 := by
  obtain ⟨s1, s2, k1, k2, e2, g1, n1⟩ := publish_saves
  have hc : CollisionFree sampleCfg publishSecond.2.repo.log := collisionFree_of_check (by decide +kernel)
  generalize publishSecond.2 = v at *
  obtain ⟨t', u', w1, x, w2, s, m, w3, h1, h2, h3, hl⟩ := C63_listed_partial (by decide) s1 k1 s2 k2
    (w := start ⟨v.repo.log, []⟩) (start_sound _) rfl hc g1 n1 (Grows.refl _) rfl (ds := sampleUuid)
    (v := c!"v1") (p := ⟨[], []⟩) (by rw [← e2]; exact Res.of_notAbsent (by decide +kernel))
  refine ⟨t', u', w1, x, w2, s, m, w3, h1, h2, h3, ?_⟩
  rw [hl, ← e2]
  decide +kernel

end MM
