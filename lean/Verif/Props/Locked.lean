/-
C68: sessions that hold the lock of the repository keep each other's metadata.
-/
import Verif.Crew
import Verif.Props.Sessions

namespace MM

variable {C : Cfg} {r : Realm}

/-! ### What the repository keeps -/

/-- The record of a request was in `t` and `u` when they were saved. -/
structure Backed (C : Cfg) (pr : Promise) (v : World) (t u : ObjId) : Prop where
  sound : Sound C v
  kind : (v.heap t).kind = .tvl
  done : Done v t u pr.ask.ds pr.ask.dv pr.ask.pre pr.ask.path pr.ask.root pr.ask.rv pr.ask.m
  path : ∀ n ∈ pr.ask.path, CompOk n
  proper : Proper C v.repo.log v.heap (.mem t)
  same : ∀ ks, look C pr.w.repo.log pr.w.heap ks [] (.mem pr.ask.m) = look C v.repo.log v.heap ks [] (.mem pr.ask.m)

/-- Everything that was saved with the record of a request is in the repository. -/
def KeptIn (C : Cfg) (r : Realm) (L : Log) (pr : Promise) : Prop :=
  ∃ v t u, Backed C pr v t u ∧ (∀ h, Over C v.repo.log v.heap (.mem t) L h (.sto r tvlLink)) ∧
    ∀ h, Over C v.repo.log v.heap (.mem u) L h (.sto r uuidSetLink)

theorem KeptIn.mono {L L' : Log} {pr : Promise} (h : KeptIn C r L pr)
    (ht : ∀ h, Over C L h (.sto r tvlLink) L' h (.sto r tvlLink))
    (hu : ∀ h, Over C L h (.sto r uuidSetLink) L' h (.sto r uuidSetLink)) : KeptIn C r L' pr := by
  obtain ⟨v, t, u, b, h1, h2⟩ := h
  exact ⟨v, t, u, b, fun h => (h1 h).trans (ht h), fun h => (h2 h).trans (hu h)⟩

/-- The repository between steps: no UUID set was ever saved, or both top-level objects are there, with
everything that was saved. -/
def Base (C : Cfg) (r : Realm) (L : Log) (saved : List Promise) : Prop :=
  (refOf L r uuidSetRefName = none ∧ saved = []) ∨ (Stocked C r L ∧ ∀ pr ∈ saved, KeptIn C r L pr)

theorem Stocked.named {L : Log} (h : Stocked C r L) : refOf L r uuidSetRefName ≠ none := fun e =>
  (h uuidSetLink uuidSetRefName (Or.inr ⟨rfl, rfl⟩) (start ⟨L, []⟩).heap).1 [] []
    (unset_missing (Or.inr ⟨rfl, rfl⟩) e _ _ _)

theorem Base.after {L L' : Log} {saved : List Promise} (h : Base C r L saved) (hg : Grows L L') (hn : TopKept r L L')
    (hc : CollisionFree C L') : Base C r L' saved := by
  rcases h with ⟨h1, h2⟩ | ⟨h1, h2⟩
  · exact Or.inl ⟨(hn _ (Or.inr rfl)).trans h1, h2⟩
  · obtain ⟨st, same⟩ := h1.after (L' := L') ⟨hg, hn, hc⟩
    exact Or.inr ⟨st, fun pr hpr => (h2 pr hpr).mono (fun h => (same tvlLink tvlRefName (Or.inl ⟨rfl, rfl⟩) h h).over)
      fun h => (same uuidSetLink uuidSetRefName (Or.inr ⟨rfl, rfl⟩) h h).over⟩

/-- An object has everything that the repository shows under the name of the object. -/
def Covers (C : Cfg) (r : Realm) (L : Log) (l : Link) (v : World) (i : ObjId) : Prop :=
  refOf L r uuidSetRefName = none ∨ ∀ h, Over C L h (.sto r l) v.repo.log v.heap (.mem i)

theorem Covers.over {L : Log} {l : Link} {v v' : World} {i : ObjId} (h : Covers C r L l v i)
    (ho : Over C v.repo.log v.heap (.mem i) v'.repo.log v'.heap (.mem i)) : Covers C r L l v' i :=
  h.imp id fun h x => (h x).trans ho

theorem Covers.later {L L' : Log} {saved : List Promise} {l : Link} {nm : Str} {v : World} {i : ObjId} (h : Covers C r L l v i)
    (hb : Base C r L saved) (hl : Named l nm) (hg : Grows L L') (hc : CollisionFree C L')
    (hn : refOf L' r nm = refOf L r nm) (hu : refOf L' r uuidSetRefName = refOf L r uuidSetRefName) : Covers C r L' l v i := by
  rcases h with h | h
  · exact Or.inl (hu.trans h)
  · rcases hb with ⟨h1, _⟩ | ⟨h1, _⟩
    · exact Or.inl (hu.trans h1)
    · exact Or.inr fun x => (named_kept hg hc hl hn (Or.inr fun h0 => (h1 l nm hl h0).1) x).symm.over.trans (h x)

/-- Both objects are shown now. -/
theorem Base.both {L L' : Log} {saved : List Promise} (h : Base C r L saved) {v v' : World} {t u : ObjId}
    (ht : Covers C r L tvlLink v t) (hu : Covers C r L uuidSetLink v' u) (st : Shows C r v t L' tvlLink)
    (su : Shows C r v' u L' uuidSetLink) (pt : Proper C v.repo.log v.heap (.mem t))
    (pu : Proper C v'.repo.log v'.heap (.mem u)) : Stocked C r L' ∧ ∀ pr ∈ saved, KeptIn C r L' pr := by
  constructor
  · intro l nm hl x
    rcases hl with ⟨rfl, rfl⟩ | ⟨rfl, rfl⟩
    · exact ⟨st.full x, pt.of_same (st.same x)⟩
    · exact ⟨su.full x, pu.of_same (su.same x)⟩
  · intro pr hpr
    rcases h with ⟨_, rfl⟩ | ⟨h1, h2⟩
    · cases hpr
    · have ht := ht.resolve_left h1.named
      have hu := hu.resolve_left h1.named
      exact (h2 pr hpr).mono (fun x => (ht x).trans (st.same x).over) fun x => (hu x).trans (su.same x).over

/-- The tree version list was written, perhaps in part. -/
theorem Base.tree {L' : Log} {saved : List Promise} {v : World} {t : ObjId} (h : Base C r v.repo.log saved)
    (ht : Covers C r v.repo.log tvlLink v t) (m : Moved C r v t tvlLink tvlRefName L') (hc : CollisionFree C L')
    (pt : Proper C v.repo.log v.heap (.mem t)) : Base C r L' saved := by
  have hu := m.others uuidSetRefName (by decide)
  rcases m.name with hn | hs
  · refine h.after m.grows (fun nm hnm => ?_) hc
    rcases hnm with rfl | rfl
    · exact hn
    · exact hu
  · rcases h with ⟨h1, h2⟩ | ⟨h1, h2⟩
    · exact Or.inl ⟨hu.trans h1, h2⟩
    · have ht := ht.resolve_left h1.named
      have same : ∀ x, SameContent C v.repo.log x (.sto r uuidSetLink) L' x (.sto r uuidSetLink) := fun x =>
        named_kept m.grows hc (Or.inr ⟨rfl, rfl⟩) hu (Or.inr fun h0 => (h1 uuidSetLink uuidSetRefName (Or.inr ⟨rfl, rfl⟩) h0).1) x
      refine Or.inr ⟨fun l nm hl x => ?_, fun pr hpr => (h2 pr hpr).mono (fun x => (ht x).trans (hs.same x).over) fun x => (same x).over⟩
      rcases hl with ⟨rfl, rfl⟩ | ⟨rfl, rfl⟩
      · exact ⟨hs.full x, pt.of_same (hs.same x)⟩
      · obtain ⟨f, p⟩ := h1 uuidSetLink uuidSetRefName (Or.inr ⟨rfl, rfl⟩) x
        exact ⟨Full.of_same (same x) f, p.of_same (same x)⟩

/-! ### The invariant -/

/-- The records of the requests of a session are in its objects. -/
def AskedOk (v : World) (g t u : ObjId) (asked : List Ask) : Prop :=
  ∀ a ∈ asked, g ≤ a.m ∧ (∀ n ∈ a.path, CompOk n) ∧ Done v t u a.ds a.dv a.pre a.path a.root a.rv a.m

theorem AskedOk.stays {v v' : World} {g t u : ObjId} {asked : List Ask} (h : AskedOk v g t u asked) (hf : Fine C v)
    (hs : Stays v v') : AskedOk v' g t u asked := fun a ha => ⟨(h a ha).1, (h a ha).2.1, (h a ha).2.2.stays hf hs⟩

/-- The UUID set can be written after the tree version list. -/
structure HalfOk (C : Cfg) (r : Realm) (u : ObjId) (v v1 : World) : Prop where
  intact : Intact C r v1
  storable : Storable v1.heap u
  trusted : Trusted C r v1 u
  owned : Owned r v1.heap u
  alone : Alone r v1.heap u
  kind : (v1.heap u).kind = .uuidset
  shown : r ∈ (v1.heap u).savedOn → (v1.heap u).ref = some uuidSetLink.ref
  same : SameContent C v.repo.log v.heap (.mem u) v1.repo.log v1.heap (.mem u)

/-- What holds for a process -/
def StageOk (C : Cfg) (r : Realm) (R : Repo) : Stage → Prop
  | .out => True
  | .works g t u w asked => ∃ v, Bench C r g t u (outside R.log R.faults w) v ∧ Covers C r R.log tvlLink v t ∧
      Covers C r R.log uuidSetLink v u ∧ AskedOk v g t u asked
  | .half g t u w0 w asked => ∃ v v1, Bench C r g t u w0 v ∧ AskedOk v g t u asked ∧
      Side (fun j => g ≤ j) (outside R.log R.faults w) v1 ∧ HalfOk C r u v v1 ∧ Covers C r R.log uuidSetLink v u ∧
      Shows C r v t R.log tvlLink

theorem StageOk.others {R : Repo} {saved : List Promise} {x : Stage} (h : StageOk C r R x) (hb : Base C r R.log saved)
    {L : Log} {fs : List Fault} (hg : Grows R.log L) (hn : TopKept r R.log L) (hc : CollisionFree C L) :
    StageOk C r ⟨L, fs⟩ x := by
  have hu := hn uuidSetRefName (Or.inr rfl)
  have ht := hn tvlRefName (Or.inl rfl)
  cases x with
  | out => trivial
  | works g t u w asked =>
    obtain ⟨v, b, ut, uu, ha⟩ := h
    obtain ⟨b', hl⟩ := b.others (L := L) (fs := fs) (Or.inl ht) (Or.inl hu) hg hc
    exact ⟨outside L fs v, b', (ut.later hb (Or.inl ⟨rfl, rfl⟩) hg hc ht hu).over (hl t).over,
      (uu.later hb (Or.inr ⟨rfl, rfl⟩) hg hc hu hu).over (hl u).over,
      ha.stays b.desk.sound.fine ⟨Nat.le_refl _, fun _ _ => rfl, fun _ _ h => h, fun _ _ _ _ _ h => h⟩⟩
  | half g t u w0 w asked =>
    obtain ⟨v, v1, b, ha, hs, hh, uu, sh⟩ := h
    have hR : v1.repo.log = R.log := by rw [hs.repo]; rfl
    rw [← hR] at hg hn
    obtain ⟨hi, htr⟩ := hh.intact.others (fs := fs) hg hn hc
    refine ⟨v, outside L fs v1, b, ha, ⟨hs.heap, hs.next, rfl, hs.caches, hs.refs, hs.subs, hs.fresh⟩,
      ⟨hi, hh.storable, fun j hj => htr j (hh.trusted j hj), hh.owned, hh.alone, hh.kind, hh.shown,
        hh.same.trans (hh.intact.others_look hg hn hc u)⟩, ?_, ?_⟩
    · exact uu.later hb (Or.inr ⟨rfl, rfl⟩) (by rw [← hR]; exact hg) hc hu hu
    · exact sh.later (Or.inl ⟨rfl, rfl⟩) (by rw [← hR]; exact hg) hc ht

/-- What holds after any steps -/
structure CrewInv (C : Cfg) (r : Realm) (file : Str → Str) (P : Pid → Str) (s : Crew) : Prop where
  locks : LockInv file (fun p a => a = P p) s.locks
  active : ∀ p, s.stage p ≠ .out → s.holds P p
  base : Base C r s.repo.log s.saved
  stages : ∀ p, StageOk C r s.repo (s.stage p)

/-- Only one process has the lock. -/
theorem CrewInv.one {file : Str → Str} {P : Pid → Str} (hP : ∀ p q, file (lockDir (P p)) = file (lockDir (P q))) {s : Crew}
    (h : CrewInv C r file P s) {p q : Pid} (hp : s.holds P p) (hq : s.holds P q) : p = q := by
  have h1 := (h.locks.holds (file (lockDir (P p))) p).mpr ⟨P p, rfl, rfl, hp⟩
  have h2 := (h.locks.holds (file (lockDir (P p))) q).mpr ⟨P q, rfl, hP q p, hq⟩
  rw [h1] at h2
  cases h2; rfl

/-- A step of the process that has the lock -/
theorem CrewInv.set {file : Str → Str} {P : Pid → Str} (hP : ∀ p q, file (lockDir (P p)) = file (lockDir (P q))) {s : Crew}
    (h : CrewInv C r file P s) {p : Pid} (hp : s.holds P p) {R : Repo} {x : Stage} {saved : List Promise}
    (hb : Base C r R.log saved) (hx : StageOk C r R x) :
    CrewInv C r file P ⟨R, s.locks, setAt s.stage p x, saved⟩ := by
  refine ⟨h.locks, fun q hq => ?_, hb, fun q => ?_⟩
  · by_cases e : q = p
    · rw [e]; exact hp
    · exact h.active q (by simpa [setAt, e] using hq)
  · show StageOk C r R (setAt s.stage p x q)
    by_cases e : q = p
    · rw [e, setAt_self]; exact hx
    · rw [setAt_ne _ _ e]
      cases hs : s.stage q with
      | out => trivial
      | works g t u w asked => exact absurd (h.one hP (h.active q (by rw [hs]; intro e; cases e)) hp) e
      | half g t u w0 w asked => exact absurd (h.one hP (h.active q (by rw [hs]; intro e; cases e)) hp) e

theorem lock_holds {file : Str → Str} {able : Bool} {p q : Pid} {a d : Str} {s : Locks} (h : 0 < s.counter q d) :
    0 < (lockBackend file able p a s).2.counter q d := by
  unfold lockBackend
  simp only
  split
  · exact h
  · split
    · split
      · exact h
      · split
        · rw [count_counter]
          split
          · exact Nat.succ_pos _
          · exact h
        · exact h
    · rw [count_counter]
      split
      · exact Nat.succ_pos _
      · exact h

theorem unlock_counter {file : Str → Str} {p q : Pid} {a d : Str} {s : Locks} :
    (unlockBackend file p a s).2.counter q d = s.counter q d ∨
      (q = p ∧ d = lockDir a ∧ (unlockBackend file p a s).2.counter q d = s.counter q d - 1) := by
  have key : ∀ n, n = s.counter p (lockDir a) - 1 → (s.count p (lockDir a) n).counter q d = s.counter q d ∨
      (q = p ∧ d = lockDir a ∧ (s.count p (lockDir a) n).counter q d = s.counter q d - 1) := by
    intro n hn
    rw [count_counter]
    split
    · rename_i e
      refine Or.inr ⟨e.1, e.2, ?_⟩
      rw [hn, e.1, e.2]
    · exact Or.inl rfl
  unfold unlockBackend
  simp only
  split
  · exact Or.inl rfl
  · split
    · exact Or.inl rfl
    · split
      · exact key _ rfl
      · exact key _ rfl

theorem CrewStep.inv (hr : r ≠ []) {file : Str → Str} {P : Pid → Str}
    (hP : ∀ p q, file (lockDir (P p)) = file (lockDir (P q))) {s s' : Crew} (h : CrewInv C r file P s)
    (hs : CrewStep C r file P s s') (hc : CollisionFree C s'.repo.log) : CrewInv C r file P s' := by
  have hsp : Spelled file (fun p a => a = P p) := fun p a b ha hb _ => ha.trans hb.symm
  have active : ∀ {p x}, s.stage p = x → x ≠ .out → s.holds P p := fun e hx => h.active _ (by rw [e]; exact hx)
  cases hs with
  | locks p able => exact ⟨h.locks.lock rfl able, fun q hq => lock_holds (h.active q hq), h.base, h.stages⟩
  | unlocks p hp =>
    refine ⟨h.locks.unlock hsp rfl, fun q hq => ?_, h.base, h.stages⟩
    have hq' := h.active q hq
    show 0 < (unlockBackend file p (P p) s.locks).2.counter q (lockDir (P q))
    rcases unlock_counter (file := file) (p := p) (q := q) (a := P p) (d := lockDir (P q)) (s := s.locks) with e | ⟨e1, _, e⟩
    · rw [e]; exact hq'
    · rw [e]
      subst e1
      rcases hp with hp | hp
      · exact absurd hp hq
      · omega
  | ends p =>
    refine ⟨h.locks.ends p, fun q hq => ?_, h.base, fun q => ?_⟩
    · by_cases e : q = p
      · exact absurd (show setAt s.stage p Stage.out q = .out by rw [e, setAt_self]) hq
      · have := h.active q (by simpa [setAt, e] using hq)
        show 0 < setAt s.locks.counter p (fun _ => 0) q _
        rw [setAt_ne _ _ e]
        exact this
    · show StageOk C r s.repo (setAt s.stage p .out q)
      by_cases e : q = p
      · rw [e, setAt_self]; trivial
      · rw [setAt_ne _ _ e]; exact h.stages q
  | leaves p =>
    refine ⟨h.locks, fun q hq => ?_, h.base, fun q => ?_⟩
    · by_cases e : q = p
      · exact absurd (show setAt s.stage p Stage.out q = .out by rw [e, setAt_self]) hq
      · exact h.active q (by simpa [setAt, e] using hq)
    · show StageOk C r s.repo (setAt s.stage p .out q)
      by_cases e : q = p
      · rw [e, setAt_self]; trivial
      · rw [setAt_ne _ _ e]; exact h.stages q
  | finds p i t u w hp hst hi htop =>
    have hlog : w.repo.log = s.repo.log := by
      have := logKept_topLevel (C := C) (r := r) i
      rw [htop] at this
      exact this.trans (by rw [hi.repo])
    have st : Stocked C r s.repo.log := by
      rcases h.base with ⟨h1, _⟩ | ⟨h1, _⟩
      · exact absurd (by rw [hi.repo]; exact h1) (found_named htop)
      · exact h1
    have ho : Opens C r s.repo i.next t u w := .found i t u w hi st htop
    obtain ⟨v, b⟩ := ho.bench hr
    refine h.set hP hp (by rw [hlog]; exact h.base) ⟨v, b, ?_, ?_, fun a ha => by cases ha⟩
    · rw [hlog]
      exact Or.inr fun x => ((opened_content hr hi st htop x).1.trans (b.look b.gt)).over
    · rw [hlog]
      exact Or.inr fun x => ((opened_content hr hi st htop x).2.trans (b.look b.gu)).over
  | makes p i w hp hst hf hi htop =>
    have hlog : w.repo.log = s.repo.log := by
      have := logKept_topLevel (C := C) (r := r) i
      rw [htop] at this
      exact this.trans (by rw [hi.repo])
    have hn : refOf s.repo.log r uuidSetRefName = none := by
      rcases h.base with ⟨h1, _⟩ | ⟨h1, _⟩
      · exact h1
      · obtain ⟨w2, h2⟩ := hi.finds hr hf h1
        rw [htop] at h2
        cases h2
    have ho := Opens.made _ w hi htop
    obtain ⟨v, b⟩ := ho.bench hr
    exact h.set hP hp (by rw [hlog]; exact h.base) ⟨v, b, Or.inl (by rw [hlog]; exact hn), Or.inl (by rw [hlog]; exact hn),
      fun a ha => by cases ha⟩
  | calls p g t u w w' asked hst hb =>
    have hok := h.stages p
    rw [hst] at hok
    obtain ⟨v, b, ut, uu, ha⟩ := hok
    have hlog : w'.repo.log = s.repo.log := hb.log
    obtain ⟨v', b', sy, ri⟩ := b.busy hr hb
    refine h.set hP (active hst (by intro e; cases e)) (by rw [hlog]; exact h.base) ⟨v', b', ?_, ?_, ha.stays b.desk.sound.fine sy⟩
    · rw [hlog]; exact ut.over (ri t b.desk.tl)
    · rw [hlog]; exact uu.over (ri u b.desk.ul)
  | asks p g t u w w' asked auto now a hst hca hpa hask =>
    have hok := h.stages p
    rw [hst] at hok
    obtain ⟨v, b, ut, uu, ha⟩ := hok
    have hbusy : Busy C g t u (s.now w) w' := by
      have := Busy.asked (C := C) (g := g) (t := t) (u := u) (s.now w) auto now a.ds a.dv a.pre a.path a.root a.rv .refl hca hpa
      rw [hask] at this
      exact this
    have hlog : w'.repo.log = s.repo.log := hbusy.log
    obtain ⟨e, _, _, hm⟩ := twin_rootRecord (C := C) b.gt b.gu auto now a.ds a.dv a.pre a.path a.root a.rv (s.now w) v b.side
    rw [hask] at e hm
    cases hx : rootRecord C auto now t u a.ds a.dv a.pre a.path a.root a.rv v with
    | mk res v' =>
      rw [hx] at e
      simp only at e
      subst e
      have d2 := b.desk.rootRecord hr auto now a.ds a.dv hca hpa a.root a.rv hx
      have run := rootRecord_run b.desk.sound auto now b.desk.tl b.desk.tk b.desk.ul b.desk.uk a.ds a.dv a.pre
        (fun n hn => (hpa n hn).1) a.root a.rv hx
      have b' := b.step (twin_rootRecord b.gt b.gu auto now a.ds a.dv a.pre a.path a.root a.rv) (by rw [hx]; exact d2)
      have hask' : rootRecord C auto now t u a.ds a.dv a.pre a.path a.root a.rv (outside s.repo.log s.repo.faults w) =
        (.ok (some a.m), w') := hask
      rw [hask', hx] at b'
      have sy := run.part.gained.grown.stays
      have ri := run.part.gained.held.richer
      refine h.set hP (active hst (by intro e; cases e)) (by rw [hlog]; exact h.base) ⟨v', b', ?_, ?_, ?_⟩
      · rw [hlog]; exact ut.over (ri t b.desk.tl)
      · rw [hlog]; exact uu.over (ri u b.desk.ul)
      · intro x hx
        rcases List.mem_cons.mp hx with rfl | hx
        · exact ⟨hm (some x.m) rfl x.m rfl, fun n hn => (hpa n hn).1, run.done x.m rfl⟩
        · exact ha.stays b.desk.sound.fine sy x hx
  | saves p g t u w w' asked n force ref hst hw =>
    have hok := h.stages p
    rw [hst] at hok
    obtain ⟨v, b, ut, uu, ha⟩ := hok
    have hw : writeOut C n (some r) force t (outside s.repo.log s.repo.faults w) = (.ok ref, w') := hw
    obtain ⟨e1, s1, _⟩ := twin_writeOut (C := C) n (dest := some r) (force := force) b.gt _ v b.side
    rw [hw] at e1 s1
    have hlog : v.repo.log = s.repo.log := by rw [b.side.repo]; rfl
    have d := b.desk
    cases hv : writeOut C n (some r) force t v with
    | mk res v1 =>
      rw [hv] at e1 s1
      simp only at e1 s1
      subst e1
      have hc1 : CollisionFree C v1.repo.log := by rw [s1.repo]; exact hc
      have hsuf := (d.intact.steps hr hv hc1 (d.storable d.tl) (fun j _ => d.truth j) d.rooted.tree_owned).suffix
      have mv := d.intact.moved hr hv hc1 (d.storable d.tl) (fun j _ => d.truth j) d.rooted.tree_owned
        (nm := tvlRefName) (Or.inl ⟨rfl, rfl⟩) d.tk (L := v1.repo.log) hsuf List.suffix_rfl
      obtain ⟨hd, hu, htr, how, hal⟩ := d.after_tree hr hv hc1
      have sh := d.intact.shown hr hv hc1 (d.storable d.tl) d.alone_tree (fun j _ => d.truth j) d.rooted.tree_owned
        (nm := tvlRefName) (Or.inl ⟨rfl, rfl⟩) d.tk d.tshown
      have hb' : Base C r v.repo.log s.saved := by rw [hlog]; exact h.base
      have bt : Base C r v1.repo.log s.saved := hb'.tree (by rw [hlog]; exact ut) mv hc1 (d.all_proper t d.tl)
      have e2 := mv.others uuidSetRefName (by decide)
      have uu' : Covers C r v1.repo.log uuidSetLink v u :=
        Covers.later (L := v.repo.log) (by rw [hlog]; exact uu) hb' (Or.inr ⟨rfl, rfl⟩) mv.grows hc1 e2 e2
      rw [s1.repo] at bt uu' sh
      exact h.set hP (active hst (by intro e; cases e)) bt ⟨v, v1, b, ha, s1,
        ⟨hd.intact, (d.storable d.ul).mono hd.tried.any.same, htr, how, hal, by rw [hu]; exact d.uk, by rw [hu]; exact d.ushown,
          hd.look u⟩, uu', sh⟩
  | savesBoth p g t u w0 w w' asked n force ref hst hw =>
    have hok := h.stages p
    rw [hst] at hok
    obtain ⟨v, v1, b, ha, hs, hh, uu, sh⟩ := hok
    have hw : writeOut C n (some r) force u (outside s.repo.log s.repo.faults w) = (.ok ref, w') := hw
    obtain ⟨e1, s1, _⟩ := twin_writeOut (C := C) n (dest := some r) (force := force) b.gu _ v1 hs
    rw [hw] at e1 s1
    have hlog : v1.repo.log = s.repo.log := by rw [hs.repo]; rfl
    have d := b.desk
    cases hv : writeOut C n (some r) force u v1 with
    | mk res v2 =>
      rw [hv] at e1 s1
      simp only at e1 s1
      subst e1
      have hc2 : CollisionFree C v2.repo.log := by rw [s1.repo]; exact hc
      have hsuf := (hh.intact.steps hr hv hc2 hh.storable hh.trusted hh.owned).suffix
      have mv := hh.intact.moved hr hv hc2 hh.storable hh.trusted hh.owned (nm := uuidSetRefName) (Or.inr ⟨rfl, rfl⟩) hh.kind
        (L := v2.repo.log) hsuf List.suffix_rfl
      have su1 := hh.intact.shown hr hv hc2 hh.storable hh.alone hh.trusted hh.owned (nm := uuidSetRefName) (Or.inr ⟨rfl, rfl⟩)
        hh.kind hh.shown
      have su : Shows C r v u v2.repo.log uuidSetLink := ⟨fun h0 => hh.same.trans (su1.same h0), su1.full⟩
      have hg : Grows s.repo.log v2.repo.log := by rw [← hlog]; exact mv.grows
      have st : Shows C r v t v2.repo.log tvlLink :=
        sh.later (Or.inl ⟨rfl, rfl⟩) hg hc2 (by rw [← hlog]; exact mv.others tvlRefName (by decide))
      have ut : Covers C r s.repo.log tvlLink v t := Or.inr fun x => (sh.same x).symm.over
      obtain ⟨stk, old⟩ := h.base.both ut uu st su (d.all_proper t d.tl) (d.all_proper u d.ul)
      rw [s1.repo] at stk old st su
      refine h.set hP (active hst (by intro e; cases e)) (Or.inr ⟨stk, fun pr hpr => ?_⟩) trivial
      rcases List.mem_append.mp hpr with hpr | hpr
      · obtain ⟨a, ham, rfl⟩ := List.mem_map.mp hpr
        obtain ⟨g1, g2, g3⟩ := ha a ham
        exact ⟨v, t, u, ⟨d.sound, d.tk, g3, g2, d.all_proper t d.tl, fun ks => b.look g1 ks []⟩,
          fun x => (st.same x).over, fun x => (su.same x).over⟩
      · exact old pr hpr
  | stopsFirst p g t u w w' asked n force x L fs hst hw hcw h1 h2 =>
    have hok := h.stages p
    rw [hst] at hok
    obtain ⟨v, b, ut, uu, ha⟩ := hok
    have hw : writeOut C n (some r) force t (outside s.repo.log s.repo.faults w) = (x, w') := hw
    obtain ⟨e1, s1, _⟩ := twin_writeOut (C := C) n (dest := some r) (force := force) b.gt _ v b.side
    rw [hw] at e1 s1
    have hlog : v.repo.log = s.repo.log := by rw [b.side.repo]; rfl
    have d := b.desk
    cases hv : writeOut C n (some r) force t v with
    | mk res v1 =>
      rw [hv] at e1 s1
      simp only at e1 s1
      subst e1
      have mv := d.intact.moved hr hv (by rw [s1.repo]; exact hcw) (d.storable d.tl) (fun j _ => d.truth j) d.rooted.tree_owned
        (nm := tvlRefName) (Or.inl ⟨rfl, rfl⟩) d.tk (L := L) (by rw [hlog]; exact h1) (by rw [s1.repo]; exact h2)
      have hb' : Base C r v.repo.log s.saved := by rw [hlog]; exact h.base
      exact h.set hP (active hst (by intro e; cases e)) (hb'.tree (by rw [hlog]; exact ut) mv hc (d.all_proper t d.tl)) trivial
  | stopsSecond p g t u w0 w w' asked n force x L fs hst hw hcw h1 h2 =>
    have hok := h.stages p
    rw [hst] at hok
    obtain ⟨v, v1, b, ha, hs, hh, uu, sh⟩ := hok
    have hw : writeOut C n (some r) force u (outside s.repo.log s.repo.faults w) = (x, w') := hw
    obtain ⟨e1, s1, _⟩ := twin_writeOut (C := C) n (dest := some r) (force := force) b.gu _ v1 hs
    rw [hw] at e1 s1
    have hlog : v1.repo.log = s.repo.log := by rw [hs.repo]; rfl
    have d := b.desk
    cases hv : writeOut C n (some r) force u v1 with
    | mk res v2 =>
      rw [hv] at e1 s1
      simp only at e1 s1
      subst e1
      have mv := hh.intact.moved hr hv (by rw [s1.repo]; exact hcw) hh.storable hh.trusted hh.owned (nm := uuidSetRefName)
        (Or.inr ⟨rfl, rfl⟩) hh.kind (L := L) (by rw [hlog]; exact h1) (by rw [s1.repo]; exact h2)
      have hg : Grows s.repo.log L := by rw [← hlog]; exact mv.grows
      have ht : refOf L r tvlRefName = refOf s.repo.log r tvlRefName := by rw [← hlog]; exact mv.others tvlRefName (by decide)
      refine h.set hP (active hst (by intro e; cases e)) ?_ trivial
      rcases mv.name with hn | su1
      · refine h.base.after hg (fun nm hnm => ?_) hc
        rcases hnm with rfl | rfl
        · exact ht
        · rw [← hlog]; exact hn
      · have su : Shows C r v u L uuidSetLink := ⟨fun h0 => hh.same.trans (su1.same h0), su1.full⟩
        have st : Shows C r v t L tvlLink := sh.later (Or.inl ⟨rfl, rfl⟩) hg hc ht
        exact Or.inr (h.base.both (Or.inr fun x => (sh.same x).symm.over) uu st su (d.all_proper t d.tl) (d.all_proper u d.ul))
  | others L fs hg hn =>
    exact ⟨h.locks, h.active, h.base.after hg hn hc, fun q => (h.stages q).others h.base hg hn hc⟩

theorem CrewRun.inv (hr : r ≠ []) {file : Str → Str} {P : Pid → Str}
    (hP : ∀ p q, file (lockDir (P p)) = file (lockDir (P q))) {repo : Repo} {dirs : Str → Bool}
    (h0 : refOf repo.log r uuidSetRefName = none ∨ Stocked C r repo.log) {s : Crew}
    (h : CrewRun C r file P (Crew.start repo dirs) s) : CrewInv C r file P s := by
  induction h with
  | refl =>
    refine ⟨LockInv.start _ _ _, fun p hp => absurd rfl hp, ?_, fun _ => trivial⟩
    exact h0.imp (fun h => ⟨h, rfl⟩) fun h => ⟨h, fun pr hpr => by cases hpr⟩
  | step s1 s2 _ hs hc ih => exact hs.inv hr hP ih hc

/-! ### C68 -/

/-- C68: processes share a repository, which has both top-level objects or no UUID set.  They lock it,
and only a process that has the lock opens it and has a session; sessions work, save, fail and stop
anywhere, and others change other names.  Whatever the order: at every later moment, also while a session
is saving, a process that asks for a record which a session got and saved gets one that has everything the
record had when it was saved: the same data at the same places, and metadata with the same runs and those
that were added since. -/
theorem C68_kept (hr : r ≠ []) {file : Str → Str} {P : Pid → Str}
    (hP : ∀ p q, file (lockDir (P p)) = file (lockDir (P q))) {repo : Repo} {dirs : Str → Bool}
    (h0 : refOf repo.log r uuidSetRefName = none ∨ Stocked C r repo.log) {s : Crew}
    (h : CrewRun C r file P (Crew.start repo dirs) s) {pr : Promise} (hpr : pr ∈ s.saved) {i : World} (hi : Idle ⟨s.repo.log, []⟩ i)
    (auto : Option Bool) (now : Str) {id : Uuid} {v : Str} {sub : Option (Uuid × Str)}
    (hsub : sub = some (pr.ask.ds, pr.ask.dv) ∨ (sub = none ∧ pr.ask.path = [] ∧ pr.ask.ds = id ∧ pr.ask.dv = v))
    (hroot : pr.ask.path ≠ [] → pr.ask.root = some id ∧ pr.ask.rv = some v) :
    ∃ t' u' m' w', topRecord C auto now r id v pr.ask.pre pr.ask.path sub i =
        (.ok (some (t', u'), some m'), w') ∧
      ∀ ks x d b, look C pr.w.repo.log pr.w.heap ks [] (.mem pr.ask.m) = .found x d b →
        ∃ d' b', look C w'.repo.log w'.heap ks [] (.mem m') = .found x d' b' ∧ Later d d' ∧ Answered d d' := by
  have inv := h.inv hr hP h0
  rcases inv.base with ⟨_, e⟩ | ⟨st, hk⟩
  · rw [e] at hpr; cases hpr
  · obtain ⟨v', t, u, bk, o1, o2⟩ := hk pr hpr
    obtain ⟨wt, t1, g1⟩ := st.shows hr (l := tvlLink) (nm := tvlRefName) (Or.inl ⟨rfl, rfl⟩) rfl
    obtain ⟨wu, u1, g2⟩ := st.shows hr (l := uuidSetLink) (nm := uuidSetRefName) (Or.inr ⟨rfl, rfl⟩) rfl
    have ot : Over C v'.repo.log v'.heap (.mem t) wt.repo.log wt.heap (.mem t1) :=
      (o1 wt.heap).trans (g1.same _).symm.over
    have ou : Over C v'.repo.log v'.heap (.mem u) wu.repo.log wu.heap (.mem u1) :=
      (o2 wu.heap).trans (g2.same _).symm.over
    have hf' : ∀ {ks K}, (∃ x d b, MM.look C v'.repo.log v'.heap ks [] (.mem t) = .found x d b ∧ d.kind = K) →
        ∃ x d b, MM.look C wt.repo.log wt.heap ks [] (.mem t1) = .found x d b ∧ d.kind = K := by
      rintro ks K ⟨x, d, bb, h3, h4⟩
      obtain ⟨d', b', h5, h6, _⟩ := ot ks [] x d bb h3
      exact ⟨x, d', b', h5, h6.kind.trans h4⟩
    obtain ⟨tv, htv, htree, hrec, hds, hid, hl⟩ := Done.there bk.sound bk.kind bk.done hroot
    have hu' : ∀ {k : Key}, MM.look C v'.repo.log v'.heap [k] [] (.mem u) ≠ .absent →
        MM.look C v'.repo.log v'.heap [k] [] (.mem u) ≠ .missing →
        MM.look C wu.repo.log wu.heap [k] [] (.mem u1) ≠ .absent := by
      intro k hk hm
      cases hx : MM.look C v'.repo.log v'.heap [k] [] (.mem u) with
      | absent => exact absurd hx hk
      | missing => exact absurd hx hm
      | found x d bb =>
        obtain ⟨_, _, h5, _⟩ := ou [k] [] x d bb hx
        rw [h5]; intro e; cases e
    have full := bk.sound.fine.all u
    obtain ⟨t', u', m', w3, k1, k2⟩ := found_idle hr hi g1 g2 rfl auto now id v
      pr.ask.pre bk.path hsub htv (hf' htree) (fun q hq => hf' (hrec q hq)) (hu' hds (full _ _))
      (fun h => hu' (hid h) (full _ _))
    refine ⟨t', u', m', w3, k1, fun ks x d bb hlk => ?_⟩
    rw [bk.same ks, ← hl ks] at hlk
    obtain ⟨d', b', h5, h6, _⟩ := ot _ _ _ _ _ hlk
    exact ⟨d', b', (k2 ks).trans h5, h6, h6.answered (bk.proper _ _ _ _ _ hlk).1⟩

/-! ### A non-trivial case -/

/-- A session that has the top-level objects asks for a record, works and saves. -/
theorem CrewRun.session {file : Str → Str} {P : Pid → Str} {s0 s : Crew} (h : CrewRun C r file P s0 s) {p : Pid}
    {g t u : ObjId} {w wa wb wc wd : World} {a : Ask} {auto : Option Bool} {now : Str} {n n' : Nat} {f f' : Bool} {ref ref' : Ref}
    (hst : s.stage p = .works g t u w []) (hw : s.repo = w.repo) (hca : Canonical a.pre) (hp : ∀ n ∈ a.path, CompOk n ∧ NameOk n)
    (hask : rootRecord C auto now t u a.ds a.dv a.pre a.path a.root a.rv w = (.ok (some a.m), wa)) (hb : Busy C g t u wa wb)
    (h1 : writeOut C n (some r) f t wb = (.ok ref, wc)) (h2 : writeOut C n' (some r) f' u wc = (.ok ref', wd))
    (ca : CollisionFree C wa.repo.log) (cb : CollisionFree C wb.repo.log) (cc : CollisionFree C wc.repo.log)
    (cd : CollisionFree C wd.repo.log) :
    ∃ s', CrewRun C r file P s0 s' ∧ s'.repo = wd.repo ∧ s'.locks = s.locks ∧ s'.stage p = .out ∧
      (∀ q, q ≠ p → s'.stage q = s.stage q) ∧ s'.saved = ⟨a, wb⟩ :: s.saved := by
  have now_eq : ∀ (x : World) (l : Locks) (st : Pid → Stage) (sv : List Promise), Crew.now ⟨x.repo, l, st, sv⟩ x = x :=
    fun _ _ _ _ => rfl
  obtain ⟨R, l, st, sv⟩ := s
  cases hw
  have r1 := CrewRun.step _ _ h (CrewStep.asks p g t u w wa [] auto now a hst hca hp hask) ca
  have r2 := CrewRun.step _ _ r1 (CrewStep.calls p g t u wa wb [a] (setAt_self _ _ _) hb) cb
  have r3 := CrewRun.step _ _ r2 (CrewStep.saves p g t u wb wc [a] n f ref (setAt_self _ _ _) h1) cc
  have r4 := CrewRun.step _ _ r3 (CrewStep.savesBoth p g t u wb wc wd [a] n' f' ref' (setAt_self _ _ _) h2) cd
  exact ⟨_, r4, rfl, rfl, setAt_self _ _ _, fun q hq => by simp [setAt, hq], rfl⟩

/-- Two processes use the repository, by one path. -/
def crewStart : Crew := Crew.start ⟨[], []⟩ fun _ => true

/-- Process 1 locks the repository, and adds a record and saves; then it unlocks, process 2 locks, adds a
run to the metadata of the record, saves the tree version list, and stops before it saves the UUID set. -/
theorem crewRun : ∃ s, CrewRun sampleCfg sampleRealm id (fun _ => sampleRealm) crewStart s ∧
    s.repo.log = againFirst.2.repo.log ∧ s.saved = [⟨⟨sampleUuid, c!"v1", ⟨[], []⟩, [], none, none, 8⟩, wholeFiled⟩] := by
  have ha : rootRecord sampleCfg (some true) c!"0.1" 2 3 sampleUuid c!"v1" ⟨[], []⟩ [] none none wholeOpen =
      (.ok (some 8), wholeAsked.2) := of_okVal (x := wholeAsked) (by decide +kernel)
  obtain ⟨w0, ht, hn, ho, c0⟩ : ∃ w0, topLevel sampleCfg sampleRealm (start ⟨[], []⟩) = (.ok none, w0) ∧ w0.next = 2 ∧
      wholeOpen = create (Obj.new (Body.empty .uuidset)) (create (Obj.new (Body.empty .tvl)) w0) ∧
      CollisionFree sampleCfg w0.repo.log :=
    ⟨(topLevel sampleCfg sampleRealm (start ⟨[], []⟩)).2, of_okVal (by decide +kernel), by decide +kernel, rfl,
      collisionFree_of_check (by decide +kernel)⟩
  have ht2 := againOpened
  have hf2 : writeOut sampleCfg 20 (some sampleRealm) false 2 wholeFiled = (_, wholeFirst.2) := of_isOk (x := wholeFirst) (by decide +kernel)
  have hs2 : writeOut sampleCfg 20 (some sampleRealm) false 3 wholeFirst.2 = (_, wholeSecond.2) := of_isOk (x := wholeSecond) (by decide +kernel)
  have hb := wholeBusy
  have hb2 := againBusy
  have c1 : CollisionFree sampleCfg wholeAsked.2.repo.log := collisionFree_of_check (by decide +kernel)
  have c2 : CollisionFree sampleCfg wholeFiled.repo.log := collisionFree_of_check (by decide +kernel)
  have c3 : CollisionFree sampleCfg wholeFirst.2.repo.log := collisionFree_of_check (by decide +kernel)
  have c4 : CollisionFree sampleCfg wholeSecond.2.repo.log := collisionFree_of_check (by decide +kernel)
  have c5 : CollisionFree sampleCfg againOpen.2.repo.log := collisionFree_of_check (by decide +kernel)
  have c6 : CollisionFree sampleCfg againRan.repo.log := collisionFree_of_check (by decide +kernel)
  have c7 : CollisionFree sampleCfg againFirst.2.repo.log := collisionFree_of_check (by decide +kernel)
  have hw : writeOut sampleCfg 20 (some sampleRealm) false 0 againRan = (_, againFirst.2) := of_isOk (x := againFirst) (by decide +kernel)
  have hr : wholeSecond.2.repo = ⟨wholeSecond.2.repo.log, []⟩ := by
    have : wholeSecond.2.repo.faults = [] := by decide +kernel
    generalize wholeSecond.2.repo = R at this ⊢
    cases R
    cases this
    rfl
  generalize againFirst.2 = wf at c7 hw ⊢
  generalize againRan = wr at c6 hb2 hw
  generalize againOpen.2 = wo at c5 hb2 ht2
  generalize wholeSecond.2 = ws at c4 hs2 ht2 hr
  generalize wholeFirst.2 = w4 at c3 hf2 hs2
  generalize wholeFiled = w3 at c2 hb hf2 ⊢
  generalize wholeAsked.2 = w2 at c1 ha hb
  rw [ho] at ha
  have c00 : CollisionFree sampleCfg crewStart.repo.log := collisionFree_of_check (by decide +kernel)
  obtain ⟨p, q, hpq, l1, l2⟩ : ∃ p q : Pid, q ≠ p ∧
      0 < (lockBackend id true p sampleRealm crewStart.locks).2.counter p (lockDir sampleRealm) ∧
      0 < (lockBackend id true q sampleRealm (unlockBackend id p sampleRealm
        (lockBackend id true p sampleRealm crewStart.locks).2).2).2.counter q (lockDir sampleRealm) :=
    ⟨1, 2, by decide, by decide, by decide⟩
  have r1 := CrewRun.step _ _ CrewRun.refl (CrewStep.locks (C := sampleCfg) (r := sampleRealm) (file := id)
    (P := fun _ => sampleRealm) (s := crewStart) p true) c00
  have r2 := CrewRun.step _ _ r1 (CrewStep.makes p _ w0 l1 rfl rfl (idle_start _) ht) c0
  rw [hn, show (2 : ObjId) + 1 = 3 from rfl] at r2
  obtain ⟨s3, r3, e1, e2, e3, e4, e5⟩ := r2.session (p := p)
    (w := create (Obj.new (Body.empty .uuidset)) (create (Obj.new (Body.empty .tvl)) w0))
    (a := ⟨sampleUuid, c!"v1", ⟨[], []⟩, [], none, none, 8⟩)
    (setAt_self _ _ _) rfl ⟨rfl, fun c hc => by cases hc⟩ (fun n hn => by cases hn) ha hb hf2 hs2 c1 c2 c3 c4
  obtain ⟨R, l, st, sv⟩ := s3
  simp only at e1 e2 e3 e4 e5
  subst e1 e2 e5
  have r4 := CrewRun.step _ _ r3 (CrewStep.unlocks p (Or.inl e3)) c4
  have r5 := CrewRun.step _ _ r4 (CrewStep.locks q true) c4
  have r6 := CrewRun.step _ _ r5 (CrewStep.finds q (start ⟨ws.repo.log, []⟩) 0 1 wo l2 ((e4 q hpq).trans (setAt_ne _ _ hpq))
    (by rw [hr]; exact idle_start _) ht2) c5
  have r7 := CrewRun.step _ _ r6 (CrewStep.calls q 0 0 1 wo wr [] (setAt_self _ _ _) hb2) c6
  have r8 := CrewRun.step _ _ r7 (CrewStep.saves q 0 0 1 wr wf [] 20 false _ (setAt_self _ _ _) hw) c7
  have r9 := CrewRun.step _ _ r8 (CrewStep.ends q) c7
  exact ⟨_, r9, rfl, rfl⟩

/-- What process 1 saved is found afterwards. -/
example (auto : Option Bool) : ∃ t' u' m' w', topRecord sampleCfg auto c!"0.3" sampleRealm sampleUuid c!"v1" ⟨[], []⟩ [] none
      (start ⟨againFirst.2.repo.log, []⟩) = (.ok (some (t', u'), some m'), w') ∧
    ∀ ks x d b, look sampleCfg wholeFiled.repo.log wholeFiled.heap ks [] (.mem 8) = .found x d b →
      ∃ d' b', look sampleCfg w'.repo.log w'.heap ks [] (.mem m') = .found x d' b' ∧ Later d d' ∧ Answered d d' := by
  obtain ⟨s, h, e1, e2⟩ := crewRun
  generalize againFirst.2.repo.log = L at e1 ⊢
  generalize wholeFiled = w at e2 ⊢
  subst e1
  exact C68_kept (C := sampleCfg) (by decide) (fun _ _ => rfl) (Or.inl rfl) h (pr := ⟨⟨sampleUuid, c!"v1", ⟨[], []⟩, [], none, none, 8⟩, w⟩)
    (by rw [e2]; exact List.mem_cons_self ..) (idle_start _) auto c!"0.3" (Or.inr ⟨rfl, rfl, rfl, rfl⟩) (fun q => absurd rfl q)

end MM
