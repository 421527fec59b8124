/-
C73: a process that has the lock of the repository can work, whatever the others did and wherever they
stopped.
-/
import Verif.Props.Again

namespace MM

variable {C : Cfg} {r : Realm} {t u : ObjId}

/-! ### What the processes do -/

/-- One step, as in `CrewStep`, where calls are those of `Orderly`.  Any git command may fail while a session
works and while it saves, and a process may stop after any command.  Others store trees as `git mktree` does. -/
inductive TeamStep (C : Cfg) (r : Realm) (file : Str → Str) (P : Pid → Str) (s : Crew) : Crew → Prop
  | locks (p : Pid) (able : Bool) :
      TeamStep C r file P s { s with locks := (lockBackend file able p (P p) s.locks).2 }
  | unlocks (p : Pid) : s.stage p = .out ∨ 1 < s.locks.counter p (lockDir (P p)) →
      TeamStep C r file P s { s with locks := (unlockBackend file p (P p) s.locks).2 }
  | ends (p : Pid) : TeamStep C r file P s { s with locks := endProcess p s.locks, stage := setAt s.stage p .out }
  | leaves (p : Pid) : TeamStep C r file P s { s with stage := setAt s.stage p .out }
  | finds (p : Pid) (i : World) (t u : ObjId) (w : World) : s.holds P p → s.stage p = .out → Idle s.repo i →
      topLevel C r i = (.ok (some (t, u)), w) →
      TeamStep C r file P s { s with repo := w.repo, stage := setAt s.stage p (.works i.next t u w []) }
  | makes (p : Pid) (i w : World) : s.holds P p → s.stage p = .out → s.repo.faults = [] → Idle s.repo i →
      topLevel C r i = (.ok none, w) →
      TeamStep C r file P s { s with
        repo := w.repo
        stage := setAt s.stage p (.works w.next w.next (w.next + 1)
          (create (Obj.new (Body.empty .uuidset)) (create (Obj.new (Body.empty .tvl)) w)) []) }
  | calls (p : Pid) (g t u : ObjId) (w w' : World) (asked : List Ask) : s.stage p = .works g t u w asked →
      Orderly C g t u (s.now w) w' →
      TeamStep C r file P s { s with repo := w'.repo, stage := setAt s.stage p (.works g t u w' asked) }
  | saves (p : Pid) (g t u : ObjId) (w w' : World) (asked : List Ask) (n : Nat) (force : Bool) (ref : Ref) :
      s.stage p = .works g t u w asked → writeOut C n (some r) force t (s.now w) = (.ok ref, w') →
      TeamStep C r file P s { s with repo := w'.repo, stage := setAt s.stage p (.half g t u (s.now w) w' asked) }
  | savesBoth (p : Pid) (g t u : ObjId) (w0 w w' : World) (asked : List Ask) (n : Nat) (force : Bool) (ref : Ref) :
      s.stage p = .half g t u w0 w asked → writeOut C n (some r) force u (s.now w) = (.ok ref, w') →
      TeamStep C r file P s { s with
        repo := w'.repo
        stage := setAt s.stage p .out
        saved := asked.map (fun a => ⟨a, w0⟩) ++ s.saved }
  | stopsFirst (p : Pid) (g t u : ObjId) (w w' : World) (asked : List Ask) (n : Nat) (force : Bool)
      (x : Except PyErr Ref) (L : Log) (fs : List Fault) : s.stage p = .works g t u w asked →
      writeOut C n (some r) force t (s.now w) = (x, w') → CollisionFree C w'.repo.log →
      s.repo.log <:+ L → L <:+ w'.repo.log →
      TeamStep C r file P s { s with repo := ⟨L, fs⟩, stage := setAt s.stage p .out }
  | stopsSecond (p : Pid) (g t u : ObjId) (w0 w w' : World) (asked : List Ask) (n : Nat) (force : Bool)
      (x : Except PyErr Ref) (L : Log) (fs : List Fault) : s.stage p = .half g t u w0 w asked →
      writeOut C n (some r) force u (s.now w) = (x, w') → CollisionFree C w'.repo.log →
      s.repo.log <:+ L → L <:+ w'.repo.log →
      TeamStep C r file P s { s with repo := ⟨L, fs⟩, stage := setAt s.stage p .out }
  | others (L : Log) (fs : List Fault) : Grows s.repo.log L → TopKept r s.repo.log L → HashTrees L r →
      TeamStep C r file P s { s with repo := ⟨L, fs⟩ }

/-- Any number of steps of any processes -/
inductive TeamRun (C : Cfg) (r : Realm) (file : Str → Str) (P : Pid → Str) (s : Crew) : Crew → Prop
  | refl : TeamRun C r file P s s
  | step (s1 s2 : Crew) : TeamRun C r file P s s1 → TeamStep C r file P s1 s2 → CollisionFree C s2.repo.log →
      TeamRun C r file P s s2

theorem TeamStep.crew {file : Str → Str} {P : Pid → Str} {s s' : Crew} (h : TeamStep C r file P s s') :
    CrewStep C r file P s s' := by
  cases h with
  | locks p able => exact .locks p able
  | unlocks p h => exact .unlocks p h
  | ends p => exact .ends p
  | leaves p => exact .leaves p
  | finds p i t u w h1 h2 h3 h4 => exact .finds p i t u w h1 h2 h3 h4
  | makes p i w h1 h2 h3 h4 h5 => exact .makes p i w h1 h2 h3 h4 h5
  | calls p g t u w w' asked h1 h2 => exact .calls p g t u w w' asked h1 h2.busy
  | saves p g t u w w' asked n force ref h1 h2 => exact .saves p g t u w w' asked n force ref h1 h2
  | savesBoth p g t u w0 w w' asked n force ref h1 h2 => exact .savesBoth p g t u w0 w w' asked n force ref h1 h2
  | stopsFirst p g t u w w' asked n force x L fs h1 h2 h3 h4 h5 =>
    exact .stopsFirst p g t u w w' asked n force x L fs h1 h2 h3 h4 h5
  | stopsSecond p g t u w0 w w' asked n force x L fs h1 h2 h3 h4 h5 =>
    exact .stopsSecond p g t u w0 w w' asked n force x L fs h1 h2 h3 h4 h5
  | others L fs h1 h2 _ => exact .others L fs h1 h2

theorem TeamRun.crew {file : Str → Str} {P : Pid → Str} {s s' : Crew} (h : TeamRun C r file P s s') :
    CrewRun C r file P s s' := by
  induction h with
  | refl => exact .refl
  | step s1 s2 _ h2 h3 ih => exact .step s1 s2 ih h2.crew h3

/-! ### What stays -/

theorem Live.others {X : ObjId → Prop} {v : World} (l : Live C r t u X v) {L : Log} {fs : List Fault}
    (d : Desk C r t u (outside L fs v))
    (hl : ∀ j, SameContent C v.repo.log v.heap (.mem j) L v.heap (.mem j)) (ht : HashTrees L r) :
    Live C r t u X (outside L fs v) := by
  refine ⟨d, ⟨fun p hp hm e he => ?_, fun j hj hm => ?_⟩, ht⟩
  · obtain ⟨h1, h2, h3⟩ := l.tidy.edge p hp hm e he
    refine ⟨fun hne t s d b hk => h1 hne t s d b ?_, h2, h3⟩
    rw [hl e.2.2]; exact hk
  · obtain ⟨h1, h2⟩ := l.tidy.away j hj hm
    exact ⟨h1, h2.of_same (hl j)⟩

/-- The same in a process where commands are about to fail -/
theorem Bench.faulty {g : ObjId} {L : Log} {w v : World} (b : Bench C r g t u (outside L [] w) v) (fs : List Fault) :
    Side (fun j => g ≤ j) (outside L fs w) (outside L fs v) ∧ Desk C r t u (outside L fs v) :=
  ⟨⟨b.side.heap, b.side.next, rfl, b.side.caches, b.side.refs, b.side.subs, b.side.fresh⟩,
    b.desk.congr rfl rfl (by rw [b.side.repo]; rfl) rfl⟩

/-- Which commands are to fail does not matter. -/
theorem Bench.refault {g : ObjId} {w v : World} (b : Bench C r g t u w v) (l : Lively C r t u v) (fs : List Fault) :
    Bench C r g t u (outside w.repo.log fs w) (outside w.repo.log fs v) ∧ Lively C r t u (outside w.repo.log fs v) := by
  have hR : v.repo.log = w.repo.log := by rw [b.side.repo]
  have d : Desk C r t u (outside w.repo.log fs v) := b.desk.congr rfl rfl hR.symm rfl
  refine ⟨⟨⟨b.side.heap, b.side.next, rfl, b.side.caches, b.side.refs, b.side.subs, b.side.fresh⟩, d, b.gt, b.gu, b.empty⟩,
    l.others d (fun j => ?_) (by rw [← hR]; exact l.trees)⟩
  rw [hR]
  exact fun _ _ => rfl

/-- What holds for a process with a session -/
def StageLive (C : Cfg) (r : Realm) (L : Log) : Stage → Prop
  | .out => True
  | .works g t u w _ => ∃ v, Bench C r g t u (outside L [] w) v ∧ Lively C r t u v
  | .half g _ u _ w _ => ∃ v v1, Side (fun j => g ≤ j) (outside L [] w) v1 ∧ g ≤ u ∧ HalfOk C r u v v1 ∧ NoBlanks r v1.heap u ∧
      ((∃ k, look C v.repo.log v.heap [k] [] (.mem u) ≠ .absent) → NoHole C v u) ∧
      Trim C v.repo.log v.heap (.mem u) ∧ Proper C v.repo.log v.heap (.mem u) ∧
      (∀ h, Full C L h (.sto r tvlLink)) ∧ ∀ h, Proper C L h (.sto r tvlLink)

theorem StageLive.others {L L' : Log} {x : Stage} (h : StageLive C r L x) (ha : After C r L L') (ht : HashTrees L' r) :
    StageLive C r L' x := by
  cases x with
  | out => trivial
  | works g t u w asked =>
    obtain ⟨v, b, l⟩ := h
    obtain ⟨b', hl⟩ := b.others (L := L') (fs := []) (Or.inl (ha.names _ (Or.inl rfl))) (Or.inl (ha.names _ (Or.inr rfl)))
      ha.grows ha.unique
    exact ⟨outside L' [] v, b', l.others b'.desk hl ht⟩
  | half g t u w0 w asked =>
    obtain ⟨v, v1, hs, hg, hh, nb, nh, tr, pr, ft, pt⟩ := h
    have hR : v1.repo.log = L := by rw [hs.repo]; rfl
    have hgr : Grows v1.repo.log L' := by rw [hR]; exact ha.grows
    have hn : TopKept r v1.repo.log L' := by rw [hR]; exact ha.names
    obtain ⟨hi, htr⟩ := hh.intact.others (fs := []) hgr hn ha.unique
    have same : ∀ x, SameContent C L x (.sto r tvlLink) L' x (.sto r tvlLink) := fun x =>
      named_kept ha.grows ha.unique (Or.inl ⟨rfl, rfl⟩) (ha.names _ (Or.inl rfl)) (Or.inr ft) x
    exact ⟨v, outside L' [] v1, ⟨hs.heap, hs.next, rfl, hs.caches, hs.refs, hs.subs, hs.fresh⟩, hg,
      ⟨hi, hh.storable, fun j hj => htr j (hh.trusted j hj), hh.owned, hh.alone, hh.kind, hh.shown,
        hh.same.trans (hh.intact.others_look hgr hn ha.unique u)⟩, nb, nh, tr, pr,
      fun x => Full.of_same (same x) (ft x), fun x => (pt x).of_same (same x)⟩

/-- What holds after any steps -/
structure TeamInv (C : Cfg) (r : Realm) (file : Str → Str) (P : Pid → Str) (s : Crew) : Prop where
  locks : LockInv file (fun p a => a = P p) s.locks
  active : ∀ p, s.stage p ≠ .out → s.holds P p
  usable : Usable C r s.repo.log
  stages : ∀ p, StageLive C r s.repo.log (s.stage p)

theorem TeamInv.set {file : Str → Str} {P : Pid → Str} (hP : ∀ p q, file (lockDir (P p)) = file (lockDir (P q))) {s : Crew}
    (h : TeamInv C r file P s) {p : Pid} (hp : s.holds P p) {R : Repo} {x : Stage} {saved : List Promise}
    (hb : Usable C r R.log) (hx : StageLive C r R.log x) :
    TeamInv C r file P ⟨R, s.locks, setAt s.stage p x, saved⟩ := by
  have one : ∀ {q}, s.holds P q → q = p := by
    intro q hq
    have h1 := (h.locks.holds (file (lockDir (P p))) p).mpr ⟨P p, rfl, rfl, hp⟩
    have h2 := (h.locks.holds (file (lockDir (P p))) q).mpr ⟨P q, rfl, hP q p, hq⟩
    rw [h1] at h2
    cases h2; rfl
  refine ⟨h.locks, fun q hq => ?_, hb, fun q => ?_⟩
  · by_cases e : q = p
    · rw [e]; exact hp
    · exact h.active q (by simpa [setAt, e] using hq)
  · show StageLive C r R.log (setAt s.stage p x q)
    by_cases e : q = p
    · rw [e, setAt_self]; exact hx
    · rw [setAt_ne _ _ e]
      cases hs : s.stage q with
      | out => trivial
      | works g t u w asked => exact absurd (one (h.active q (by rw [hs]; intro e; cases e))) e
      | half g t u w0 w asked => exact absurd (one (h.active q (by rw [hs]; intro e; cases e))) e

/-- The UUID set is written after the tree version list, perhaps in part. -/
theorem Usable.set (hr : r ≠ []) {L L' : Log} (h : Usable C r L) {v v1 v2 : World} (hL : v1.repo.log = L) (hh : HalfOk C r u v v1)
    (tr : Trim C v.repo.log v.heap (.mem u)) (pr : Proper C v.repo.log v.heap (.mem u))
    (ft : ∀ h, Full C L h (.sto r tvlLink)) (pt : ∀ h, Proper C L h (.sto r tvlLink)) {n : Nat} {force : Bool}
    {x : Except PyErr Ref} (hw : writeOut C n (some r) force u v1 = (x, v2)) (hc : CollisionFree C v2.repo.log)
    (h1 : L <:+ L') (h2 : L' <:+ v2.repo.log) : Usable C r L' := by
  subst hL
  have ht : HashTrees L' r := by
    have := writeOut_treesOn (C := C) hr n force u v1 h.trees
    rw [hw] at this
    exact this.suffix h2
  have hcL := suffix_collisionFree h2 hc
  have m := hh.intact.moved hr hw hc hh.storable hh.trusted hh.owned (nm := uuidSetRefName) (Or.inr ⟨rfl, rfl⟩) hh.kind
    (L := L') h1 h2
  have hv : refOf L' r tvlRefName = refOf v1.repo.log r tvlRefName := m.others tvlRefName (by decide)
  rcases m.name with hn | hs
  · refine h.after ⟨m.grows, fun nm hnm => ?_, hcL⟩ ht
    rcases hnm with rfl | rfl
    · exact hv
    · exact hn
  · have su : Shows C r v u L' uuidSetLink := ⟨fun h0 => hh.same.trans (hs.same h0), hs.full⟩
    have same : ∀ x, SameContent C v1.repo.log x (.sto r tvlLink) L' x (.sto r tvlLink) := fun x =>
      named_kept m.grows hcL (Or.inl ⟨rfl, rfl⟩) hv (Or.inr ft) x
    refine ⟨ht, fun l nm hl x => ?_, Or.inr fun l nm hl x => ?_⟩
    · rcases hl with ⟨rfl, rfl⟩ | ⟨rfl, rfl⟩
      · exact (h.trim tvlLink tvlRefName (Or.inl ⟨rfl, rfl⟩) x).of_same (same x)
      · exact tr.of_same (su.same x)
    · rcases hl with ⟨rfl, rfl⟩ | ⟨rfl, rfl⟩
      · exact ⟨Full.of_same (same x) (ft x), (pt x).of_same (same x)⟩
      · exact ⟨su.full x, pr.of_same (su.same x)⟩

theorem Opens.found_stocked {s : Repo} (h : Usable C r s.log) {i w : World} (hi : Idle s i)
    (ho : topLevel C r i = (.ok (some (t, u)), w)) : Stocked C r s.log := by
  rcases h.open_ with ⟨h1, _⟩ | h1
  · exact absurd (by rw [hi.repo]; exact h1) (found_named ho)
  · exact h1

theorem TeamStep.inv (hr : r ≠ []) {file : Str → Str} {P : Pid → Str}
    (hP : ∀ p q, file (lockDir (P p)) = file (lockDir (P q))) {s s' : Crew} (h : TeamInv C r file P s)
    (hs : TeamStep C r file P s s') (hc : CollisionFree C s'.repo.log) : TeamInv C r file P s' := by
  have hsp : Spelled file (fun p a => a = P p) := fun p a b ha hb _ => ha.trans hb.symm
  have active : ∀ {p x}, s.stage p = x → x ≠ .out → s.holds P p := fun e hx => h.active _ (by rw [e]; exact hx)
  have opened : ∀ {p g t u w}, s.holds P p → Opens C r s.repo g t u w → ∀ {R}, R = w.repo →
      TeamInv C r file P ⟨R, s.locks, setAt s.stage p (.works g t u w []), s.saved⟩ := by
    intro p g t u w hp ho R hR
    subst hR
    have hlog := ho.log
    obtain ⟨v, b, l⟩ := ho.lively hr h.usable.trim (by rw [hlog]; exact h.usable.trees)
    exact h.set hP hp (by rw [hlog]; exact h.usable) ⟨_, (b.refault l []).1, (b.refault l []).2⟩
  cases hs with
  | locks p able => exact ⟨h.locks.lock rfl able, fun q hq => lock_holds (h.active q hq), h.usable, h.stages⟩
  | unlocks p hp =>
    refine ⟨h.locks.unlock hsp rfl, fun q hq => ?_, h.usable, h.stages⟩
    have hq' := h.active q hq
    show 0 < (unlockBackend file p (P p) s.locks).2.counter q (lockDir (P q))
    rcases unlock_counter (file := file) (p := p) (q := q) (a := P p) (d := lockDir (P q)) (s := s.locks) with e | ⟨e1, _, e⟩
    · rw [e]; exact hq'
    · rw [e]
      subst e1
      rcases hp with hp | hp
      · exact absurd hp hq
      · omega
  | ends p =>
    refine ⟨h.locks.ends p, fun q hq => ?_, h.usable, fun q => ?_⟩
    · by_cases e : q = p
      · exact absurd (show setAt s.stage p Stage.out q = .out by rw [e, setAt_self]) hq
      · have := h.active q (by simpa [setAt, e] using hq)
        show 0 < setAt s.locks.counter p (fun _ => 0) q _
        rw [setAt_ne _ _ e]
        exact this
    · show StageLive C r s.repo.log (setAt s.stage p .out q)
      by_cases e : q = p
      · rw [e, setAt_self]; trivial
      · rw [setAt_ne _ _ e]; exact h.stages q
  | leaves p =>
    refine ⟨h.locks, fun q hq => ?_, h.usable, fun q => ?_⟩
    · by_cases e : q = p
      · exact absurd (show setAt s.stage p Stage.out q = .out by rw [e, setAt_self]) hq
      · exact h.active q (by simpa [setAt, e] using hq)
    · show StageLive C r s.repo.log (setAt s.stage p .out q)
      by_cases e : q = p
      · rw [e, setAt_self]; trivial
      · rw [setAt_ne _ _ e]; exact h.stages q
  | finds p i t u w hp hst hi htop =>
    exact opened hp (.found i t u w hi (Opens.found_stocked h.usable hi htop) htop) rfl
  | makes p i w hp hst _ hi htop => exact opened hp (.made i w hi htop) rfl
  | calls p g t u w w' asked hst hb =>
    have hok := h.stages p
    rw [hst] at hok
    obtain ⟨v, b, l⟩ := hok
    have hlog : w'.repo.log = s.repo.log := hb.log
    obtain ⟨b0, l0⟩ := b.refault l s.repo.faults
    obtain ⟨v', b', l'⟩ := hb.lively hr b0 l0
    exact h.set hP (active hst (by intro e; cases e)) (by rw [hlog]; exact h.usable)
      ⟨_, (b'.refault l' []).1, (b'.refault l' []).2⟩
  | saves p g t u w w' asked n force ref hst hw =>
    have hok := h.stages p
    rw [hst] at hok
    obtain ⟨v, b, l⟩ := hok
    obtain ⟨side, d⟩ := b.faulty s.repo.faults
    obtain ⟨e1, s1, _⟩ := twin_writeOut (C := C) n (dest := some r) (force := force) b.gt _ _ side
    have hw' : writeOut C n (some r) force t (outside s.repo.log s.repo.faults w) = (.ok ref, w') := hw
    rw [hw'] at e1 s1
    have hvl : v.repo.log = s.repo.log := by rw [b.side.repo]; rfl
    have trim : ∀ i, i < v.next → Trim C s.repo.log v.heap (.mem i) := fun i hi => by
      rw [← hvl]; exact l.tidy.trim l.desk.sound.fine hi
    have hole : (∃ k, look C v.repo.log v.heap [k] [] (.mem u) ≠ .absent) → NoHole C v u := fun hk =>
      l.noHole l.desk.ul fun _ => hk
    have away : ∀ j, j < v.next → (v.heap j).mapped = false → r ∈ (v.heap j).savedOn := fun j hj hm => (l.tidy.away j hj hm).1
    cases hv : writeOut C n (some r) force t (outside s.repo.log s.repo.faults v) with
    | mk res v1 =>
      rw [hv] at e1 s1
      simp only at e1 s1
      subst e1
      have hc1 : CollisionFree C v1.repo.log := by rw [s1.repo]; exact hc
      have hsuf := (d.intact.steps hr hv hc1 (d.storable d.tl) (fun j _ => d.truth j) d.rooted.tree_owned).suffix
      have us : Usable C r v1.repo.log := h.usable.first hr (v := outside s.repo.log s.repo.faults v) rfl d (trim t d.tl) hv hc1
        hsuf List.suffix_rfl
      obtain ⟨hd, hu, htr, how, hal⟩ := d.after_tree hr hv hc1
      have sh := d.intact.shown hr hv hc1 (d.storable d.tl) d.alone_tree (fun j _ => d.truth j) d.rooted.tree_owned
        (nm := tvlRefName) (Or.inl ⟨rfl, rfl⟩) d.tk d.tshown
      have same := hd.tried.any.same
      have reach : ∀ {a b}, Reach v.heap a b → Clean r v1.heap a → Clean r v1.heap b := by
        intro a b hab
        induction hab with
        | refl => exact fun h => h
        | step a k c hm hk _ ih =>
          intro hcl
          exact ih (hcl.kid (by rw [(same a).mapped]; exact hm) (by rw [(same a).body]; exact hk))
      have blanks : NoBlanks r v1.heap u := by
        intro j hj hm
        have hj' := hj.mono same
        by_cases htj : Reach v.heap t j
        · exact (reach htj hd.clean).flag
        · rw [hd.tried.limits.out j (Or.inl htj)] at hm ⊢
          exact away j (d.below_lt d.ul hj') hm
      have hhalf : HalfOk C r u (outside s.repo.log s.repo.faults v) v1 :=
        ⟨hd.intact, (d.storable d.ul).mono same, htr, how, hal, by rw [hu]; exact d.uk, by rw [hu]; exact d.ushown, hd.look u⟩
      rw [s1.repo] at us
      refine h.set hP (active hst (by intro e; cases e)) us ⟨outside s.repo.log s.repo.faults v, outside v1.repo.log [] v1,
        ⟨s1.heap, s1.next, by rw [s1.repo]; rfl, s1.caches, s1.refs, s1.subs, s1.fresh⟩, b.gu, ?_, blanks, ?_, trim u d.ul,
        d.all_proper u d.ul, ?_, ?_⟩
      · exact ⟨hd.intact.congr rfl rfl rfl (Nat.le_refl _), hhalf.storable, hhalf.trusted, hhalf.owned, hhalf.alone, hhalf.kind,
          hhalf.shown, hhalf.same⟩
      · intro hk
        refine NoHole.of_same (w := v) (hole ?_) ?_
        · rw [hvl]; exact hk
        · show SameContent C v.repo.log v.heap (.mem u) s.repo.log v.heap (.mem u)
          rw [hvl]; exact fun _ _ => rfl
      · intro x; rw [← s1.repo]; exact sh.full x
      · intro x; rw [← s1.repo]; exact (d.all_proper t d.tl).of_same (sh.same x)
  | savesBoth p g t u w0 w w' asked n force ref hst hw =>
    have hok := h.stages p
    rw [hst] at hok
    obtain ⟨v, v1, hsd, hg, hh, nb, nh, tr, pr, ft, pt⟩ := hok
    have hw' : writeOut C n (some r) force u (outside s.repo.log s.repo.faults w) = (.ok ref, w') := hw
    have hlog : v1.repo.log = s.repo.log := by rw [hsd.repo]; rfl
    obtain ⟨e1, s1, _⟩ := twin_writeOut (C := C) n (dest := some r) (force := force) hg (outside s.repo.log s.repo.faults w)
      (outside s.repo.log s.repo.faults v1) ⟨hsd.heap, hsd.next, rfl, hsd.caches, hsd.refs, hsd.subs, hsd.fresh⟩
    rw [hw'] at e1 s1
    cases hv : writeOut C n (some r) force u (outside s.repo.log s.repo.faults v1) with
    | mk res v2 =>
      rw [hv] at e1 s1
      have hc2 : CollisionFree C v2.repo.log := by rw [s1.repo]; exact hc
      have hhalf : HalfOk C r u v (outside s.repo.log s.repo.faults v1) :=
        ⟨hh.intact.congr rfl hlog.symm rfl (Nat.le_refl _), hh.storable, (by
          have := hh.trusted; unfold Trusted at this ⊢; rw [hlog] at this; exact this), hh.owned, hh.alone, hh.kind, hh.shown, (by
          have := hh.same; rw [hlog] at this; exact this)⟩
      have hsuf := (hhalf.intact.steps hr hv hc2 hhalf.storable hhalf.trusted hhalf.owned).suffix
      have us := h.usable.set hr rfl hhalf tr pr ft pt hv hc2 hsuf List.suffix_rfl
      rw [s1.repo] at us
      exact h.set hP (active hst (by intro e; cases e)) us trivial
  | stopsFirst p g t u w w' asked n force x L fs hst hw hcw h1 h2 =>
    have hok := h.stages p
    rw [hst] at hok
    obtain ⟨v, b, l⟩ := hok
    obtain ⟨side, d⟩ := b.faulty s.repo.faults
    obtain ⟨e1, s1, _⟩ := twin_writeOut (C := C) n (dest := some r) (force := force) b.gt _ _ side
    have hw' : writeOut C n (some r) force t (outside s.repo.log s.repo.faults w) = (x, w') := hw
    rw [hw'] at e1 s1
    have hvl : v.repo.log = s.repo.log := by rw [b.side.repo]; rfl
    have trim : Trim C s.repo.log v.heap (.mem t) := by
      rw [← hvl]; exact l.tidy.trim l.desk.sound.fine l.desk.tl
    cases hv : writeOut C n (some r) force t (outside s.repo.log s.repo.faults v) with
    | mk res v1 =>
      rw [hv] at e1 s1
      have us : Usable C r L := h.usable.first hr (v := outside s.repo.log s.repo.faults v) rfl d trim hv
        (by rw [s1.repo]; exact hcw) h1 (by rw [s1.repo]; exact h2)
      exact h.set hP (active hst (by intro e; cases e)) us trivial
  | stopsSecond p g t u w0 w w' asked n force x L fs hst hw hcw h1 h2 =>
    have hok := h.stages p
    rw [hst] at hok
    obtain ⟨v, v1, hsd, hg, hh, nb, nh, tr, pr, ft, pt⟩ := hok
    have hw' : writeOut C n (some r) force u (outside s.repo.log s.repo.faults w) = (x, w') := hw
    have hlog : v1.repo.log = s.repo.log := by rw [hsd.repo]; rfl
    obtain ⟨e1, s1, _⟩ := twin_writeOut (C := C) n (dest := some r) (force := force) hg (outside s.repo.log s.repo.faults w)
      (outside s.repo.log s.repo.faults v1) ⟨hsd.heap, hsd.next, rfl, hsd.caches, hsd.refs, hsd.subs, hsd.fresh⟩
    rw [hw'] at e1 s1
    cases hv : writeOut C n (some r) force u (outside s.repo.log s.repo.faults v1) with
    | mk res v2 =>
      rw [hv] at e1 s1
      have hhalf : HalfOk C r u v (outside s.repo.log s.repo.faults v1) :=
        ⟨hh.intact.congr rfl hlog.symm rfl (Nat.le_refl _), hh.storable, (by
          have := hh.trusted; unfold Trusted at this ⊢; rw [hlog] at this; exact this), hh.owned, hh.alone, hh.kind, hh.shown, (by
          have := hh.same; rw [hlog] at this; exact this)⟩
      have us := h.usable.set hr rfl hhalf tr pr ft pt hv (by rw [s1.repo]; exact hcw) h1 (by rw [s1.repo]; exact h2)
      exact h.set hP (active hst (by intro e; cases e)) us trivial
  | others L fs hg hn ht =>
    exact ⟨h.locks, h.active, h.usable.after ⟨hg, hn, hc⟩ ht, fun q => (h.stages q).others ⟨hg, hn, hc⟩ ht⟩

theorem TeamRun.inv (hr : r ≠ []) {file : Str → Str} {P : Pid → Str}
    (hP : ∀ p q, file (lockDir (P p)) = file (lockDir (P q))) {repo : Repo} {dirs : Str → Bool} (h0 : Past C r repo.log)
    {s : Crew} (h : TeamRun C r file P (Crew.start repo dirs) s) : TeamInv C r file P s := by
  induction h with
  | refl => exact ⟨LockInv.start _ _ _, fun p hp => absurd rfl hp, h0.ready hr, fun _ => trivial⟩
  | step s1 s2 _ hs hc ih => exact hs.inv hr hP ih hc

/-! ### C73 -/

/-- C73: processes share a repository, and only the one that has its lock has a session.  Whatever they did,
in whatever order, and wherever they failed or stopped while saving: while git works, a process that has the
lock and no session can open the repository. -/
theorem C73_opens (hr : r ≠ []) {file : Str → Str} {P : Pid → Str}
    (hP : ∀ p q, file (lockDir (P p)) = file (lockDir (P q))) {repo : Repo} {dirs : Str → Bool} (h0 : Past C r repo.log)
    {s : Crew} (h : TeamRun C r file P (Crew.start repo dirs) s) {p : Pid} (hp : s.holds P p) (hst : s.stage p = .out)
    (hf : s.repo.faults = []) {i : World} (hi : Idle s.repo i) :
    ∃ o w0, topLevel C r i = (.ok o, w0) ∧ ∃ g t u w, w.repo = w0.repo ∧
      TeamStep C r file P s { s with repo := w.repo, stage := setAt s.stage p (.works g t u w []) } := by
  rcases (h.inv hr hP h0).usable.open_.answer hr hf hi with ⟨_, w, ho⟩ | ⟨_, w, ho⟩
  · exact ⟨_, w, ho, _, _, _, create (Obj.new (Body.empty .uuidset)) (create (Obj.new (Body.empty .tvl)) w), rfl, .makes p _ w hp hst hf hi ho⟩
  · exact ⟨_, w, ho, _, _, _, _, rfl, .finds p _ _ _ w hp hst hi ho⟩

/-- C73: while git works, every request of a session is answered, and nothing is written. -/
theorem C73_answered (hr : r ≠ []) {file : Str → Str} {P : Pid → Str}
    (hP : ∀ p q, file (lockDir (P p)) = file (lockDir (P q))) {repo : Repo} {dirs : Str → Bool} (h0 : Past C r repo.log)
    {s : Crew} (h : TeamRun C r file P (Crew.start repo dirs) s) {p : Pid} {g : ObjId} {w : World} {asked : List Ask}
    (hst : s.stage p = .works g t u w asked) (hf : s.repo.faults = []) (auto : Option Bool) (now : Str) (id : Uuid) (v : Str)
    {pre : PPath} (hc : Canonical pre) {path : List Str} (hp : ∀ n ∈ path, CompOk n ∧ NameOk n) (hnm : rootRecordName ∉ path)
    {root : Option Uuid} {rv : Option Str} (hroot : path ≠ [] → root ≠ none ∧ rv ≠ none) :
    ∃ o w', rootRecord C auto now t u id v pre path root rv (s.now w) = (.ok o, w') ∧ w'.repo = s.repo ∧
      (auto ≠ some false → ∃ m, o = some m) := by
  have hok := (h.inv hr hP h0).stages p
  rw [hst] at hok
  obtain ⟨v', b, l⟩ := hok
  have hnow : s.now w = outside s.repo.log [] w := by unfold Crew.now; rw [hf]
  obtain ⟨o, v2, hx, l2, hrep, hsome⟩ := l.rootRecord hr (by rw [b.side.repo]; rfl) auto now id v hc hp hnm hroot
  obtain ⟨e, sd, _⟩ := twin_rootRecord (C := C) b.gt b.gu auto now id v pre path root rv _ v' b.side
  rw [← hnow, hx] at e sd
  cases hy : rootRecord C auto now t u id v pre path root rv (s.now w) with
  | mk res w' =>
    rw [hy] at e sd
    simp only at e sd
    subst e
    refine ⟨o, w', rfl, ?_, fun ha => ?_⟩
    · rw [← sd.repo, hrep, b.side.repo, ← hnow]; rfl
    cases o with
    | some m => exact ⟨m, rfl⟩
    | none => exact absurd rfl (hsome (by simp [noCreate, ha]))

/-- C73: while git works, a session can save its tree version list, wherever it has got to, for every recursion
limit that is large enough. -/
theorem C73_saves (hr : r ≠ []) (hrem : Ref.isRemote r = false) {file : Str → Str} {P : Pid → Str}
    (hP : ∀ p q, file (lockDir (P p)) = file (lockDir (P q))) {repo : Repo} {dirs : Str → Bool} (h0 : Past C r repo.log)
    {s : Crew} (h : TeamRun C r file P (Crew.start repo dirs) s) {p : Pid} {g : ObjId} {w : World} {asked : List Ask}
    (hst : s.stage p = .works g t u w asked) (hf : s.repo.faults = []) :
    ∃ N, ∀ n force, N ≤ n → CollisionFree C (writeOut C n (some r) force t (s.now w)).2.eff →
      ∃ ref w', writeOut C n (some r) force t (s.now w) = (.ok ref, w') := by
  have hok := (h.inv hr hP h0).stages p
  rw [hst] at hok
  obtain ⟨v, b, l⟩ := hok
  have hnow : s.now w = outside s.repo.log [] w := by unfold Crew.now; rw [hf]
  have d := l.desk
  obtain ⟨rank, hrk⟩ := d.intact.ranked
  refine ⟨rank t + 1, fun n force hn hc => ?_⟩
  obtain ⟨e1, s1, _⟩ := twin_writeOut (C := C) n (dest := some r) (force := force) b.gt _ v b.side
  rw [← hnow] at e1 s1
  have heff : (writeOut C n (some r) force t v).2.eff = (writeOut C n (some r) force t (s.now w)).2.eff := by
    unfold World.eff
    rw [s1.repo, s1.caches]
  obtain ⟨ref, v1, h1⟩ := d.intact.writes_at (via := .own) (force := force) hr hrem (fun e => by cases e) (d.storable d.tl)
    d.alone_tree (fun j _ => d.truth j) d.rooted.tree_owned (fun j hj hm => (l.tidy.away j (d.below_lt d.tl hj) hm).1)
    (l.noHole d.tl (fun hk => absurd hk (by rw [d.tk]; decide))) (by rw [b.side.repo]; rfl) hrk (n := n) (by omega) (by rw [← heff] at hc; exact hc)
  have h1 : writeOut C n (some r) force t v = (.ok ref, v1) := h1
  rw [h1] at e1
  cases hy : writeOut C n (some r) force t (s.now w) with
  | mk res w' =>
    rw [hy] at e1
    exact ⟨ref, w', by rw [show res = .ok ref from e1.symm]⟩

/-- C73: when it has saved the tree version list it can save the UUID set, if that lists a dataset; other
commands may be between the two. -/
theorem C73_saves_both (hr : r ≠ []) (hrem : Ref.isRemote r = false) {file : Str → Str} {P : Pid → Str}
    (hP : ∀ p q, file (lockDir (P p)) = file (lockDir (P q))) {repo : Repo} {dirs : Str → Bool} (h0 : Past C r repo.log)
    {s : Crew} (h : TeamRun C r file P (Crew.start repo dirs) s) {p : Pid} {g : ObjId} {w0 w : World} {asked : List Ask}
    (hst : s.stage p = .half g t u w0 w asked) (hf : s.repo.faults = [])
    (hset : ∃ id, look C s.repo.log w.heap [.uuid id] [] (.mem u) ≠ .absent) :
    ∃ N, ∀ n force, N ≤ n → CollisionFree C (writeOut C n (some r) force u (s.now w)).2.eff →
      ∃ ref w', writeOut C n (some r) force u (s.now w) = (.ok ref, w') := by
  have hok := (h.inv hr hP h0).stages p
  rw [hst] at hok
  obtain ⟨v, v1, hsd, hg, hh, nb, nh, tr, pr, ft, pt⟩ := hok
  have hnow : s.now w = outside s.repo.log [] w := by unfold Crew.now; rw [hf]
  have hrep : v1.repo = ⟨s.repo.log, []⟩ := by rw [hsd.repo]; rfl
  obtain ⟨rank, hrk⟩ := hh.intact.ranked
  refine ⟨rank u + 1, fun n force hn hc => ?_⟩
  obtain ⟨e1, s1, _⟩ := twin_writeOut (C := C) n (dest := some r) (force := force) hg _ v1 hsd
  rw [← hnow] at e1 s1
  have heff : (writeOut C n (some r) force u v1).2.eff = (writeOut C n (some r) force u (s.now w)).2.eff := by
    unfold World.eff
    rw [s1.repo, s1.caches]
  have hole : NoHole C v1 u := by
    refine NoHole.of_same (nh ?_) hh.same
    obtain ⟨id, hid⟩ := hset
    refine ⟨.uuid id, ?_⟩
    have hl : SameContent C s.repo.log w.heap (.mem u) v1.repo.log v1.heap (.mem u) := by
      rw [hrep]
      exact hsd.looks hg s.repo.log
    rw [hh.same, ← hl]
    exact hid
  obtain ⟨ref, v2, h1⟩ := hh.intact.writes_at (via := .own) (force := force) hr hrem (fun e => by cases e) hh.storable
    hh.alone hh.trusted hh.owned nb hole (by rw [hrep]) hrk (n := n) (by omega) (by rw [← heff] at hc; exact hc)
  have h1 : writeOut C n (some r) force u v1 = (.ok ref, v2) := h1
  rw [h1] at e1
  cases hy : writeOut C n (some r) force u (s.now w) with
  | mk res w' =>
    rw [hy] at e1
    exact ⟨ref, w', by rw [show res = .ok ref from e1.symm]⟩

/-! ### A non-trivial case -/

/-- Process 1 locks the repository, makes a record, adds metadata, saves the tree version list, and ends before
it saves the UUID set; process 2 locks the repository. -/
theorem teamRun : ∃ s, TeamRun sampleCfg sampleRealm id (fun _ => sampleRealm) crewStart s ∧
    s.repo.log = wholeFirst.2.repo.log ∧ s.repo.faults = [] ∧ (∃ q, s.holds (fun _ => sampleRealm) q ∧ s.stage q = .out) ∧
    ∃ s' p, TeamRun sampleCfg sampleRealm id (fun _ => sampleRealm) crewStart s' ∧ s'.repo.log = wholeFirst.2.repo.log ∧
      s'.repo.faults = [] ∧ s'.stage p = .half 2 2 3 wholeFiled wholeFirst.2 [] := by
  obtain ⟨w0, ht, hn, ho, c0⟩ : ∃ w0, topLevel sampleCfg sampleRealm (start ⟨[], []⟩) = (.ok none, w0) ∧ w0.next = 2 ∧
      wholeOpen = create (Obj.new (Body.empty .uuidset)) (create (Obj.new (Body.empty .tvl)) w0) ∧
      CollisionFree sampleCfg w0.repo.log :=
    ⟨(topLevel sampleCfg sampleRealm (start ⟨[], []⟩)).2, of_okVal (by decide +kernel), by decide +kernel, rfl,
      collisionFree_of_check (by decide +kernel)⟩
  have hf : w0.repo.faults = [] := by
    have : wholeOpen.repo.faults = [] := by decide +kernel
    rw [ho] at this
    exact this
  have hf2 : writeOut sampleCfg 20 (some sampleRealm) false 2 wholeFiled = (_, wholeFirst.2) := of_isOk (x := wholeFirst) (by decide +kernel)
  have hff : wholeFirst.2.repo.faults = [] := by decide +kernel
  have hb := wholeOrderly
  have c2 : CollisionFree sampleCfg wholeFiled.repo.log := collisionFree_of_check (by decide +kernel)
  have c3 : CollisionFree sampleCfg wholeFirst.2.repo.log := collisionFree_of_check (by decide +kernel)
  generalize wholeFirst.2 = w4 at c3 hf2 hff ⊢
  generalize wholeFiled = w3 at c2 hb hf2 ⊢
  rw [ho] at hb
  have c00 : CollisionFree sampleCfg crewStart.repo.log := collisionFree_of_check (by decide +kernel)
  obtain ⟨p, q, hpq, l1, l2⟩ : ∃ p q : Pid, q ≠ p ∧
      0 < (lockBackend id true p sampleRealm crewStart.locks).2.counter p (lockDir sampleRealm) ∧
      0 < (lockBackend id true q sampleRealm (endProcess p
        (lockBackend id true p sampleRealm crewStart.locks).2)).2.counter q (lockDir sampleRealm) :=
    ⟨1, 2, by decide, by decide, by decide⟩
  have r1 := TeamRun.step _ _ TeamRun.refl (TeamStep.locks (C := sampleCfg) (r := sampleRealm) (file := id)
    (P := fun _ => sampleRealm) (s := crewStart) p true) c00
  have r2 := TeamRun.step _ _ r1 (TeamStep.makes p _ w0 l1 rfl rfl (idle_start _) ht) c0
  rw [hn, show (2 : ObjId) + 1 = 3 from rfl] at r2
  have r3 := TeamRun.step _ _ r2 (TeamStep.calls p 2 2 3
    (create (Obj.new (Body.empty .uuidset)) (create (Obj.new (Body.empty .tvl)) w0)) w3 [] (setAt_self _ _ _)
    (by unfold Crew.now; exact hb)) c2
  have r4 := TeamRun.step _ _ r3 (TeamStep.saves p 2 2 3 w3 w4 [] 20 false _ (setAt_self _ _ _) hf2) c3
  have r5 := TeamRun.step _ _ r4 (TeamStep.ends p) c3
  have r6 := TeamRun.step _ _ r5 (TeamStep.locks q true) c3
  refine ⟨_, r6, rfl, hff, ⟨q, l2, ?_⟩, _, p, r4, rfl, hff, setAt_self _ _ _⟩
  simp [setAt, hpq, crewStart, Crew.start]

/-- Process 2 can open the repository. -/
example : ∃ s, TeamRun sampleCfg sampleRealm id (fun _ => sampleRealm) crewStart s ∧
    refOf s.repo.log sampleRealm tvlRefName ≠ none ∧ refOf s.repo.log sampleRealm uuidSetRefName = none ∧
    ∃ q g t u w, TeamStep sampleCfg sampleRealm id (fun _ => sampleRealm) s
      { s with repo := w.repo, stage := setAt s.stage q (.works g t u w []) } := by
  obtain ⟨s, h, e1, e2, ⟨q, e3, e4⟩, _⟩ := teamRun
  have hn := pastHalf_names
  rw [← e1] at hn
  obtain ⟨_, _, _, g, t, u, w, _, hs⟩ := C73_opens (C := sampleCfg) (by decide) (fun _ _ => rfl) .blank h e3 e4 e2 (idle_start _)
  exact ⟨s, h, hn.1, hn.2, q, g, t, u, w, hs⟩

/-- Before it ended, process 1 could save the UUID set. -/
example : ∃ s p, TeamRun sampleCfg sampleRealm id (fun _ => sampleRealm) crewStart s ∧
    s.stage p = .half 2 2 3 wholeFiled wholeFirst.2 [] ∧
    ∃ N, ∀ n force, N ≤ n →
      CollisionFree sampleCfg (writeOut sampleCfg n (some sampleRealm) force 3 (s.now wholeFirst.2)).2.eff →
      ∃ ref w', writeOut sampleCfg n (some sampleRealm) force 3 (s.now wholeFirst.2) = (.ok ref, w') := by
  have hset : (look sampleCfg wholeFirst.2.repo.log wholeFirst.2.heap [.uuid sampleUuid] [] (.mem 3)).isAbsent = false := by
    decide +kernel
  obtain ⟨_, _, _, _, _, s, p, h1, h2, h3, h4⟩ := teamRun
  generalize wholeFirst.2 = wf at hset h2 h4 ⊢
  generalize wholeFiled = w at h4 ⊢
  refine ⟨s, p, h1, h4, C73_saves_both (C := sampleCfg) (by decide) (by decide) (fun _ _ => rfl) .blank h1 h4 h3
    ⟨sampleUuid, Res.of_notAbsent ?_⟩⟩
  rw [h2]
  exact hset

end MM
