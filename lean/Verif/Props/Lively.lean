/-
C71: while git works, sessions succeed.
-/
import Verif.Lively
import Verif.Crew

namespace MM

variable {C : Cfg} {r : Realm} {t u : ObjId}

/-! ### Opening -/

/-- Without the name of the tree version list there is nothing to read. -/
theorem topLevel_none (hr : r ≠ []) {i : World} (hn : refOf i.repo.log r tvlRefName = none) :
    ∃ w, topLevel C r i = (.ok none, w) := by
  unfold topLevel
  rw [M.bind_of_ok (alloc_run _ _), M.bind_of_ok (alloc_run _ _)]
  have hobj : (create (uuidSetLink.obj r) (create (tvlLink.obj r) i)).heap i.next = tvlLink.obj r := by
    rw [create_ne _ _ (show i.next ≠ i.next + 1 by oomega)]
    exact create_self _ i
  have hlog : (create (uuidSetLink.obj r) (create (tvlLink.obj r) i)).repo.log = i.repo.log := rfl
  change ∃ w, M.catchRuntime (do readIn C i.next; readIn C (i.next + 1); pure (some (i.next, i.next + 1))) _
    (create (uuidSetLink.obj r) (create (tvlLink.obj r) i)) = _
  generalize create (uuidSetLink.obj r) (create (tvlLink.obj r) i) = w at hobj hlog ⊢
  have hdec : decode C i.repo.log r .tvl tvlRefName = .error .runtime := by
    simp only [decode, jsonAt, textAt, resolve]
    rw [if_neg (by decide), hn]
    rfl
  have hg : ∃ w', liftG (decodeG C r .tvl tvlRefName) w = (.error .runtime, w') := by
    rw [decodeG_ne (by decide)]
    unfold liftG gitCmd
    simp only [hlog, hdec]
    cases w.repo.faults with
    | nil => exact ⟨_, rfl⟩
    | cons f fs => cases f <;> exact ⟨_, rfl⟩
  obtain ⟨w', hg⟩ := hg
  have hread : readIn C i.next w = (.error .runtime, w') := by
    unfold readIn
    rw [M.bind_of_ok (getObj_run i.next w), hobj]
    have hsv : r ∈ (tvlLink.obj r).savedOn := by
      show r ∈ (if tvlLink.ref.isNone || r.isEmpty then [] else [r])
      rw [show tvlLink.ref.isNone = false by decide]
      cases r with
      | nil => exact absurd rfl hr
      | cons a l => simp
    rw [if_neg (show ¬ (tvlLink.obj r).mapped = true by simp [Link.obj])]
    show (if tvlLink.ref.isNone then _ else _ : W Unit) w = _
    rw [if_neg (show ¬ tvlLink.ref.isNone = true by decide), if_neg (fun h => h hsv)]
    rw [M.bind_of_ok (show (M.assert ((tvlLink.obj r).kind.accepts tvlLink.ref.cls) : W Unit) w = (.ok (), w) by
      rw [kind_linkObj]; rfl)]
    show (liftG (decodeG C r (tvlLink.obj r).kind tvlRefName) >>= _ : W Unit) w = _
    rw [kind_linkObj]
    exact M.bind_of_error hg
  refine ⟨w', ?_⟩
  unfold M.catchRuntime
  rw [M.bind_of_error hread]
  rfl

/-- C71: a process can open every repository without a tree version list, and, while git works, every
repository whose top-level objects can be read and stored in full. -/
theorem C71_opens (hr : r ≠ []) {s : Repo} (h : refOf s.log r tvlRefName = none ∨ (s.faults = [] ∧ Stocked C r s.log)) :
    ∃ g t u w, Opens C r s g t u w := by
  rcases h with h | ⟨hf, hs⟩
  · obtain ⟨w, hw⟩ := topLevel_none (C := C) hr (i := start s) h
    exact ⟨_, _, _, _, .made _ w (idle_start s) hw⟩
  · obtain ⟨w, hw⟩ := (idle_start s).finds (C := C) hr hf hs
    exact ⟨_, _, _, _, .found _ _ _ w (idle_start s) hs hw⟩

theorem Opens.log {s : Repo} {g : ObjId} {w : World} (h : Opens C r s g t u w) : w.repo.log = s.log := by
  cases h with
  | found i t u w hi _ h =>
    have hk := logKept_topLevel (C := C) (r := r) i
    rw [h] at hk
    rw [← hi.repo]
    exact hk
  | made i w hi h =>
    have hk := logKept_topLevel (C := C) (r := r) i
    rw [h] at hk
    rw [← hi.repo]
    exact hk

theorem Opens.session (hr : r ≠ []) {s : Repo} {g : ObjId} {w0 w : World} (ho : Opens C r s g t u w0)
    (hn : TrimAt C r s.log) (hh : HashTrees s.log r) (h : Orderly C g t u w0 w) :
    ∃ v, Bench C r g t u w v ∧ Lively C r t u v := by
  obtain ⟨v0, b0, l0⟩ := ho.lively hr hn (by rw [ho.log]; exact hh)
  exact h.lively hr b0 l0

/-! ### Requests -/

/-- C71: while git works, every request of a session is answered, wherever the session has got to, and
whatever failed before.  With
auto-create it returns a record; without it may find none, but does not fail.  Nothing is written. -/
theorem C71_answered (hr : r ≠ []) {s : Repo} {g : ObjId} {w0 w : World} (ho : Opens C r s g t u w0)
    (hn : TrimAt C r s.log) (hh : HashTrees s.log r) (h : Orderly C g t u w0 w) (hf : w.repo.faults = [])
    (auto : Option Bool) (now : Str) (id : Uuid) (v : Str) {pre : PPath} (hc : Canonical pre) {path : List Str}
    (hp : ∀ n ∈ path, CompOk n ∧ NameOk n) (hnm : rootRecordName ∉ path) {root : Option Uuid} {rv : Option Str}
    (hroot : path ≠ [] → root ≠ none ∧ rv ≠ none) :
    ∃ o w', rootRecord C auto now t u id v pre path root rv w = (.ok o, w') ∧ w'.repo = w.repo ∧
      (auto ≠ some false → ∃ m, o = some m) := by
  obtain ⟨v', b, l⟩ := ho.session hr hn hh h
  obtain ⟨o, v2, hx, l2, hrep, hsome⟩ := l.rootRecord hr (by rw [b.side.repo]; exact hf) auto now id v hc hp hnm hroot
  obtain ⟨e, sd, _⟩ := twin_rootRecord (C := C) b.gt b.gu auto now id v pre path root rv w v' b.side
  rw [hx] at e sd
  cases hy : rootRecord C auto now t u id v pre path root rv w with
  | mk res w' =>
    rw [hy] at e sd
    simp only at e sd
    subst e
    refine ⟨o, w', rfl, by rw [← sd.repo, hrep, b.side.repo], fun ha => ?_⟩
    cases o with
    | some m => exact ⟨m, rfl⟩
    | none => exact absurd rfl (hsome (by simp [noCreate, ha]))

/-! ### Saving -/

/-- C71: while git works, a session can save, wherever it has got to, and whatever failed before, if its UUID set lists a dataset: for every
recursion limit that is large enough, both calls of `write_out` succeed. -/
theorem C71_saves (hr : r ≠ []) (hrem : Ref.isRemote r = false) {s : Repo} {g : ObjId} {w0 w : World}
    (ho : Opens C r s g t u w0) (hn : TrimAt C r s.log) (hh : HashTrees s.log r) (h : Orderly C g t u w0 w)
    (hf : w.repo.faults = []) (hset : ∃ id, look C w.repo.log w.heap [.uuid id] [] (.mem u) ≠ .absent) :
    ∃ N, ∀ n n' force force', N ≤ n → N ≤ n' → CollisionFree C (writeOut C n (some r) force t w).2.eff →
      ∃ ref w1, writeOut C n (some r) force t w = (.ok ref, w1) ∧
        (CollisionFree C (writeOut C n' (some r) force' u w1).2.eff →
          ∃ ref' w2, writeOut C n' (some r) force' u w1 = (.ok ref', w2) ∧ SavesBoth C r t u w w2 ∧ w2.repo.faults = []) := by
  obtain ⟨v, b, l⟩ := ho.session hr hn hh h
  obtain ⟨N, hN⟩ := l.saves hr hrem (by rw [b.side.repo]; exact hf) (hset.imp' Key.uuid fun id hid => by rw [← b.look b.gu]; exact hid)
  refine ⟨N, fun n n' force force' h1 h2 hc => ?_⟩
  have eff : ∀ {A : ObjId → Prop} {a b : World}, Side A a b → b.eff = a.eff := by
    intro A a b hs
    unfold World.eff
    rw [hs.repo, hs.caches]
  obtain ⟨e1, s1, _⟩ := twin_writeOut (C := C) n (dest := some r) (force := force) b.gt w v b.side
  obtain ⟨ref, v1, g1, g2⟩ := hN n n' force force' h1 h2 (by rw [eff s1]; exact hc)
  rw [g1] at e1 s1
  cases hw1 : writeOut C n (some r) force t w with
  | mk res1 w1 =>
    rw [hw1] at e1 s1
    simp only at e1 s1
    subst e1
    refine ⟨ref, w1, rfl, fun hc' => ?_⟩
    obtain ⟨e2, s2, _⟩ := twin_writeOut (C := C) n' (dest := some r) (force := force') b.gu w1 v1 s1
    obtain ⟨ref', v2, g3, g4⟩ := g2 (by rw [eff s2]; exact hc')
    rw [g3] at e2 s2
    cases hw2 : writeOut C n' (some r) force' u w1 with
    | mk res2 w2 =>
      rw [hw2] at e2 s2
      simp only at e2 s2
      subst e2
      exact ⟨ref', w2, rfl, SavesBoth.direct hw1 hw2, by rw [← s2.repo]; exact g4⟩

/-- C71: after a session has saved, everything holds again that the next session needs to succeed. -/
theorem C71_again (hr : r ≠ []) {s : Repo} {g : ObjId} {w0 w w' : World} (ho : Opens C r s g t u w0)
    (hn : TrimAt C r s.log) (hh : HashTrees s.log r) (h : Orderly C g t u w0 w)
    (hsave : SavesBoth C r t u w w') {L : Log} (ha : After C r w'.repo.log L) : Stocked C r L ∧ TrimAt C r L := by
  obtain ⟨v, b, l⟩ := ho.session hr hn hh h
  obtain ⟨s1, s2⟩ := b.saved hr hsave ha
  refine ⟨C64_stocked hr ho h.busy.meanwhile hsave ha, fun k nm hk h0 => ?_⟩
  rcases hk with ⟨rfl, rfl⟩ | ⟨rfl, rfl⟩
  · exact (l.tidy.trim l.desk.sound.fine l.desk.tl).of_same (s1.same h0)
  · exact (l.tidy.trim l.desk.sound.fine l.desk.ul).of_same (s2.same h0)

/-! ### A non-trivial case -/

/-- Checks `HashTrees`. -/
def hashTreesCheck (L : Log) : Bool :=
  L.all fun
    | .save _ (.tree es) => es.all fun e => isHash e.hash
    | _ => true

theorem hashTrees_of_check {L : Log} (h : hashTreesCheck L = true) : HashTrees L r := by
  intro es hs e he
  unfold hashTreesCheck at h
  exact List.all_eq_true.mp (List.all_eq_true.mp h _ hs) e he

theorem trimAt_empty : TrimAt C r [] := by
  intro l nm hl h0
  obtain ⟨he, _⟩ := hl.ref
  have hv : ∃ e, view C [] h0 (.sto r l) = .error e := by
    rcases hl with ⟨rfl, rfl⟩ | ⟨rfl, rfl⟩ <;> exact ⟨_, rfl⟩
  obtain ⟨e, hv⟩ := hv
  refine ⟨fun ks t0 s d b _ hl => ?_, fun ks k t0 s d b s' d' b' hl => ?_⟩
  · rw [look_missing_of_view hv] at hl; cases hl
  · rw [look_missing_of_view hv] at hl; cases hl

theorem wholeOrderly : Orderly sampleCfg 2 2 3 wholeOpen wholeFiled := by
  have hf : ∀ (q : ObjId), 2 ≤ q → q < wholeNew.next → ¬ Has wholeNew.heap q 9 := by
    have hn : wholeNew.next = 10 := by decide +kernel
    rw [hn]
    have : ∀ q, q < 10 → 2 ≤ q → 9 ∉ (wholeNew.heap q).body.subs := by decide +kernel
    exact fun q h1 h2 h => this q h2 h1 h.2
  have hd : ∀ n ∈ [c!"d", c!"f"], CompOk n ∧ NameOk n := by
    intro n hn
    rcases List.mem_cons.mp hn with rfl | hn
    · exact ⟨by decide, by decide, by decide, by decide, by decide⟩
    · rcases List.mem_cons.mp hn with rfl | hn
      · exact ⟨by decide, by decide, by decide, by decide, by decide⟩
      · cases hn
  refine Orderly.filed wholeNew .metadata 7 9 _ ?_ (by decide) (by decide +kernel) (by decide +kernel) (by decide)
    (by decide +kernel) (by decide +kernel) hf hd (fun e => by cases e)
  refine Orderly.ran _ 9 _ _ (Orderly.new _ _ ?_ rfl ?_) (by decide) (by decide +kernel) wf_sampleRun
  · refine Orderly.ran _ 6 _ _ ?_ (by decide) (by decide +kernel) wf_sampleRun
    exact Orderly.asked _ _ _ _ _ _ _ _ _ .refl ⟨rfl, fun c hc => by cases hc⟩ (fun n hn => by cases hn) (by simp)
      (fun q => absurd rfl q) (Or.inl (by decide +kernel))
  · exact ⟨List.nodup_nil, fun p hp => by cases hp⟩

/-- An empty repository is opened; a record is made and gets metadata; it is saved.  The next session opens the
repository and is answered when it asks for a sub-dataset. -/
example : (∃ N, ∀ n n' force force', N ≤ n → N ≤ n' →
      CollisionFree sampleCfg (writeOut sampleCfg n (some sampleRealm) force 2 wholeFiled).2.eff →
      ∃ ref w1, writeOut sampleCfg n (some sampleRealm) force 2 wholeFiled = (.ok ref, w1) ∧
        (CollisionFree sampleCfg (writeOut sampleCfg n' (some sampleRealm) force' 3 w1).2.eff →
          ∃ ref' w2, writeOut sampleCfg n' (some sampleRealm) force' 3 w1 = (.ok ref', w2))) ∧
    ∃ g t u w, Opens sampleCfg sampleRealm ⟨wholeSecond.2.repo.log, []⟩ g t u w ∧
      ∃ m w', rootRecord sampleCfg (some true) c!"0.2" t u sampleUuid c!"v1" ⟨[], []⟩ [c!"sub"] (some sampleUuid) (some c!"v1") w =
        (.ok (some m), w') := by
  have hc : CollisionFree sampleCfg wholeSecond.2.repo.log := collisionFree_of_check (by decide +kernel)
  have hh : HashTrees wholeSecond.2.repo.log sampleRealm := hashTrees_of_check (by decide +kernel)
  have hset : look sampleCfg wholeFiled.repo.log wholeFiled.heap [.uuid sampleUuid] [] (.mem 3) ≠ .absent := by
    have : (look sampleCfg wholeFiled.repo.log wholeFiled.heap [.uuid sampleUuid] [] (.mem 3)).isAbsent = false := by decide +kernel
    intro e
    rw [e] at this
    cases this
  have hff : wholeFiled.repo.faults = [] := by decide +kernel
  have hb := wholeOrderly
  have ho := wholeOpens
  have hs := wholeSaved
  generalize wholeSecond.2 = ws at hc hs hh ⊢
  generalize wholeFiled = wf at hb hs hset hff ⊢
  generalize wholeOpen = wo at hb ho
  have hn := trimAt_empty (C := sampleCfg) (r := sampleRealm)
  have h0 : HashTrees [] sampleRealm := fun es hs => by cases hs
  obtain ⟨N, h1⟩ := C71_saves (by decide) (by decide) ho hn h0 hb hff ⟨_, hset⟩
  refine ⟨⟨N, fun n n' force force' a b c => ?_⟩, ?_⟩
  · obtain ⟨ref, w1, h2, h3⟩ := h1 n n' force force' a b c
    refine ⟨ref, w1, h2, fun d => ?_⟩
    obtain ⟨ref', w2, h4, _⟩ := h3 d
    exact ⟨ref', w2, h4⟩
  · obtain ⟨h2, h3⟩ := C71_again (by decide) ho hn h0 hb hs (L := ws.repo.log) ⟨Grows.refl _, fun _ _ => rfl, hc⟩
    obtain ⟨g, t, u, w, h4⟩ := C71_opens (C := sampleCfg) (r := sampleRealm) (by decide) (s := ⟨ws.repo.log, []⟩)
      (Or.inr ⟨rfl, h2⟩)
    refine ⟨g, t, u, w, h4, ?_⟩
    obtain ⟨o, w', h5, _, h6⟩ := C71_answered (by decide) h4 h3 hh .refl (h4.works rfl) (some true) c!"0.2" sampleUuid c!"v1"
      (pre := ⟨[], []⟩) ⟨rfl, fun c hc => by cases hc⟩ (path := [c!"sub"])
      (fun n hn => by
        rw [List.mem_singleton.mp hn]
        exact ⟨by decide, by decide, by decide, by decide, by decide⟩) (by decide)
      (root := some sampleUuid) (rv := some c!"v1") (fun _ => ⟨by simp, by simp⟩)
    obtain ⟨m, rfl⟩ := h6 (by decide)
    exact ⟨m, w', h5⟩

end MM
