/-
C78: sessions of a process that has worked before.
-/
import Verif.Props.EndToEnd

namespace MM

variable {C : Cfg} {r : Realm} {t u : ObjId}

/-! ### Processes that go on -/

/-- A process goes on when the repository has become `s`.  (Numbers that no object has yet are blank: in the model
a new object gets the number `next`, whatever is there, see `resumed_create`.) -/
def World.resumed (s : Repo) (w : World) : World :=
  { w with repo := s, heap := fun j => if j < w.next then w.heap j else Obj.new (Body.empty .text) }

theorem resumed_create (s : Repo) (o : Obj) (w : World) : create o (w.resumed s) = (create o w).resumed s := by
  unfold create World.resumed
  simp only [World.mk.injEq, and_true]
  funext j
  show (Heap.set _ w.next o) j = if j < w.next + 1 then (w.heap.set w.next o) j else _
  by_cases e : j = w.next
  · subst e
    rw [Heap.set_self, Heap.set_self, if_pos (Nat.lt_succ_self _)]
  · rw [Heap.set_ne e, Heap.set_ne e]
    by_cases h : j < w.next
    · rw [if_pos h, if_pos (Nat.lt_succ_of_lt h)]
    · rw [if_neg h, if_neg (fun h' => h (Nat.lt_of_le_of_ne (Nat.le_of_lt_succ h') e))]

theorem idle_resumed (s : Repo) {w : World} (h : w.caches = []) : Idle s (w.resumed s) :=
  ⟨rfl, h, fun _ hj => if_neg (Nat.not_lt.mpr hj)⟩

/-! ### C78 -/

/-- C78: while git works, after every history of sessions, a process that has worked before can open the repository.  It is
told that there is no metadata if and only if no UUID set was ever published. -/
theorem C78_opens (hr : r ≠ []) {s : Repo} (hL : Past C r s.log) (hf : s.faults = []) {i : World} (hi : Idle s i) :
    ∃ o w, topLevel C r i = (.ok o, w) ∧ (o = none ↔ refOf s.log r uuidSetRefName = none) ∧
      (o = none → Opens C r s w.next w.next (w.next + 1)
        (create (Obj.new (Body.empty .uuidset)) (create (Obj.new (Body.empty .tvl)) w))) ∧
      ∀ t u, o = some (t, u) → Opens C r s i.next t u w := by
  rcases (hL.ready hr).open_.answer hr hf hi with ⟨hn, w, hw⟩ | ⟨hs, w, hw⟩
  · exact ⟨none, w, hw, ⟨fun _ => hn, fun _ => rfl⟩, fun _ => .made i w hi hw, fun t u e => (by cases e)⟩
  · refine ⟨_, w, hw, ⟨fun e => (by cases e), fun hn => ?_⟩, fun e => (by cases e), fun t u e => ?_⟩
    · exact absurd (by rw [hi.repo]; exact hn) (found_named hw)
    · cases e
      exact .found i _ _ w hi hs hw

/-- C78: what the process then has is what is stored now, whatever other objects it has. -/
theorem C78_current (hr : r ≠ []) {s : Repo} {i : World} (hi : Idle s i) (hst : Stocked C r s.log) {w : World}
    (htop : topLevel C r i = (.ok (some (t, u)), w)) (h0 : Heap) :
    SameContent C s.log h0 (.sto r tvlLink) w.repo.log w.heap (.mem t) ∧
      SameContent C s.log h0 (.sto r uuidSetLink) w.repo.log w.heap (.mem u) :=
  opened_content hr hi hst htop h0

/-- C78: opening the repository does not change the objects that the process has. -/
theorem C78_opened_keeps {s : Repo} {i : World} (hi : Idle s i) {j : ObjId} (hj : j < i.next) :
    (topLevel C r i).2.heap j = i.heap j :=
  ((twin_topLevel (C := C) (r := r) (fun j => i.next ≤ j) i i.cleared hi.side).2.2.1 j (Nat.not_le.mpr hj)).1

theorem Bench.leaves (hr : r ≠ []) {g : ObjId} {w w' v : World} (b0 : Bench C r g t u w v) (h : Busy C g t u w w') {j : ObjId}
    (hj : j < g) : w'.heap j = w.heap j := by
  have hj : ¬ g ≤ j := Nat.not_le.mpr hj
  induction h with
  | refl => rfl
  | loaded w' i h1 hg hi ih =>
    obtain ⟨v', b, _⟩ := b0.busy hr h1
    exact ((twin_ensureMapped (C := C) hg w' v' b.side).2.2.1 j hj).1.trans ih
  | read w' i h1 hg hi ih =>
    obtain ⟨v', b, _⟩ := b0.busy hr h1
    exact ((twin_readIn (C := C) hg w' v' b.side).2.2.1 j hj).1.trans ih
  | looked w' i p h1 hg hi ih =>
    obtain ⟨v', b, _⟩ := b0.busy hr h1
    exact ((twin_getObjectAt (C := C) p hg w' v' b.side).2.2.1 j hj).1.trans ih
  | listed w' i id h1 hg hi ih =>
    obtain ⟨v', b, _⟩ := b0.busy hr h1
    exact ((twin_getVersionList (C := C) hg id w' v' b.side).2.2.1 j hj).1.trans ih
  | element w' i x p h1 hg hi ih =>
    obtain ⟨v', b, _⟩ := b0.busy hr h1
    exact ((twin_getVersioned (C := C) hg x p w' v' b.side).2.2.1 j hj).1.trans ih
  | asked w' auto now id x pre path root rv h1 hc hp ih =>
    obtain ⟨v', b, _⟩ := b0.busy hr h1
    exact ((twin_rootRecord (C := C) b.gt b.gu auto now id x pre path root rv w' v' b.side).2.2.1 j hj).1.trans ih
  | new w' x h1 hk hd ih =>
    obtain ⟨v', b, _⟩ := b0.busy hr h1
    have : Twin (fun j => g ≤ j) (fun j => g ≤ j) (alloc (Obj.new x)) := Twin.alloc (fun _ y hy => by
      unfold Body.subs at hy
      rw [show (Obj.new x).body.kids = [] from hk] at hy
      cases hy)
    exact ((this w' v' b.side).2.2.1 j hj).1.trans ih
  | ran w' i ext run h1 hg hi hw ih =>
    obtain ⟨v', b, _⟩ := b0.busy hr h1
    exact ((twin_addExtractorRun (C := C) hg ext run w' v' b.side).2.2.1 j hj).1.trans ih
  | filed w' leaf i x p h1 hg hi hik hgx hx hxk hl hp ih =>
    obtain ⟨v', b, _⟩ := b0.busy hr h1
    exact ((twin_addChildAt (C := C) hgx p hg w' v' b.side).2.2.1 j hj).1.trans ih
  | part w' k i x h1 hg hi hik hm hn hgx hx hxk hl ih =>
    obtain ⟨v', b, _⟩ := b0.busy hr h1
    exact ((twin_setPart (C := C) hg hgx w' v' b.side).2.2.1 j hj).1.trans ih

theorem Bench.leavesAll (hr : r ≠ []) {g : ObjId} {w w' v : World} (b0 : Bench C r g t u w v) (h : Meanwhile C r g t u w w')
    {j : ObjId} (hj : j < g) : w'.heap j = w.heap j := by
  induction h with
  | refl => rfl
  | works w1 w2 h1 hb ih =>
    obtain ⟨v1, b, _⟩ := b0.meanwhile hr h1
    exact (b.leaves hr hb hj).trans ih
  | others w1 L fs _ _ _ _ _ ih => exact ih

/-- C78: a session does not change the objects that the process had before it, not even by saving. -/
theorem C78_keeps (hr : r ≠ []) {s : Repo} {g : ObjId} {w0 w w' : World} (ho : Opens C r s g t u w0)
    (h : Meanwhile C r g t u w0 w) (hsave : w' = w ∨ SavesBoth C r t u w w') {j : ObjId} (hj : j < g) :
    w'.heap j = w0.heap j := by
  obtain ⟨v0, b0⟩ := ho.bench hr
  refine Eq.trans ?_ (b0.leavesAll hr h hj)
  obtain ⟨v, b, _⟩ := b0.meanwhile hr h
  rcases hsave with rfl | ⟨n, n', force, force', ref, ref', w1, L1, fs, h1, _, _, h2⟩
  · rfl
  · have hj : ¬ g ≤ j := Nat.not_le.mpr hj
    obtain ⟨_, s1, k1, _⟩ := twin_writeOut (C := C) n (dest := some r) (force := force) b.gt w v b.side
    rw [h1] at s1 k1
    obtain ⟨_, _, k2, _⟩ := twin_writeOut (C := C) n' (dest := some r) (force := force') b.gu (outside L1 fs w1)
      (outside L1 fs (writeOut C n (some r) force t v).2) ⟨s1.heap, s1.next, rfl, s1.caches, s1.refs, s1.subs, s1.fresh⟩
    rw [h2] at k2
    exact (k2 j hj).1.trans (k1 j hj).1

/-- C78: after a session, whether or not it has saved, the process can go on with another one, with whatever the
repository has become. -/
theorem C78_again (hr : r ≠ []) {s : Repo} {g : ObjId} {w0 w w' : World} (ho : Opens C r s g t u w0)
    (h : Meanwhile C r g t u w0 w) (hsave : w' = w ∨ SavesBoth C r t u w w') (s' : Repo) : Idle s' (w'.resumed s') := by
  obtain ⟨v0, b0⟩ := ho.bench hr
  obtain ⟨v, b, _⟩ := b0.meanwhile hr h
  have hc : w.caches = [] := by rw [← b.side.caches]; exact b.desk.intact.caches
  refine idle_resumed s' ?_
  rcases hsave with rfl | ⟨n, n', force, force', ref, ref', w1, L1, fs, h1, _, _, h2⟩
  · exact hc
  · have hc1 : w1.caches = [] := caches_writeAs (via := .own) h1 hc
    exact caches_writeAs (via := .own) (w := outside L1 fs w1) h2 hc1

/-- C78: the process itself finds what it has saved, when it opens the repository again. -/
theorem C78_saved (hr : r ≠ []) {s : Repo} {g : ObjId} {w0 w1 w2 w w' : World} (ho : Opens C r s g t u w0)
    (h1 : Meanwhile C r g t u w0 w1) {auto : Option Bool} {now : Str} {ds : Uuid} {dv : Str} {pre : PPath} {path : List Str}
    {root : Option Uuid} {rv : Option Str} {m : ObjId} (hc : Canonical pre) (hp : ∀ n ∈ path, CompOk n ∧ NameOk n)
    (hask : rootRecord C auto now t u ds dv pre path root rv w1 = (.ok (some m), w2))
    (h2 : Meanwhile C r g t u w2 w) (hsave : SavesBoth C r t u w w')
    {s' : Repo} (ha : After C r w'.repo.log s'.log) (hf : s'.faults = [])
    (auto' : Option Bool) (now' : Str) {id : Uuid} {v : Str} {sub : Option (Uuid × Str)}
    (hsub : sub = some (ds, dv) ∨ (sub = none ∧ path = [] ∧ ds = id ∧ dv = v))
    (hroot : path ≠ [] → root = some id ∧ rv = some v) :
    ∃ t' u' m' w3, topRecord C auto' now' r id v pre path sub (w'.resumed s') = (.ok (some (t', u'), some m'), w3) ∧
      ∀ ks, look C w3.repo.log w3.heap ks [] (.mem m') = look C w.repo.log w.heap ks [] (.mem m) := by
  obtain ⟨v0, b0⟩ := ho.bench hr
  have hm : Meanwhile C r g t u w0 w2 := by
    have := Busy.asked w1 auto now ds dv pre path root rv .refl hc hp (C := C) (g := g) (t := t) (u := u)
    rw [hask] at this
    exact .works _ _ h1 this
  have hm' : Meanwhile C r g t u w0 w := by
    clear hsave
    induction h2 with
    | refl => exact hm
    | works a b _ hb ih => exact .works _ _ ih hb
    | others a L fs _ x1 x2 x3 x4 ih => exact .others _ L fs ih x1 x2 x3 x4
  exact C64_saved hr ho h1 hc hp hask h2 hsave ha hf (C78_again hr ho hm' (Or.inr hsave) s') auto' now' hsub hroot

/-! ### A non-trivial case -/

/-- The process that made a record and saved it opens the repository again: it gets the record with both runs, and the
top-level objects of its first session are as they were. -/
example (auto : Option Bool) : ∃ t' u' m' w3,
    topRecord sampleCfg auto c!"0.2" sampleRealm sampleUuid c!"v1" ⟨[], []⟩ [] none
        (wholeSecond.2.resumed ⟨wholeSecond.2.repo.log, []⟩) = (.ok (some (t', u'), some m'), w3) ∧
    (look sampleCfg w3.repo.log w3.heap [.dlm] [] (.mem m')).extractors = 1 ∧
    (look sampleCfg w3.repo.log w3.heap [.ft, .name c!"d", .name c!"f"] [] (.mem m')).extractors = 1 ∧
    ∀ j, j < wholeSecond.2.next →
      (topLevel sampleCfg sampleRealm (wholeSecond.2.resumed ⟨wholeSecond.2.repo.log, []⟩)).2.heap j = wholeSecond.2.heap j := by
  have hc : CollisionFree sampleCfg wholeSecond.2.repo.log := collisionFree_of_check (by decide +kernel)
  have ha : rootRecord sampleCfg (some true) c!"0.1" 2 3 sampleUuid c!"v1" ⟨[], []⟩ [] none none wholeOpen =
      (.ok (some 8), wholeAsked.2) := of_okVal (x := wholeAsked) (by decide +kernel)
  have l1 : (look sampleCfg wholeFiled.repo.log wholeFiled.heap [.dlm] [] (.mem 8)).extractors = 1 := by decide +kernel
  have l2 : (look sampleCfg wholeFiled.repo.log wholeFiled.heap [.ft, .name c!"d", .name c!"f"] [] (.mem 8)).extractors = 1 := by
    decide +kernel
  have hb := wholeBusy
  have ho := wholeOpens
  have hs := wholeSaved
  have hord := wholeOrderly
  generalize wholeSecond.2 = ws at hc hs ⊢
  generalize wholeFiled = wf at hb hs l1 l2 hord
  generalize wholeAsked.2 = wa at ha hb
  generalize wholeOpen = wo at ha ho hord
  obtain ⟨t', u', m', w3, h, hl⟩ := C78_saved (C := sampleCfg) (by decide) ho .refl (path := [])
    ⟨rfl, fun c hc => by cases hc⟩ (fun n hn => by cases hn) ha hb.meanwhile hs (s' := ⟨ws.repo.log, []⟩)
    ⟨Grows.refl _, fun _ _ => rfl, hc⟩ rfl auto c!"0.2" (id := sampleUuid) (v := c!"v1") (sub := none)
    (Or.inr ⟨rfl, rfl, rfl, rfl⟩) (fun q => absurd rfl q)
  refine ⟨t', u', m', w3, h, by rw [hl]; exact l1, by rw [hl]; exact l2, fun j hj => ?_⟩
  rw [C78_opened_keeps (C78_again (by decide) ho hord.busy.meanwhile (Or.inr hs) _) hj]
  exact if_pos hj

end MM
