/-
C51, C43: writes that failed can be repeated.
-/
import Verif.Props.Success

namespace MM

variable {C : Cfg} {r : Realm}

/-- Writing an object is tried any number of times, in any way, and fails each time: git commands
may fail in any of the attempts.  No attempt fails inside a file tree, which would leave a cache
behind; then no file tree can be written any more, see `C51_file_tree_false`. -/
inductive Attempts (C : Cfg) (r : Realm) (i : ObjId) (w : World) : World → Prop
  | none : Attempts C r i w w
  | again (w1 w' : World) (fs : List Fault) (via : Via) (n : Nat) (e : PyErr) : Attempts C r i w w1 →
      writeAs C via n (some r) false i (outside w1.repo.log fs w1) = (.error e, w') → w'.caches = [] →
      CollisionFree C w'.repo.log → Attempts C r i w w'

/-- What has to be known of an object that is to be written. -/
structure ToWrite (C : Cfg) (r : Realm) (w : World) (i : ObjId) : Prop where
  storable : Storable w.heap i
  alone : Alone r w.heap i
  trusted : Trusted C r w i
  owned : Owned r w.heap i
  half : NoHalf r w.heap i

theorem Attempts.state {i : ObjId} {w w' : World} (hr : r ≠ []) (h : Attempts C r i w w') (hs : History C r w)
    (hc : CollisionFree C w.repo.log) (ht : ToWrite C r w i) :
    History C r w' ∧ CollisionFree C w'.repo.log ∧ ToWrite C r w' i ∧ (w'.heap i).kind = (w.heap i).kind ∧
    (NoBlanks r w.heap i → NoBlanks r w'.heap i) ∧
    ∀ j, SameContent C w.repo.log w.heap (.mem j) w'.repo.log w'.heap (.mem j) := by
  induction h with
  | none => exact ⟨hs, hc, ht, rfl, id, fun j => SameContent.refl _ _ _ _⟩
  | again w1 w' fs via n e _ hx hca hc' ih =>
    obtain ⟨s1, c1, a1, k1, b1, l1⟩ := ih
    have s2 : History C r (outside w1.repo.log fs w1) :=
      History.outside w1 w1.repo.log fs s1 (Grows.refl _) (fun _ => rfl) c1
    have d := (s2.intact hr).attempt hr (by rw [hx]) hca hc' a1.storable a1.alone a1.trusted a1.owned a1.half
    refine ⟨History.write _ via n false i _ w' s2 hx hca hc' a1.storable a1.alone, hc',
      ⟨d.storable, d.alone, d.trusted, d.owned, d.half⟩, (d.tried.any.same i).kind.trans k1, fun hb j hj hm => ?_,
      fun j => (l1 j).trans (d.look j)⟩
    have hm1 : (w1.heap j).mapped = false := by rw [(d.tried.any.same j).mapped] at hm; exact hm
    rw [d.tried.limits.out j (Or.inr hm1)]
    exact b1 hb j (hj.mono d.tried.any.same) hm1

/-- C51: after any number of failed attempts to write an object, nothing has changed in memory, and
a write that succeeds stores what the object held before the first attempt.  What is missing: the
objects to be written that pass for saved are saved with all their parts (`ToWrite.half`), no attempt
fails inside a file tree.  See `C51_false` and `C51_file_tree_false` for the other cases. -/
theorem C51_stored_partial {i : ObjId} {w w1 w' : World} (hr : r ≠ []) (h : Attempts C r i w w1) (hs : History C r w)
    (hc : CollisionFree C w.repo.log) (ht : ToWrite C r w i) {via : Via} {n : Nat} {force : Bool} {ref : Ref}
    (hx : writeAs C via n (some r) force i w1 = (.ok ref, w')) (hc' : CollisionFree C w'.repo.log) (h0 : Heap) :
    SameContent C w.repo.log w.heap (.mem i) w'.repo.log h0 (.sto r ⟨(w.heap i).kind, normRef (w.heap i).kind ref⟩) ∧
    ∀ j, SameContent C w.repo.log w.heap (.mem j) w1.repo.log w1.heap (.mem j) := by
  obtain ⟨s1, c1, a1, k1, _, l1⟩ := h.state hr hs hc ht
  have int := s1.intact hr
  have h17 := (int.read_back (int.done hr hx hc' a1.storable a1.alone a1.trusted a1.owned) h0).1
  rw [k1] at h17
  exact ⟨(l1 i).trans h17, l1⟩

/-- C51: once git works, the write succeeds and stores what the object held before the first
attempt. -/
theorem C51_repeated_partial {i : ObjId} {w w1 : World} (hr : r ≠ []) (hrem : Ref.isRemote r = false)
    (h : Attempts C r i w w1) (hs : History C r w)
    (hc : CollisionFree C w.repo.log) (ht : ToWrite C r w i) (hb : NoBlanks r w.heap i) (hn : NoHole C w i)
    {via : Via} {force : Bool}
    (hvia : via = .file → (w.heap i).kind = .mtree .metadata) (hf : w1.repo.faults = []) :
    ∃ N, ∀ n, N ≤ n → CollisionFree C (writeAs C via n (some r) force i w1).2.eff →
      ∃ ref w', writeAs C via n (some r) force i w1 = (.ok ref, w') ∧
        ∀ h0, SameContent C w.repo.log w.heap (.mem i) w'.repo.log h0
          (.sto r ⟨(w.heap i).kind, normRef (w.heap i).kind ref⟩) := by
  obtain ⟨s1, c1, a1, k1, b1, l1⟩ := h.state hr hs hc ht
  have hn1 : NoHole C w1 i := by
    constructor
    · intro ks k t d b t' d' b' g1 gk g2
      rw [← l1 i] at g1 g2
      exact hn.inner ks k t d b t' d' b' g1 gk g2
    · intro ks t b g1
      rw [← l1 i] at g1
      obtain ⟨k, hk⟩ := hn.sets ks t b g1
      exact ⟨k, by rw [← l1 i]; exact hk⟩
  obtain ⟨N, h1⟩ := C57_history_partial (force := force) hr hrem s1 (fun e => by rw [k1]; exact hvia e) a1.storable
    a1.alone a1.trusted a1.owned (b1 hb) hn1 hf
  refine ⟨N, fun n hN hcf => ?_⟩
  obtain ⟨ref, w', e, h2⟩ := h1 n hN hcf
  refine ⟨ref, w', e, fun h0 => ?_⟩
  have := h2 h0
  rw [k1] at this
  exact (l1 i).trans this

/-- The first attempt of the example: the seventh git command fails. -/
def firstTry : Except PyErr Ref × World := writeAs sampleCfg .own 20 (some sampleRealm) false 6
  (outside sampleWorld.repo.log [.none, .none, .none, .none, .none, .none, .fail 0] sampleWorld)

/-- The second attempt: some objects are stored already, the third git command fails after it has
taken effect. -/
def secondTry : Except PyErr Ref × World := writeAs sampleCfg .own 20 (some sampleRealm) false 6
  (outside firstTry.2.repo.log [.none, .none, .fail 1] firstTry.2)

/-- Writing the tree version list of the example fails twice, then it works. -/
theorem sample_attempts : Attempts sampleCfg sampleRealm 6 sampleWorld secondTry.2 :=
  .again firstTry.2 _ _ .own 20 .runtime
    (.again sampleWorld _ _ .own 20 .runtime .none (of_errOf (by decide +kernel)) (by decide +kernel)
      (collisionFree_of_check (by decide +kernel)))
    (of_errOf (by decide +kernel)) (by decide +kernel) (collisionFree_of_check (by decide +kernel))

theorem sample_toWrite {i : ObjId} (hi : i < 9) : ToWrite sampleCfg sampleRealm sampleWorld i :=
  ⟨sample_storable hi, sample_alone _, (sample_session.1.sane (by decide)).trusted i,
    (sample_session.1.sane (by decide)).owned i, fun p _ hp => by rw [sample_session.2] at hp; cases hp⟩

example : Attempts sampleCfg sampleRealm 6 sampleWorld secondTry.2 ∧ History sampleCfg sampleRealm sampleWorld ∧
    CollisionFree sampleCfg sampleWorld.repo.log ∧ ToWrite sampleCfg sampleRealm sampleWorld 6 ∧
    NoBlanks sampleRealm sampleWorld.heap 6 ∧ NoHole sampleCfg sampleWorld 6 ∧
    secondTry.2.repo.faults = [] ∧ 0 < secondTry.2.repo.log.length ∧
    isOk (writeAs sampleCfg .own 20 (some sampleRealm) false 6 secondTry.2) = true :=
  ⟨sample_attempts, sample_session.1.history (by decide), collisionFree_of_check (by decide +kernel),
    sample_toWrite (by decide), (sample_session.1.sane (by decide)).noBlanks 6,
    noHole_of_check (n := 9) (by decide +kernel), by decide +kernel, by decide +kernel,
    by decide +kernel⟩

end MM
