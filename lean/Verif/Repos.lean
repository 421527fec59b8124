/-
Processes that work with several repositories.  Every object belongs to one of them, together with
its parts.  What holds for a process with one repository holds for each of them, since the objects of
the other repositories do not matter (`Local`).
-/
import Verif.Local
import Verif.CopyDone

namespace MM

variable {C : Cfg} {r : Realm} {own : ObjId → Realm}

/-- The share of one repository in a process: the objects of others are replaced by new, empty ones. -/
def World.share (own : ObjId → Realm) (r : Realm) (w : World) : World :=
  { w with heap := fun j => if own j = r then w.heap j else Obj.new (Body.empty .text) }

theorem share_own {w : World} {j : ObjId} (h : own j = r) : (w.share own r).heap j = w.heap j := if_pos h

theorem share_other {w : World} {j : ObjId} (h : own j ≠ r) :
    (w.share own r).heap j = Obj.new (Body.empty .text) := if_neg h

/-- New objects belong to the given repository. -/
def grown (own : ObjId → Realm) (n : ObjId) (r : Realm) : ObjId → Realm := fun j => if j < n then own j else r

/-- Each object has its parts in its own repository, and each share is as a process with one repository
leaves it.  Objects that belong to no repository are never used again. -/
structure Owners (C : Cfg) (own : ObjId → Realm) (w : World) : Prop where
  caches : w.caches = []
  subs : ∀ p, own p ≠ [] → (w.heap p).mapped = true → ∀ k ∈ (w.heap p).body.subs, own k = own p ∧ k < w.next
  fresh : ∀ j, w.next ≤ j → w.heap j = Obj.new (Body.empty .text)
  history : ∀ r, r ≠ [] → History C r (w.share own r)

/-- The objects that code for a repository can reach or create -/
def OfRepo (own : ObjId → Realm) (n : ObjId) (r : Realm) : ObjId → Prop := fun j => own j = r ∨ n ≤ j

theorem Owners.side {w : World} (h : Owners C own w) (hr : r ≠ []) :
    Side (OfRepo own w.next r) w (w.share own r) := by
  refine ⟨?_, rfl, rfl, rfl, rfl, ?_, fun j hj => Or.inr hj⟩
  · intro j hj
    by_cases e : own j = r
    · exact share_own e
    · rw [share_other e, h.fresh j (hj.resolve_left e)]
  · intro p hp hm k hk
    rcases hp with hp | hp
    · exact Or.inl ((h.subs p (by rw [hp]; exact hr) hm k hk).1.trans hp)
    · rw [h.fresh p hp] at hk; cases hk

/-- A step elsewhere, as one repository sees it: its objects stay, new ones are unused. -/
theorem Around.elsewhere {w w' : World} (hn : w.next ≤ w'.next) (hc : w'.caches = []) (hh : w'.heap = w.heap)
    (hst : ∀ j, (w.heap j).mapped = false → ∃ ref, (w.heap j).ref = some ref)
    (hl : w'.repo.log = w.repo.log ∨ (Grows w.repo.log w'.repo.log ∧
      (∀ n, refOf w'.repo.log r n = refOf w.repo.log r n) ∧ CollisionFree C w'.repo.log)) : Around C r w w' := by
  refine ⟨hn, hc, ?_, ?_, hl.imp id fun h => h.2.2, fun j _ => by rw [hh], fun j hm => ?_⟩
  · rcases hl with hl | hl
    · rw [hl]; exact Grows.refl _
    · exact hl.1
  · rcases hl with hl | hl
    · intro n; rw [hl]; exact Or.inl rfl
    · exact fun n => Or.inl (hl.2.1 n)
  · obtain ⟨ref, e⟩ := hst j hm
    rw [hh]
    exact ⟨hm, rfl, rfl, ⟨ref, e, Or.inl e⟩, fun _ _ h => h, fun _ h => h⟩

theorem Intact.refs {w : World} (hs : Intact C r w) {j : ObjId} (hm : (w.heap j).mapped = false) :
    ∃ ref, (w.heap j).ref = some ref := by
  obtain ⟨ref, _, h, _⟩ := hs.fetched hm
  exact ⟨ref, h⟩

/-- The objects of a repository after a step for another one -/
theorem share_grown {w w' : World} {s : Realm} (h : Owners C own w) (hrs : s ≠ r)
    (hkeep : ∀ j, j < w.next → own j = s → w'.heap j = w.heap j) :
    (w'.share (grown own w.next r) s).heap = (w.share own s).heap := by
  funext j
  by_cases hj : j < w.next
  · by_cases ho : own j = s
    · rw [share_own ho, share_own (by unfold grown; rw [if_pos hj]; exact ho)]
      exact hkeep j hj ho
    · rw [share_other ho, share_other (by unfold grown; rw [if_pos hj]; exact ho)]
  · rw [share_other (own := grown own w.next r) (by unfold grown; rw [if_neg hj]; exact fun e' => hrs e'.symm)]
    by_cases ho : own j = s
    · rw [share_own ho, h.fresh j (Nat.le_of_not_lt hj)]
    · rw [share_other ho]

/-- Code that works with the objects of one repository keeps everything in order. -/
theorem Owners.step {α : Type} {f : W α} {P : α → Prop} {w : World} (h : Owners C own w) (hr : r ≠ [])
    (hf : Twin (OfRepo own w.next r) P f) (hn : w.next ≤ (f w).2.next) (hc : (f w).2.caches = [])
    (hl : (f w).2.repo.log = w.repo.log ∨ (Grows w.repo.log (f w).2.repo.log ∧
      (∀ s, s ≠ r → ∀ n, refOf (f w).2.repo.log s n = refOf w.repo.log s n) ∧ CollisionFree C (f w).2.repo.log))
    (hint : History C r (f (w.share own r)).2)
    (hfresh : ∀ j, (f w).2.next ≤ j → (f w).2.heap j = Obj.new (Body.empty .text)) :
    Owners C (grown own w.next r) (f w).2 ∧ (f (w.share own r)).1 = (f w).1 ∧
      (f (w.share own r)).2 = (f w).2.share (grown own w.next r) r ∧
      ∀ s, s ≠ [] → s ≠ r → Around C s (w.share own s) ((f w).2.share (grown own w.next r) s) := by
  obtain ⟨h1, h2, h3, _⟩ := hf _ _ (h.side hr)
  have hin : ∀ j, OfRepo own w.next r j ↔ grown own w.next r j = r := by
    intro j
    unfold OfRepo grown
    by_cases hj : j < w.next
    · rw [if_pos hj]
      exact ⟨fun e => e.resolve_right (Nat.not_le.mpr hj), Or.inl⟩
    · rw [if_neg hj]
      exact ⟨fun _ => rfl, fun _ => Or.inr (Nat.le_of_not_lt hj)⟩
  have heq : (f (w.share own r)).2 = (f w).2.share (grown own w.next r) r := by
    have hh : (f (w.share own r)).2.heap = ((f w).2.share (grown own w.next r) r).heap := by
      funext j
      by_cases hj : OfRepo own w.next r j
      · rw [h2.heap j hj, share_own ((hin j).mp hj)]
      · rw [(h3 j hj).2, share_other fun e => hj ((hin j).mpr e), share_other fun e => hj (Or.inl e)]
    have a1 := h2.next
    have a2 := h2.repo
    have a3 := h2.caches
    have a4 := h2.refs
    cases hx : (f (w.share own r)).2 with
    | mk b1 b2 b3 b4 b5 =>
      rw [hx] at hh a1 a2 a3 a4
      simp only at hh a1 a2 a3 a4
      subst a1 a2 a3 a4
      rw [hh]
      rfl
  have har : ∀ s, s ≠ [] → s ≠ r → Around C s (w.share own s) ((f w).2.share (grown own w.next r) s) := by
    intro s hs e
    refine Around.elsewhere hn hc ?_ (fun j hm => ((h.history s hs).intact hs).refs hm) ?_
    · refine share_grown h e fun j hj ho => (h3 j ?_).1
      rintro (e' | e')
      · exact e (ho.symm.trans e')
      · exact Nat.not_le.mpr hj e'
    · rcases hl with hl | ⟨g1, g2, g3⟩
      · exact Or.inl hl
      · exact Or.inr ⟨g1, g2 s e, g3⟩
  refine ⟨⟨hc, ?_, hfresh, ?_⟩, h1, heq, har⟩
  · intro p hpo hm k hk
    by_cases hp : OfRepo own w.next r p
    · rw [(hin p).mp hp]
      refine ⟨(hin k).mp (h2.subs p hp hm k hk), ?_⟩
      rw [← h2.heap p hp] at hm hk
      have := (hint.intact hr).kids p hm k hk
      rw [h2.next] at this
      exact this
    · rw [(h3 p hp).1] at hm hk
      have hp' : p < w.next := Nat.lt_of_not_le fun e => hp (Or.inr e)
      unfold grown at hpo
      rw [if_pos hp'] at hpo
      obtain ⟨g1, g2⟩ := h.subs p hpo hm k hk
      refine ⟨?_, Nat.lt_of_lt_of_le g2 hn⟩
      unfold grown
      rw [if_pos g2, if_pos hp', g1]
  · intro s hs
    by_cases e : s = r
    · subst e; rw [← heq]; exact hint
    · exact .around _ _ (h.history s hs) (har s hs e)

/-! ### What is said about an object is said about its share -/

section
variable {A : ObjId → Prop} {w v : World}

theorem Side.reach (hs : Side A w v) {i j : ObjId} (hi : A i) (h : Reach w.heap i j) : A j ∧ Reach v.heap i j := by
  induction h with
  | refl i => exact ⟨hi, Reach.refl i⟩
  | step i k j hm hk _ ih =>
    obtain ⟨h1, h2⟩ := ih (hs.subs i hi hm k hk)
    rw [← hs.heap i hi] at hm hk
    exact ⟨h1, Reach.step i k j hm hk h2⟩

theorem Side.reach' (hs : Side A w v) {i j : ObjId} (hi : A i) (h : Reach v.heap i j) : A j ∧ Reach w.heap i j := by
  induction h with
  | refl i => exact ⟨hi, Reach.refl i⟩
  | step i k j hm hk _ ih =>
    rw [hs.heap i hi] at hm hk
    obtain ⟨h1, h2⟩ := ih (hs.subs i hi hm k hk)
    exact ⟨h1, Reach.step i k j hm hk h2⟩

theorem Side.clean' (hs : Side A w v) {r : Realm} {i : ObjId} (h : Clean r v.heap i) (hi : A i) : Clean r w.heap i := by
  induction h with
  | mk i h1 _ ih =>
    rw [hs.heap i hi] at h1
    refine Clean.mk i h1 fun hm k hk => ?_
    have hm' := hm
    have hk' := hk
    rw [← hs.heap i hi] at hm' hk'
    exact ih hm' k hk' (hs.subs i hi hm k hk)

theorem Side.clean (hs : Side A w v) {r : Realm} {i : ObjId} (h : Clean r w.heap i) (hi : A i) : Clean r v.heap i := by
  induction h with
  | mk i h1 _ ih =>
    rw [← hs.heap i hi] at h1
    refine Clean.mk i h1 fun hm k hk => ?_
    rw [hs.heap i hi] at hm hk
    exact ih hm k hk (hs.subs i hi hm k hk)

theorem Side.content (hs : Side A w v) {i : ObjId} (hi : A i) :
    SameContent C w.repo.log w.heap (.mem i) v.repo.log v.heap (.mem i) := by
  rw [hs.repo]
  exact look_kept fun j hj => hs.heap j (hs.reach hi hj).1

theorem Side.storable (hs : Side A w v) {i : ObjId} (hi : A i) (h : Storable w.heap i) : Storable v.heap i := by
  intro j hj hm
  obtain ⟨hA, hj'⟩ := hs.reach' hi hj
  have e := hs.heap j hA
  rw [e] at hm ⊢
  obtain ⟨h1, h2, h3⟩ := h j hj' hm
  refine ⟨h1, h2, fun x hx => ?_⟩
  rw [hs.heap x.2.2 (hs.subs j hA hm _ (List.mem_map.mpr ⟨x, hx, rfl⟩))]
  exact h3 x hx

theorem Side.good (hs : Side A w v) {r : Realm} {i : ObjId} (hi : A i) {ref : Ref} (h : Good C r w.repo.log w.heap i ref) :
    Good C r v.repo.log v.heap i ref :=
  h.same_world (by rw [hs.repo]) (by rw [hs.heap i hi]) (hs.content hi)

theorem Side.good' (hs : Side A w v) {r : Realm} {i : ObjId} (hi : A i) {ref : Ref} (h : Good C r v.repo.log v.heap i ref) :
    Good C r w.repo.log w.heap i ref :=
  h.same_world (by rw [hs.repo]) (by rw [hs.heap i hi]) (hs.content hi).symm

theorem Side.truth (hs : Side A w v) {r : Realm} {i : ObjId} (hi : A i) (h : Truth C r w.repo.log w.heap i) :
    Truth C r v.repo.log v.heap i := by
  intro hc
  obtain ⟨ref, h1, h2⟩ := h (hs.clean' hc hi)
  exact ⟨ref, by rw [hs.heap i hi]; exact h1, hs.good hi h2⟩

theorem Side.truth' (hs : Side A w v) {r : Realm} {i : ObjId} (hi : A i) (h : Truth C r v.repo.log v.heap i) :
    Truth C r w.repo.log w.heap i := by
  intro hc
  obtain ⟨ref, h1, h2⟩ := h (hs.clean hc hi)
  exact ⟨ref, by rw [← hs.heap i hi]; exact h1, hs.good' hi h2⟩

theorem Side.trusted (hs : Side A w v) {r : Realm} {i : ObjId} (hi : A i) (h : Trusted C r w i) : Trusted C r v i := by
  intro j hj
  obtain ⟨h1, h2⟩ := hs.reach' hi hj
  exact hs.truth h1 (h j h2)

theorem Side.owned (hs : Side A w v) {r : Realm} {i : ObjId} (hi : A i) (h : Owned r w.heap i) : Owned r v.heap i := by
  intro p hp h1 h2 k hk hc q hq hmq hkq
  obtain ⟨g1, g2⟩ := hs.reach' hi hp
  obtain ⟨g3, g4⟩ := hs.reach' hi hq
  rw [hs.heap p g1] at h1 h2 hk
  rw [hs.heap q g3] at hmq hkq
  exact h p g2 h1 h2 k hk (fun hx => hc (hs.clean hx (hs.subs p g1 h2 k hk))) q g4 hmq hkq

theorem Side.purgeable (hs : Side A w v) {r : Realm} {i : ObjId} (hi : A i) (h : Purgeable C r w i) : Purgeable C r v i := by
  refine ⟨fun j hj => ?_, fun j hj => ?_, fun j hj => ?_⟩ <;> obtain ⟨h1, h2⟩ := hs.reach' hi hj
  · exact hs.truth h1 (h.truth j h2)
  · unfold OwnName; rw [hs.heap j h1]; exact h.named j h2
  · rw [hs.heap j h1]; exact h.saved j h2
end

/-- Objects of other repositories do not stand for a name of this one. -/
theorem share_alone {w : World} {i : ObjId} (ho : own i = r)
    (h : ∀ nm, pubName (w.heap i).kind = some nm → ∀ j, own j = r → j ≠ i → ∀ ref, (w.heap j).ref = some ref →
      ref.loc = some nm → r ∉ (w.heap j).savedOn ∧ ((w.heap j).mapped = true ∨ (w.heap j).realm ≠ some r)) :
    Alone r (w.share own r).heap i := by
  intro nm hnm j hj ref hf hl
  rw [share_own ho] at hnm
  by_cases e : own j = r
  · rw [share_own e] at hf ⊢
    exact h nm hnm j e hj ref hf hl
  · rw [share_other e] at hf; cases hf

theorem Alone.share {w : World} {i : ObjId} (ho : own i = r) (h : Alone r w.heap i) : Alone r (w.share own r).heap i :=
  share_alone ho fun nm hnm j _ hj ref hf hl => h nm hnm j hj ref hf hl

/-! ### Steps -/

theorem Owners.create {w : World} (h : Owners C own w) (hr : r ≠ []) {o : Obj}
    (hk : o.mapped = true → ∀ k ∈ o.body.subs, k < w.next ∧ own k = r)
    (hh : History C r (MM.create o (w.share own r))) :
    Owners C (grown own w.next r) (MM.create o w) ∧
      MM.create o (w.share own r) = (MM.create o w).share (grown own w.next r) r := by
  have ht : Twin (OfRepo own w.next r) (OfRepo own w.next r) (alloc o) :=
    Twin.alloc fun hm k hk' => Or.inl (hk hm k hk').2
  have := h.step hr ht (Nat.le_succ _) h.caches (Or.inl rfl) hh fun j hj => by
    have : (alloc o w).2.heap j = w.heap j := create_ne o w (Nat.ne_of_gt hj)
    rw [this]
    exact h.fresh j (Nat.le_of_succ_le hj)
  exact ⟨this.1, this.2.2.1⟩

theorem Owners.new {w : World} (h : Owners C own w) (hr : r ≠ []) {b : Body ObjId}
    (hk : ∀ k ∈ b.subs, k < w.next ∧ own k = r) : Owners C (grown own w.next r) (MM.create (Obj.new b) w) :=
  (h.create hr (fun _ => hk) (.new _ b (h.history r hr) fun k hk' => (hk k hk').1)).1

theorem Owners.load {w : World} (h : Owners C own w) (hr : r ≠ []) {l : Link} (hok : l.ref.isNone = false → RefOk l.kind l.ref)
    (hf : Full C w.repo.log w.heap (.sto r l)) : Owners C (grown own w.next r) (MM.create (l.obj r) w) :=
  (h.create hr (fun hm => by cases hm) (.load _ l (h.history r hr) hok (Full.of_same (look_sto_heap r l) hf))).1

/-- What a step for the repository of an object gives. -/
structure Stepped {α : Type} (C : Cfg) (own : ObjId → Realm) (r : Realm) (f : W α) (w : World) : Prop where
  owners : Owners C (grown own w.next r) (f w).2
  result : (f (w.share own r)).1 = (f w).1
  state : (f (w.share own r)).2 = (f w).2.share (grown own w.next r) r
  others : ∀ s, s ≠ [] → s ≠ r → Around C s (w.share own s) ((f w).2.share (grown own w.next r) s)

theorem Owners.read {w : World} (h : Owners C own w) {i : ObjId} (hr : r ≠ []) (ho : own i = r) (hi : i < w.next) :
    Stepped C own r (ensureMapped C i) w := by
  have ht : Twin (OfRepo own w.next r) (fun _ => True) (ensureMapped C i) := twin_ensureMapped (Or.inl ho)
  have hm : (ensureMapped C i w).2.repo.log = w.repo.log ∧ (ensureMapped C i w).2.caches = w.caches ∧
      w.next ≤ (ensureMapped C i w).2.next ∧ ∀ j, (ensureMapped C i w).2.next ≤ j →
        (ensureMapped C i w).2.heap j = w.heap j := by
    by_cases hm : (w.heap i).mapped = true
    · rw [ensureMapped_mapped hm]; exact ⟨rfl, rfl, Nat.le_refl _, fun _ _ => rfl⟩
    · have hc := ensureMapped_cases C i w (by simpa using hm)
      generalize (ensureMapped C i w).1 = res at hc
      cases hc with
      | failed e h1 h2 h3 h4 => exact ⟨h3, h4, by rw [h2]; exact Nat.le_refl _, fun j _ => by rw [h1]⟩
      | none r' ref _ _ _ _ h1 h2 h3 h4 =>
        refine ⟨h1, h2, by rw [h3]; exact Nat.le_refl _, fun j hj => ?_⟩
        rw [h3] at hj
        rw [h4, Heap.set_ne (Nat.ne_of_gt (Nat.lt_of_lt_of_le hi hj))]
      | read r' ref loc b is so _ _ _ _ _ _ _ h1 h2 h3 _ h4 =>
        exact ⟨h1, h2, h3, fun j hj => h4 j (Nat.ne_of_gt (Nat.lt_of_lt_of_le hi (Nat.le_trans h3 hj))) hj⟩
  obtain ⟨h1, h2, h3, h4⟩ := hm
  obtain ⟨g1, g2, g3, g4⟩ := h.step hr ht h3 (h2.trans h.caches) (Or.inl h1) (.read _ i (h.history r hr) hi)
    fun j hj => (h4 j hj).trans (h.fresh j (Nat.le_trans h3 hj))
  exact ⟨g1, g2, g3, g4⟩

theorem Owners.purge {w : World} (h : Owners C own w) {i : ObjId} (n : Nat) (hr : r ≠ []) (ho : own i = r)
    (hp : Purgeable C r w i) : Stepped C own r (MM.purge n i) w := by
  have ht : Twin (OfRepo own w.next r) (fun _ => True) (MM.purge n i) := twin_purge n (Or.inl ho)
  have hside := h.side hr
  have hp' : Purgeable C r (w.share own r) i := hside.purgeable (Or.inl ho) hp
  obtain ⟨e, _⟩ := ((h.history r hr).intact hr).purge n i _ hp'
  obtain ⟨_, t2, _, _⟩ := ht _ _ hside
  have hn : (MM.purge n i w).2.next = w.next := by rw [← t2.next, e.unloads.next]; rfl
  have hrep : (MM.purge n i w).2.repo = w.repo := by rw [← t2.repo, e.unloads.repo]; rfl
  have hca : (MM.purge n i w).2.caches = [] := by rw [← t2.caches]; exact e.intact.caches
  obtain ⟨g1, g2, g3, g4⟩ := h.step hr ht (by rw [hn]; exact Nat.le_refl _) hca (Or.inl (by rw [hrep]))
    (.purge _ n i (h.history r hr) hp') fun j hj => by
      rw [hn] at hj
      rw [← t2.heap j (Or.inr hj)]
      have hd : (w.share own r).heap j = Obj.new (Body.empty .text) := by
        rw [hside.heap j (Or.inr hj), h.fresh j hj]
      have hm : ((MM.purge n i (w.share own r)).2.heap j).mapped = true := by
        cases hx : ((MM.purge n i (w.share own r)).2.heap j).mapped with
        | true => rfl
        | false => rcases e.away j hx with g | g <;> rw [hd] at g <;> cases g
      have k1 := e.unloads.realm j
      have k2 := e.unloads.ref j
      have k3 := e.unloads.saved j
      have k4 := (e.unloads.mapped j hm).2
      rw [hd] at k1 k2 k3 k4
      cases hx : (MM.purge n i (w.share own r)).2.heap j with
      | mk b1 b2 b3 b4 b5 =>
        rw [hx] at hm k1 k2 k3 k4
        simp only at hm k1 k2 k3 k4
        subst hm k1 k2 k3 k4
        rfl
  exact ⟨g1, g2, g3, g4⟩

theorem Owners.edit {w : World} (h : Owners C own w) {i : ObjId} {b : Body ObjId} (hr : r ≠ []) (ho : own i = r)
    (hi : i < w.next) (hm : (w.heap i).mapped = true) (hk : ∀ k ∈ b.subs, k < w.next ∧ own k = r)
    (hac : ∀ k ∈ b.subs, ¬ Reach (MM.edit i b w).heap k i) :
    Owners C (grown own w.next r) (MM.edit i b w) ∧
      MM.edit i b (w.share own r) = (MM.edit i b w).share (grown own w.next r) r := by
  have ht : Twin (OfRepo own w.next r) (fun _ => True) (updObj i fun o => { o with body := b, savedOn := [] }) :=
    Twin.updObj (Or.inl ho) fun _ _ _ k hk' => Or.inl (hk k hk').2
  obtain ⟨_, t2, _, _⟩ := ht _ _ (h.side hr)
  have hh : History C r (MM.edit i b (w.share own r)) := by
    refine .edit _ i b (h.history r hr) (by rw [share_own ho]; exact hm) (fun k hk' => (hk k hk').1) ?_
    intro k hk' hre
    exact hac k hk' (t2.reach' (Or.inl (hk k hk').2) hre).2
  have := h.step hr ht (Nat.le_refl _) h.caches (Or.inl rfl) hh fun j hj => by
    have e : (updObj i (fun o => { o with body := b, savedOn := [] }) w).2.heap j = w.heap j :=
      edit_ne b w (Nat.ne_of_gt (Nat.lt_of_lt_of_le hi hj))
    rw [e]
    exact h.fresh j hj
  exact ⟨this.1, this.2.2.1⟩

theorem Owners.write {w : World} (h : Owners C own w) {via : Via} {n : Nat} {force : Bool} {i : ObjId} (hr : r ≠ [])
    (ho : own i = r) (hi : i < w.next) (hca : (writeAs C via n (some r) force i w).2.caches = [])
    (hc : CollisionFree C (writeAs C via n (some r) force i w).2.repo.log) (hsto : Storable w.heap i)
    (hal : Alone r w.heap i) : Stepped C own r (writeAs C via n (some r) force i) w := by
  have ht : Twin (OfRepo own w.next r) (fun _ => True) (writeAs C via n (some r) force i) := twin_writeAs (Or.inl ho)
  have hside := h.side hr
  obtain ⟨t1, t2, _, _⟩ := ht _ _ hside
  have t := writeAs_tried (C := C) hr via n force i w hsto
  have hgr : Grows w.repo.log (writeAs C via n (some r) force i w).2.repo.log := by
    have := t.any.grows (by rw [h.caches]; exact List.nodup_nil)
    unfold World.eff at this
    rw [hca, h.caches] at this
    exact this
  have hh : History C r (writeAs C via n (some r) force i (w.share own r)).2 :=
    .write _ via n force i _ _ (h.history r hr) rfl (by rw [t2.caches]; exact hca) (by rw [t2.repo]; exact hc)
      (hside.storable (Or.inl ho) hsto) (hal.share ho)
  have hnames : ∀ s, s ≠ r → ∀ n', refOf (writeAs C via n (some r) force i w).2.repo.log s n' = refOf w.repo.log s n' := by
    intro s hs n'
    rcases t.limits.refs s n' with g | g
    · exact absurd g.1 hs
    · exact g
  have hfresh : ∀ j, (writeAs C via n (some r) force i w).2.next ≤ j →
      (writeAs C via n (some r) force i w).2.heap j = Obj.new (Body.empty .text) := by
    intro j hj
    rw [t.any.next] at hj
    rw [t.limits.out j (Or.inl fun hre => ?_)]
    · exact h.fresh j hj
    · exact Nat.not_lt.mpr hj (Reach.lt (w := w.share own r) ((h.history r hr).intact hr).kids hi (hside.reach (Or.inl ho) hre).2)
  obtain ⟨g1, g2, g3, g4⟩ := h.step hr ht (by rw [t.any.next]; exact Nat.le_refl _) hca (Or.inr ⟨hgr, hnames, hc⟩) hh hfresh
  exact ⟨g1, g2, g3, g4⟩

theorem Owners.outside {w : World} (h : Owners C own w) {L : Log} {fs : List Fault} (hg : Grows w.repo.log L)
    (hn : ∀ x n, refOf L x n = refOf w.repo.log x n) (hc : CollisionFree C L) : Owners C own (MM.outside L fs w) :=
  ⟨h.caches, h.subs, h.fresh, fun s hs => .outside (w.share own s) L fs (h.history s hs) hg (hn s) hc⟩

/-- After a copy, the new object belongs to the repository of the copy. -/
def copiedTo (own : ObjId → Realm) (n c : ObjId) (r : Realm) : ObjId → Realm :=
  fun j => if j < n then own j else if j = c then r else []

/-- Objects of this repository as they are after a copy, without the new object -/
theorem Owners.around {w w' : World} {s : Realm} {nm : Option Str} (h : Owners C own w)
    (hp : Pass C r nm w.next w w') (hc : CollisionFree C w'.repo.log) (hnm : ∀ x, nm = some x → NoReader r w.heap x)
    {v : World} (hv : v.repo.log = w'.repo.log) (hvc : v.caches = []) (hvn : w.next ≤ v.next)
    (hvh : ∀ j, v.heap j = if j < w.next ∧ own j = s then w'.heap j else Obj.new (Body.empty .text)) :
    Around C s (w.share own s) v := by
  have hold : ∀ j, ¬ (j < w.next ∧ own j = s) → (w.share own s).heap j = Obj.new (Body.empty .text) := by
    intro j hj
    by_cases e : own j = s
    · rw [share_own e]
      exact h.fresh j (Nat.le_of_not_lt fun g => hj ⟨g, e⟩)
    · exact share_other e
  refine ⟨hvn, hvc, by rw [hv]; exact hp.grows, ?_, Or.inr (by rw [hv]; exact hc), ?_, ?_⟩
  · intro n
    rw [hv]
    rcases hp.refs s n with ⟨e1, e2⟩ | e
    · right
      subst e1
      intro x ref hx hl
      by_cases e : own x = s
      · rw [share_own e] at hx ⊢; exact hnm n e2 x ref hx hl
      · rw [share_other e] at hx; cases hx
    · exact Or.inl e
  · intro j hm
    rw [hvh]
    by_cases e : j < w.next ∧ own j = s
    · rw [if_pos e]
      rw [share_own e.2] at hm ⊢
      exact hp.loaded j e.1 hm
    · rw [if_neg e, hold j e]
  · intro j hm
    rw [hvh]
    by_cases e : j < w.next ∧ own j = s
    · rw [if_pos e]
      rw [share_own e.2] at hm ⊢
      exact hp.away j e.1 hm
    · rw [hold j e] at hm; cases hm

/-- Copying an object to a repository -/
theorem Owners.copy {w w' : World} {pre : PPath} {i c : ObjId} (h : Owners C own w) (hr : r ≠ [])
    (hc : Copyable C r w i) (hm : CopyMade C r pre w i w' c) (hcf : CollisionFree C w'.repo.log) :
    Owners C (copiedTo own w.next c r) w' := by
  have hp := hm.pass
  have hca := hp.caches hc.caches
  have hwas : ∀ j, j < w.next → (w'.heap j).mapped = true → (w.heap j).mapped = true ∧ w'.heap j = w.heap j :=
    fun j hj hmj => ⟨hp.mapped hj hmj, hp.loaded j hj (hp.mapped hj hmj)⟩
  have hold : ∀ j, j < w.next → copiedTo own w.next c r j = own j := fun j hj => if_pos hj
  have hcn : ¬ c < w.next := Nat.not_lt.mpr hm.new
  have hnew : copiedTo own w.next c r c = r := by unfold copiedTo; rw [if_neg hcn, if_pos rfl]
  refine ⟨hca, ?_, ?_, ?_⟩
  · intro p hpo hmp k hk
    by_cases hpn : p < w.next
    · rw [hold p hpn] at hpo ⊢
      obtain ⟨e1, e2⟩ := hwas p hpn hmp
      rw [e2] at hk
      obtain ⟨g1, g2⟩ := h.subs p hpo e1 k hk
      exact ⟨by rw [hold k g2]; exact g1, Nat.lt_of_lt_of_le g2 hp.next⟩
    · unfold copiedTo at hpo
      rw [if_neg hpn] at hpo
      by_cases hpc : p = c
      · subst hpc; rw [hm.stub.away] at hmp; cases hmp
      · rw [if_neg hpc] at hpo; exact absurd rfl hpo
  · intro j hj
    rw [hp.beyond j hj]
    exact h.fresh j (Nat.le_trans hp.next hj)
  · intro s hs
    by_cases hsr : s = r
    · subst hsr
      -- the objects before, the new object, unused objects
      let hv : Heap := fun j => if j < w.next ∧ own j = s then w'.heap j else Obj.new (Body.empty .text)
      let v : World := ⟨hv, c, w'.repo, [], w'.refs⟩
      have h1 : History C s v := .around _ _ (h.history s hs)
        (h.around hp hcf hc.unread (v := v) rfl rfl hm.new fun _ => rfl)
      obtain ⟨ref, g1, g2⟩ := hm.stub.ref
      have hfull : Full C v.repo.log v.heap (.sto s ⟨(w'.heap c).kind, ref⟩) := by
        refine Full.of_same ?_ (hp.fine.full c hm.stub.away)
        exact look_unloaded hm.stub.away hm.stub.realm g1
      have h2 : History C s (MM.create (w'.heap c) v) :=
        .copied v _ ref h1 hm.stub.away hm.stub.realm g1 g2 hm.stub.plain hm.stub.saved hm.stub.only hfull
      refine .around _ _ h2 (Around.elsewhere (r := s) hm.lt hca ?_ (fun j hj => (h2.intact hs).refs hj) (Or.inl rfl))
      funext j
      by_cases hjc : j = c
      · subst hjc
        rw [share_own hnew]
        exact (create_self (w'.heap j) v).symm
      · rw [create_ne (w'.heap c) v hjc]
        show _ = hv j
        by_cases e : j < w.next ∧ own j = s
        · rw [share_own (by rw [hold j e.1]; exact e.2)]
          exact (if_pos e).symm
        · have hne : copiedTo own w.next c s j ≠ s := by
            unfold copiedTo
            by_cases hj : j < w.next
            · rw [if_pos hj]; exact fun g => e ⟨hj, g⟩
            · rw [if_neg hj, if_neg hjc]; exact fun g => hs g.symm
          rw [share_other hne]
          exact (if_neg e).symm
    · refine .around _ _ (h.history s hs)
        (h.around hp hcf hc.unread (v := w'.share (copiedTo own w.next c r) s) rfl hca hp.next ?_)
      intro j
      by_cases e : j < w.next ∧ own j = s
      · rw [if_pos e, share_own (by rw [hold j e.1]; exact e.2)]
      · rw [if_neg e, share_other]
        unfold copiedTo
        by_cases hj : j < w.next
        · rw [if_pos hj]; exact fun g => e ⟨hj, g⟩
        · rw [if_neg hj]
          by_cases hjc : j = c
          · rw [if_pos hjc]; exact fun g => hsr g.symm
          · rw [if_neg hjc]; exact fun g => hs g.symm

/-! ### Processes -/

/-- The states that a process working with several repositories can be in, and the repository that
each object belongs to.

* `start`: a process begins with no objects, at any state of the repositories.
* `new`: an object is created from any parts that belong to one repository.
* `load`: an object is created for a reference to something complete in a repository.
* `read`: an object is loaded, or this fails.
* `purge`: an object is purged, or this fails (`Purgeable`, as in `History`).
* `edit`: a loaded object is changed in any way; it gets only parts of its repository, and becomes
  no part of itself.
* `write`: an object is written to its repository in any way, and with any outcome, as in `History`.
* `outside`: other processes store objects, as in `History`.
* `copy`: an object is copied to a repository, which may be its own; the copy is an object of the
  other repository.  The objects that the copying needs in between are not used again. -/
inductive Repos (C : Cfg) : (ObjId → Realm) → World → Prop
  | start (w : World) : w.caches = [] → w.next = 0 → (∀ j, w.heap j = Obj.new (Body.empty .text)) →
      Repos C (fun _ => []) w
  | new (own : ObjId → Realm) (w : World) (r : Realm) (b : Body ObjId) : Repos C own w → r ≠ [] →
      (∀ k ∈ b.subs, k < w.next ∧ own k = r) → Repos C (grown own w.next r) (create (Obj.new b) w)
  | load (own : ObjId → Realm) (w : World) (r : Realm) (l : Link) : Repos C own w → r ≠ [] →
      (l.ref.isNone = false → RefOk l.kind l.ref) → Full C w.repo.log w.heap (.sto r l) →
      Repos C (grown own w.next r) (create (l.obj r) w)
  | read (own : ObjId → Realm) (w : World) (i : ObjId) : Repos C own w → own i ≠ [] → i < w.next →
      Repos C (grown own w.next (own i)) (ensureMapped C i w).2
  | purge (own : ObjId → Realm) (w : World) (n : Nat) (i : ObjId) : Repos C own w → own i ≠ [] →
      Purgeable C (own i) w i → Repos C (grown own w.next (own i)) (purge n i w).2
  | edit (own : ObjId → Realm) (w : World) (i : ObjId) (b : Body ObjId) : Repos C own w → own i ≠ [] → i < w.next →
      (w.heap i).mapped = true → (∀ k ∈ b.subs, k < w.next ∧ own k = own i) →
      (∀ k ∈ b.subs, ¬ Reach (edit i b w).heap k i) → Repos C (grown own w.next (own i)) (edit i b w)
  | write (own : ObjId → Realm) (w : World) (via : Via) (n : Nat) (force : Bool) (i : ObjId) (res : Except PyErr Ref)
      (w' : World) : Repos C own w → own i ≠ [] → i < w.next →
      writeAs C via n (some (own i)) force i w = (res, w') → w'.caches = [] →
      CollisionFree C w'.repo.log → Storable w.heap i → Alone (own i) w.heap i →
      Repos C (grown own w.next (own i)) w'
  | outside (own : ObjId → Realm) (w : World) (L : Log) (fs : List Fault) : Repos C own w → Grows w.repo.log L →
      (∀ x n, refOf L x n = refOf w.repo.log x n) → CollisionFree C L → Repos C own (outside L fs w)
  | copy (own : ObjId → Realm) (w : World) (r : Realm) (n : Nat) (i c : ObjId) (w' : World) : Repos C own w → r ≠ [] →
      Copyable C r w i → (w.heap i).kind ≠ .tvl → deepcopy C n (some r) (metadataPath [[]]) i w = (.ok c, w') →
      CollisionFree C w'.repo.log → Repos C (copiedTo own w.next c r) w'

theorem Repos.owners {w : World} (h : Repos C own w) : Owners C own w := by
  induction h with
  | start w h1 h2 h3 =>
    refine ⟨h1, ?_, fun j _ => h3 j, fun r hr => .start _ h1 h2 fun j => ?_⟩
    · intro p _ _ k hk; rw [h3] at hk; cases hk
    · by_cases e : (fun _ : ObjId => ([] : Realm)) j = r
      · rw [share_own e]; exact h3 j
      · exact share_other e
  | new own w r b _ hr hk ih => exact ih.new hr hk
  | load own w r l _ hr h1 h2 ih => exact ih.load hr h1 h2
  | read own w i _ hr hi ih => exact (ih.read hr rfl hi).owners
  | purge own w n i _ hr hp ih => exact (ih.purge n hr rfl hp).owners
  | edit own w i b _ hr hi hm hk hac ih => exact (ih.edit hr rfl hi hm hk hac).1
  | write own w via n force i res w' _ hr hi h hca hc hsto hal ih =>
    have := (ih.write (via := via) (n := n) (force := force) hr rfl hi (by rw [h]; exact hca) (by rw [h]; exact hc)
      hsto hal).owners
    rw [h] at this
    exact this
  | outside own w L fs _ hg hn hc ih => exact ih.outside hg hn hc
  | copy own w r n i c w' _ hr hc hk h hcf ih =>
    exact ih.copy hr hc (deepcopy_ok hr n (C01_canonical [[]]) hc hk h hcf) hcf

end MM
