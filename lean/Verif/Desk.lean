/-
A process that adds metadata to the two top-level objects of a repository, before it saves them.
-/
import Verif.CommonWhole
import Verif.History

namespace MM

variable {C : Cfg} {r : Realm}

/-! ### Who contains what -/

/-- The loaded object `q` has the part `k`. -/
def Has (h : Heap) (q k : ObjId) : Prop := (h q).mapped = true ∧ k ∈ (h q).body.subs

/-- A version list that was changed since it was read. -/
def Shadow (r : Realm) (h : Heap) (q : ObjId) : Prop := (h q).kind = .vlist ∧ r ∉ (h q).savedOn

/-- The objects form trees, with one exception: root records below the tree version list `t` may
also be elements of changed version lists. -/
structure Rooted (r : Realm) (t : ObjId) (w : World) : Prop where
  bare : ∀ q k, Has w.heap q k → q < w.next
  own : ∀ k p q, ¬ Reach w.heap t k → Has w.heap p k → Has w.heap q k → p = q
  door : ∀ k q, Reach w.heap t k → Has w.heap q k → Reach w.heap t q ∨ (Shadow r w.heap q ∧ (w.heap k).kind = .mrr)
  tree : ∀ k p q, Reach w.heap t k → Reach w.heap t p → Reach w.heap t q → Has w.heap p k → Has w.heap q k → p = q

theorem Reach.last {h : Heap} {a b : ObjId} (hr : Reach h a b) : a = b ∨ ∃ p, Reach h a p ∧ Has h p b := by
  induction hr with
  | refl => exact Or.inl rfl
  | step a k c hm hk _ ih =>
    rcases ih with rfl | ⟨p, h1, h2⟩
    · exact Or.inr ⟨a, Reach.refl a, hm, hk⟩
    · exact Or.inr ⟨p, Reach.step a k p hm hk h1, h2⟩

theorem Reach.snoc {h : Heap} {a p b : ObjId} (hr : Reach h a p) (hp : Has h p b) : Reach h a b :=
  hr.trans (Reach.step p b b hp.1 hp.2 (Reach.refl b))

/-- Objects got further parts: such that were part of nothing, or root records below `t` in the case of
version lists. -/
theorem Rooted.step {t : ObjId} {w w' : World} (h : Rooted r t w)
    (hkids : ∀ p, (w.heap p).mapped = true → ∀ k ∈ (w.heap p).body.subs, k < w.next) (ht : t < w.next)
    (hty : Typed w'.heap) (hn : w.next ≤ w'.next) (hk : ∀ j, j < w.next → (w'.heap j).kind = (w.heap j).kind)
    (htk : (w.heap t).kind = .tvl)
    (hflag : ∀ j, j < w.next → r ∈ (w'.heap j).savedOn → r ∈ (w.heap j).savedOn)
    (hkeep : ∀ q k, q < w.next → Has w.heap q k → Has w'.heap q k)
    (hnew : ∀ q k, Has w'.heap q k → Has w.heap q k ∨
      (q < w'.next ∧ k ≠ t ∧ (∀ p, ¬ Has w.heap p k) ∧ ∀ p, Has w'.heap p k → p = q) ∨
      (q < w'.next ∧ Reach w.heap t k ∧ (w.heap k).kind = .mrr ∧ Shadow r w'.heap q)) : Rooted r t w' := by
  have htk' : (w'.heap t).kind = .tvl := (hk t ht).trans htk
  have hlt : ∀ k, Reach w.heap t k → k < w.next := fun k hr => hr.lt hkids ht
  have mono : ∀ {a b}, Reach w.heap a b → a < w.next → Reach w'.heap a b := by
    intro a b hr
    induction hr with
    | refl => intro _; exact Reach.refl _
    | step a k c hm hka _ ih =>
      intro ha
      obtain ⟨h1, h2⟩ := hkeep a k ha ⟨hm, hka⟩
      exact Reach.step a k c h1 h2 (ih (hkids a hm k hka))
  have list : ∀ q, Reach w'.heap t q → (w'.heap q).kind ≠ .vlist := by
    intro q hq hv
    rcases hty.below (Or.inr htk') hq with e | e
    · rw [e, htk'] at hv; cases hv
    · rw [hv] at e; exact absurd e (by decide)
  have gone : ∀ k, Reach w.heap t k → k ≠ t → ∃ p, Has w.heap p k := by
    intro k hr hkt
    rcases hr.last with e | ⟨p, _, hp⟩
    · exact absurd e.symm hkt
    · exact ⟨p, hp⟩
  have shadow : ∀ q k, Has w.heap q k → Shadow r w.heap q → Shadow r w'.heap q := by
    intro q k hq hs
    have hq' := h.bare q k hq
    exact ⟨(hk q hq').trans hs.1, fun e => hs.2 (hflag q hq' e)⟩
  -- a part of something in `w'` that is new has only one container there
  have sole : ∀ k p q, Has w'.heap p k → Has w'.heap q k → ¬ Reach w.heap t k → p = q := by
    intro k p q hp hq hnt
    rcases hnew p k hp with e1 | ⟨_, _, _, e1⟩ | ⟨_, e1, _⟩
    · rcases hnew q k hq with e2 | ⟨_, _, e2, _⟩ | ⟨_, e2, _⟩
      · exact h.own k p q hnt e1 e2
      · exact absurd e1 (e2 p)
      · exact absurd e2 hnt
    · exact (e1 q hq).symm
    · exact absurd e1 hnt
  refine ⟨?_, ?_, ?_, ?_⟩
  · intro q k hq
    rcases hnew q k hq with e | ⟨e, _⟩ | ⟨e, _⟩
    · exact Nat.lt_of_lt_of_le (h.bare q k e) hn
    · exact e
    · exact e
  · intro k p q hnt hp hq
    exact sole k p q hp hq fun hr => hnt (mono hr ht)
  · intro k q hr hq
    by_cases hro : Reach w.heap t k
    · rcases hnew q k hq with e | ⟨_, e1, e2, _⟩ | ⟨_, _, e1, e2⟩
      · rcases h.door k q hro e with e1 | ⟨e1, e2⟩
        · exact Or.inl (mono e1 ht)
        · exact Or.inr ⟨shadow q k e e1, (hk k (hlt k hro)).trans e2⟩
      · obtain ⟨p, hp⟩ := gone k hro e1
        exact absurd hp (e2 p)
      · exact Or.inr ⟨e2, (hk k (hlt k hro)).trans e1⟩
    · rcases hr.last with e | ⟨p, h1, h2⟩
      · subst e; exact absurd (Reach.refl _) hro
      · left
        rw [← sole k p q h2 hq hro]
        exact h1
  · intro k p q hr hp hq hhp hhq
    by_cases hro : Reach w.heap t k
    · have key : ∀ x, Reach w'.heap t x → Has w'.heap x k → Has w.heap x k ∧ Reach w.heap t x := by
        intro x hx hhx
        rcases hnew x k hhx with e | ⟨_, e1, e2, _⟩ | ⟨_, _, _, e2⟩
        · refine ⟨e, ?_⟩
          rcases h.door k x hro e with e1 | ⟨e1, _⟩
          · exact e1
          · exact absurd ((hk x (h.bare x k e)).trans e1.1) (list x hx)
        · obtain ⟨y, hy⟩ := gone k hro e1
          exact absurd hy (e2 y)
        · exact absurd e2.1 (list x hx)
      obtain ⟨a1, a2⟩ := key p hp hhp
      obtain ⟨b1, b2⟩ := key q hq hhq
      exact h.tree k p q hro a2 b2 a1 b1
    · exact sole k p q hhp hhq hro

/-- Below the tree version list nothing has two containers. -/
theorem Rooted.tree_owned {t : ObjId} {w : World} (h : Rooted r t w) : Owned r w.heap t := by
  intro p hp _ hm k hk _ q hq hmq hkq
  exact h.tree k q p (hp.snoc ⟨hm, hk⟩) hq hp ⟨hmq, hkq⟩ ⟨hm, hk⟩

/-- What the UUID set shares with the tree version list are root records and their parts. -/
theorem Rooted.shared {t u : ObjId} {w : World} (h : Rooted r t w) (hty : Typed w.heap) (htk : (w.heap t).kind = .tvl)
    (huk : (w.heap u).kind = .uuidset) {k : ObjId} (h1 : Reach w.heap t k) (h2 : Reach w.heap u k) :
    (w.heap k).kind.level ≤ 2 := by
  have key : ∀ {a b}, Reach w.heap a b → ¬ Reach w.heap t a → Reach w.heap t b → (w.heap b).kind.level ≤ 2 := by
    intro a b hr
    induction hr with
    | refl => intro h1 h2; exact absurd h2 h1
    | step a c b hm hc hr ih =>
      intro hna hb
      by_cases hct : Reach w.heap t c
      · rcases h.door c a hct ⟨hm, hc⟩ with e | ⟨_, e⟩
        · exact absurd e hna
        · have := hty.level hr
          rw [e] at this
          exact this
      · exact ih hct hb
  refine key h2 (fun hr => ?_) h1
  have := hty.level hr
  rw [htk, huk] at this
  exact absurd this (by decide)

/-- Parts of two objects below the UUID set are elements of changed version lists. -/
theorem Rooted.set_shared {t u : ObjId} {w : World} (h : Rooted r t w) (hty : Typed w.heap)
    (htk : (w.heap t).kind = .tvl) (huk : (w.heap u).kind = .uuidset) {k p q : ObjId} (hp : Reach w.heap u p)
    (hq : Reach w.heap u q) (hhp : Has w.heap p k) (hhq : Has w.heap q k) :
    p = q ∨ (r ∉ (w.heap p).savedOn ∧ r ∉ (w.heap q).savedOn) := by
  by_cases hro : Reach w.heap t k
  · have low : ∀ x, Reach w.heap u x → Reach w.heap t x → Has w.heap x k → (w.heap k).kind ≠ .mrr := by
      intro x h1 h2 hx hkm
      have h3 := h.shared hty htk huk h2 h1
      obtain ⟨e, he⟩ := hty.sub hx.1 hx.2
      rw [hkm] at he
      cases hkx : (w.heap x).kind with
      | mtree l =>
        rw [hkx] at he h3
        cases e <;> try exact absurd he id
        rcases he with he | he
        · cases he
        · cases l <;> first | cases he; done | exact absurd h3 (by decide)
      | mrr => rw [hkx] at he; cases e <;> first | exact absurd he id | cases he
      | vlist => rw [hkx] at h3; exact absurd h3 (by decide)
      | tvl => rw [hkx] at h3; exact absurd h3 (by decide)
      | uuidset => rw [hkx] at h3; exact absurd h3 (by decide)
      | text => rw [hkx] at he; cases e <;> exact absurd he id
      | metadata => rw [hkx] at he; cases e <;> exact absurd he id
    rcases h.door k p hro hhp with e1 | ⟨e1, k1⟩
    · rcases h.door k q hro hhq with e2 | ⟨e2, k2⟩
      · exact Or.inl (h.tree k p q hro e1 e2 hhp hhq)
      · exact absurd k2 (low p hp e1 hhp)
    · rcases h.door k q hro hhq with e2 | ⟨e2, _⟩
      · exact absurd k1 (low q hq e2 hhq)
      · exact Or.inr ⟨e1.2, e2.2⟩
  · exact Or.inl (h.own k p q hro hhp hhq)

theorem Rooted.set_owned {t u : ObjId} {w : World} (h : Rooted r t w) (hty : Typed w.heap)
    (htk : (w.heap t).kind = .tvl) (huk : (w.heap u).kind = .uuidset) : Owned r w.heap u := by
  intro p hp hf hm k hk _ q hq hmq hkq
  rcases h.set_shared hty htk huk hp hq ⟨hm, hk⟩ ⟨hmq, hkq⟩ with e | ⟨e, _⟩
  · exact e.symm
  · exact absurd hf e

/-! ### Changes in memory -/

/-- Loaded objects were changed or created, and are not marked as saved. -/
theorem Intact.changed {w w' : World} (hs : Intact C r w) (hlog : w'.repo.log = w.repo.log)
    (hca : w'.caches = w.caches) (hf : Fine C w')
    (hch : ∀ j, w'.heap j = w.heap j ∨ ((w'.heap j).mapped = true ∧ (w'.heap j).savedOn = [])) :
    Intact C r w' ∧ ∀ j, Truth C r w.repo.log w.heap j → Truth C r w'.repo.log w'.heap j := by
  have away : ∀ j, (w'.heap j).mapped = false → w'.heap j = w.heap j := by
    intro j hj
    rcases hch j with e | ⟨e, _⟩
    · exact e
    · rw [e] at hj; cases hj
  have flag : ∀ j x, x ∈ (w'.heap j).savedOn → w'.heap j = w.heap j := by
    intro j x hx
    rcases hch j with e | ⟨_, e⟩
    · exact e
    · rw [e] at hx; cases hx
  have clean : ∀ p, Clean r w'.heap p → Clean r w.heap p := by
    intro p hc
    induction hc with
    | mk i hfl _ ih =>
      have e := flag i r hfl
      rw [e] at hfl ih
      exact Clean.mk i hfl ih
  have kept : ∀ {p k}, Reach w.heap p k → Clean r w'.heap p → w'.heap k = w.heap k := by
    intro p k hr
    induction hr with
    | refl => intro hc; exact flag _ r hc.flag
    | step p c k hm hc _ ih =>
      intro hcl
      have e := flag p r hcl.flag
      cases hcl with
      | mk _ _ hall => exact ih (hall (by rw [e]; exact hm) c (by rw [e]; exact hc))
  have htr : ∀ j, Truth C r w.repo.log w.heap j → Truth C r w'.repo.log w'.heap j := by
    intro j ht hc
    obtain ⟨ref, h1, h2⟩ := ht (clean j hc)
    have e := flag j r hc.flag
    have hsame : SameContent C w.repo.log w.heap (.mem j) w'.repo.log w'.heap (.mem j) := by
      rw [hlog]; exact look_kept fun k hk => kept hk hc
    exact ⟨ref, by rw [e]; exact h1, h2.same_world hlog (by rw [e]) (by rw [← hlog]; rw [hlog] at hsame ⊢; exact hsame)⟩
  refine ⟨⟨hca.trans hs.caches, fun p hp => hf.full p hp, ?_, hf.ranked, ?_, ?_, hf.kids, ?_⟩, htr⟩
  · intro p hp
    exact htr p (hs.truth p (by rw [← away p hp]; exact hp))
  · intro j x hx
    have e := flag j x hx
    rw [e] at hx ⊢
    exact hs.home j x hx
  · intro j hj
    have e := away j hj
    rw [e] at hj ⊢
    exact hs.away j hj
  · intro j hj
    have e := away j hj
    rw [e] at hj ⊢
    exact hs.marked j hj

/-! ### Content that can be stored -/

/-- The key can be stored: a name of a file, a canonical path. -/
def KeyFit : Key → Prop
  | .name n => NameOk n
  | .ver _ p => Canonical p
  | _ => True

/-- All that is found at a place can be stored. -/
def Proper (C : Cfg) (L : Log) (h : Heap) (n : Node) : Prop :=
  ∀ ks t s d b, look C L h ks t n = .found s d b → DataOk d ∧ ∀ k ∈ ks, KeyFit k

theorem Proper.of_same {L L' : Log} {h h' : Heap} {n m : Node} (hs : SameContent C L h n L' h' m) (hp : Proper C L h n) :
    Proper C L' h' m := fun ks t s d b hl => hp ks t s d b (by rw [hs ks t]; exact hl)

theorem proper_blank {L : Log} {h : Heap} {n : Node} {b : Body Node} (hv : view C L h n = .ok b) (hb : b.blank = true) :
    Proper C L h n := by
  unfold Body.blank at hb
  simp only [Bool.and_eq_true, List.isEmpty_iff] at hb
  intro ks t s d b' hl
  cases ks with
  | nil =>
    rw [look_nil _ hv] at hl
    cases hl
    refine ⟨?_, fun k hk => by cases hk⟩
    cases hd : b.data <;> rw [hd] at hb <;> first | exact trivial | cases hb.1
  | cons k ks =>
    rw [look_cons_none hv (by rw [hb.2]; rfl)] at hl
    cases hl

/-- Parts of a place that can be stored can be stored. -/
theorem Proper.kid {L : Log} {h : Heap} {n : Node} {b : Body Node} {k : Key} {t : Str} {c : Node} (hp : Proper C L h n)
    (hf : Full C L h n) (hv : view C L h n = .ok b) (hk : dget b.kids k = some (t, c)) :
    Proper C L h c ∧ KeyFit k := by
  rcases hf.kid hv hk with ⟨b', h1, h2, h3⟩ | ⟨h1, h2⟩
  · rw [h2]; exact ⟨proper_blank h1 h3, trivial⟩
  · refine ⟨fun ks s0 s d b0 hl => ?_, ?_⟩
    · cases ks with
      | nil =>
        obtain ⟨bc, hbc⟩ := h1.view_ok
        rw [look_nil _ hbc] at hl
        cases hl
        have := hp [k] [] t bc.data bc.blank (by rw [h2 [] [], look_nil _ hbc])
        exact ⟨this.1, fun k hk => by cases hk⟩
      | cons k' ks =>
        have := hp (k :: k' :: ks) [] s d b0 (by rw [h2 (k' :: ks) []]; rw [look_stamp k' ks t s0]; exact hl)
        exact ⟨this.1, fun x hx => this.2 x (List.mem_cons_of_mem _ hx)⟩
    · obtain ⟨bc, hbc⟩ := h1.view_ok
      exact (hp [k] [] t bc.data bc.blank (by rw [h2 [] [], look_nil _ hbc])).2 k (List.mem_cons_self ..)

theorem Proper.data {L : Log} {h : Heap} {n : Node} {b : Body Node} (hp : Proper C L h n) (hv : view C L h n = .ok b) :
    DataOk b.data := (hp [] [] [] b.data b.blank (look_nil _ hv)).1

/-! ### The desk -/

/-- What holds in a process that reads from and adds to the tree version list `t` and the UUID set `u` of the
repository `r`. -/
structure Desk (C : Cfg) (r : Realm) (t u : ObjId) (w : World) : Prop where
  intact : Intact C r w
  truth : ∀ j, Truth C r w.repo.log w.heap j
  sound : Sound C w
  tk : (w.heap t).kind = .tvl
  uk : (w.heap u).kind = .uuidset
  tl : t < w.next
  ul : u < w.next
  rooted : Rooted r t w
  fit : ∀ j, j < w.next → (w.heap j).mapped = true → DataOk (w.heap j).body.data ∧ ∀ e ∈ (w.heap j).body.kids, KeyFit e.1
  proper : ∀ j, j < w.next → (w.heap j).mapped = false → Proper C w.repo.log w.heap (.mem j)
  named : ∀ j ref, (w.heap j).ref = some ref → ref.direct = true ∨ (j = t ∧ ref.loc = some tvlRefName) ∨
    (j = u ∧ ref.loc = some uuidSetRefName)
  tshown : r ∈ (w.heap t).savedOn → (w.heap t).ref = some tvlLink.ref
  ushown : r ∈ (w.heap u).savedOn → (w.heap u).ref = some uuidSetLink.ref

theorem Desk.congr {t u : ObjId} {w w' : World} (d : Desk C r t u w) (h1 : w'.heap = w.heap) (h2 : w'.next = w.next)
    (h3 : w'.repo.log = w.repo.log) (h4 : w'.caches = w.caches) : Desk C r t u w' := by
  refine ⟨d.intact.congr h1 h3 h4 (Nat.le_of_eq h2.symm), ?_, ⟨d.sound.fine.congr h1 h3 h2, by rw [h1]; exact d.sound.typed⟩,
    by rw [h1]; exact d.tk, by rw [h1]; exact d.uk, by rw [h2]; exact d.tl, by rw [h2]; exact d.ul,
    ⟨?_, ?_, ?_, ?_⟩, ?_, ?_, ?_, ?_, ?_⟩
  · rw [h1, h3]; exact d.truth
  · rw [h1, h2]; exact d.rooted.bare
  · rw [h1]; exact d.rooted.own
  · rw [h1]; exact d.rooted.door
  · rw [h1]; exact d.rooted.tree
  · rw [h1, h2]; exact d.fit
  · rw [h1, h2, h3]; exact d.proper
  · rw [h1]; exact d.named
  · rw [h1]; exact d.tshown
  · rw [h1]; exact d.ushown

theorem direct_unnamed {ref : Ref} (h : ref.direct = true) : ref.loc ≠ some tvlRefName ∧ ref.loc ≠ some uuidSetRefName := by
  constructor <;> intro e <;> unfold Ref.direct at h <;> rw [e] at h <;> revert h <;> decide

theorem Desk.top {t u : ObjId} {w : World} (d : Desk C r t u w) {j : ObjId} {ref : Ref} (h : (w.heap j).ref = some ref) :
    (ref.loc = some tvlRefName → j = t) ∧ (ref.loc = some uuidSetRefName → j = u) := by
  rcases d.named j ref h with e | ⟨rfl, e⟩ | ⟨rfl, e⟩
  · have := direct_unnamed e
    exact ⟨fun x => absurd x this.1, fun x => absurd x this.2⟩
  · rw [e]; exact ⟨fun _ => rfl, fun x => absurd x (by decide)⟩
  · rw [e]; exact ⟨fun x => absurd x (by decide), fun _ => rfl⟩

/-- An object was read. -/
theorem Desk.read {t u : ObjId} {w w' : World} (hr : r ≠ []) (d : Desk C r t u w) {x : ObjId} (hx : x < w.next)
    (hm : (w.heap x).mapped = false) (hc : ReadCase C x w w' (.ok true)) : Desk C r t u w' := by
  have hs := d.sound.fine
  have ho := hs.opened hx hm hc
  obtain ⟨int, tru⟩ := d.intact.read hr hx hm hc
  have hl := ho.loads hs hx
  have old : ∀ j, j ≠ x → j < w.next ∨ w'.next ≤ j → w'.heap j = w.heap j := by
    intro j hj h
    rcases h with h | h
    · exact ho.old j hj h
    · exact ho.beyond j h
  have was : ∀ j, (w'.heap j).mapped = true → j ≠ x → w'.heap j = w.heap j := by
    intro j hmj hj
    by_cases h1 : j < w.next
    · exact ho.old j hj h1
    · by_cases h2 : j < w'.next
      · rw [ho.fresh j (Nat.not_lt.mp h1) h2] at hmj; cases hmj
      · exact ho.beyond j (Nat.not_lt.mp h2)
  have has : ∀ q k, Has w'.heap q k → q ≠ x → Has w.heap q k := by
    intro q k hq hqx
    have e := was q hq.1 hqx
    unfold Has at hq ⊢
    rw [e] at hq
    exact hq
  refine ⟨int, fun j => ?_, d.sound.loads hl, (hl.kind t d.tl).trans d.tk, (hl.kind u d.ul).trans d.uk,
    Nat.lt_of_lt_of_le d.tl hl.next, Nat.lt_of_lt_of_le d.ul hl.next, ?_, ?_, ?_, ?_, ?_, ?_⟩
  · by_cases h : w.next ≤ j ∧ j < w'.next
    · exact tru j (Or.inl h)
    · exact tru j (Or.inr (d.truth j))
  · refine d.rooted.step hs.kids d.tl (hl.typed d.sound.typed) hl.next hl.kind d.tk ?_ ?_ ?_
    · intro j hj hf
      by_cases hjx : j = x
      · subst hjx; exact ho.marked r hf
      · rw [ho.old j hjx hj] at hf; exact hf
    · intro q k hq hh
      have e := hl.loaded q hq hh.1
      unfold Has
      rw [e]; exact hh
    · intro q k hq
      by_cases hqx : q = x
      · subst hqx
        refine Or.inr (Or.inl ⟨Nat.lt_of_lt_of_le hx hl.next, ?_, ?_, ?_⟩)
        · rintro rfl
          exact absurd d.tl (Nat.not_lt.mpr (ho.new _ hq.2).1)
        · intro p hp
          exact absurd (hs.kids p hp.1 k hp.2) (Nat.not_lt.mpr (ho.new k hq.2).1)
        · intro p hp
          by_cases hpq : p = q
          · exact hpq
          · have := has p k hp hpq
            exact absurd (hs.kids p this.1 k this.2) (Nat.not_lt.mpr (ho.new k hq.2).1)
      · exact Or.inl (has q k hq hqx)
  · intro j hj hmj
    by_cases hjx : j = x
    · subst hjx
      have hp : Proper C w'.repo.log w'.heap (.mem j) := (d.proper j hx hm).of_same (ho.content j hx)
      refine ⟨hp.data (view_mapped hmj), fun e he => ?_⟩
      have hdg : dget ((w'.heap j).body.map Node.mem).kids e.1 = some (e.2.1, .mem e.2.2) := by
        rw [Body.dget_map, dget_of_mem (ho.fine.formed j hmj).keys (k := e.1) (v := e.2) he]; rfl
      exact (hp.kid (ho.fine.all j) (view_mapped hmj) hdg).2
    · have e := was j hmj hjx
      rw [e] at hmj ⊢
      exact d.fit j (by
        by_cases h1 : j < w.next
        · exact h1
        · exfalso
          by_cases h2 : j < w'.next
          · rw [← e, ho.fresh j (Nat.not_lt.mp h1) h2] at hmj; cases hmj
          · exact h2 hj) hmj
  · intro j hj hmj
    have hjx : j ≠ x := by rintro rfl; rw [ho.mapped] at hmj; cases hmj
    by_cases h1 : j < w.next
    · rw [ho.old j hjx h1] at hmj
      exact (d.proper j h1 hmj).of_same (ho.content j h1)
    · have h1 := Nat.not_lt.mp h1
      cases hc with
      | none r' ref _ _ _ _ _ _ hnx => rw [hnx] at hj; exact absurd hj (Nat.not_lt.mpr h1)
      | read r0 ref loc b is so hr0 hf hn hloc hsv hacc hdec hlog hca hnx hold hbig hkids hnew hso hobj hdis =>
        obtain ⟨e, he, h3⟩ := hnew j hjx h1 hj
        have hkj : (w'.heap j).kind = e.2.2.kind := by rw [h3, kind_linkObj]
        have hsj : SameContent C w'.repo.log w'.heap (.mem j) w'.repo.log w.heap
            (.sto r0 ⟨(w'.heap j).kind, e.2.2.ref⟩) :=
          look_unloaded hmj (by rw [h3]; rfl) (by rw [h3]; rfl)
        refine Proper.of_same hsj.symm ?_
        rw [hkj, hlog]
        obtain ⟨ref0, a, e1, e2, e3⟩ := d.intact.fetched hm
        have hr1 := d.intact.away x hm
        rw [hr0] at hr1; cases hr1
        rw [hf] at e1; cases e1
        have hab : a = b := by
          have := (strictFetch_ok e2).1
          rw [fetch_some hn hacc hloc, hdec] at this
          cases this; rfl
        subst hab
        have hdg : dget (a.map (Node.sto r)).kids e.1 = some (e.2.1, .sto r e.2.2) := by
          rw [Body.dget_map, dget_of_mem (decode_formed hdec).keys (k := e.1) (v := e.2) he]; rfl
        exact ((d.proper x hx hm).kid (d.intact.full x) e3 hdg).1
  · intro j ref hj
    by_cases hjx : j = x
    · subst hjx
      obtain ⟨ref0, e1, e2⟩ := ho.ref
      have := d.named j ref0 e1
      rcases e2 with e2 | e2 <;> rw [hj] at e2 <;> cases e2 <;> exact this
    · by_cases h1 : w.next ≤ j ∧ j < w'.next
      · obtain ⟨ref0, e1, e2⟩ := ho.direct j h1.1 h1.2
        rw [hj] at e1; cases e1
        exact Or.inl e2
      · have e := old j hjx (by oomega)
        rw [e] at hj
        exact d.named j ref hj
  · intro hf
    by_cases htx : t = x
    · subst htx
      have h0 := d.tshown (ho.marked r hf)
      obtain ⟨ref0, e1, e2⟩ := ho.ref
      rw [h0] at e1; cases e1
      rcases e2 with e2 | e2
      · exact e2
      · rw [e2, d.tk]; rfl
    · rw [ho.old t htx d.tl] at hf ⊢; exact d.tshown hf
  · intro hf
    by_cases htx : u = x
    · subst htx
      have h0 := d.ushown (ho.marked r hf)
      obtain ⟨ref0, e1, e2⟩ := ho.ref
      rw [h0] at e1; cases e1
      rcases e2 with e2 | e2
      · exact e2
      · rw [e2, d.uk]; rfl
    · rw [ho.old u htx d.ul] at hf ⊢; exact d.ushown hf

/-- An object that is not loaded was replaced by one that stands for the same. -/
theorem Desk.standIn {t u : ObjId} {w w' : World} (d : Desk C r t u w) (i : ObjId)
    (h1 : ∀ j, j ≠ i → w'.heap j = w.heap j) (h2 : w'.next = w.next) (h3 : w'.repo.log = w.repo.log)
    (h4 : w'.caches = w.caches) (hm : (w.heap i).mapped = false) (hm' : (w'.heap i).mapped = false)
    (hr : (w'.heap i).realm = (w.heap i).realm) (href : (w'.heap i).ref = (w.heap i).ref)
    (hk : (w'.heap i).kind = (w.heap i).kind) (hsv : (w'.heap i).savedOn = (w.heap i).savedOn) : Desk C r t u w' := by
  have hs := d.sound.fine
  have hl := Loads.standIn hs i h1 h2 h3 h4 hm hm' hr href hk hsv
  have loaded : ∀ j, (w.heap j).mapped = true → w'.heap j = w.heap j := by
    intro j hj
    exact h1 j (by rintro rfl; rw [hm] at hj; cases hj)
  have loaded' : ∀ j, (w'.heap j).mapped = true → w'.heap j = w.heap j := by
    intro j hj
    exact h1 j (by rintro rfl; rw [hm'] at hj; cases hj)
  have flag : ∀ j, (w'.heap j).savedOn = (w.heap j).savedOn := by
    intro j
    by_cases hj : j = i
    · subst hj; exact hsv
    · rw [h1 j hj]
  have refs : ∀ j, (w'.heap j).ref = (w.heap j).ref := by
    intro j
    by_cases hj : j = i
    · subst hj; exact href
    · rw [h1 j hj]
  have kind : ∀ j, (w'.heap j).kind = (w.heap j).kind := by
    intro j
    by_cases hj : j = i
    · subst hj; exact hk
    · rw [h1 j hj]
  have mapped : ∀ j, (w'.heap j).mapped = (w.heap j).mapped := by
    intro j
    by_cases hj : j = i
    · subst hj; rw [hm, hm']
    · rw [h1 j hj]
  have ar : Around C r w w' := by
    refine ⟨Nat.le_of_eq h2.symm, h4.trans d.intact.caches, by rw [h3]; exact Grows.refl _, fun n => Or.inl (by rw [h3]),
      Or.inl h3, loaded, fun j hj => ?_⟩
    obtain ⟨_, ref, _, _, g, _⟩ := hs.away j hj
    by_cases hji : j = i
    · subst hji
      exact ⟨hm', hr, hk, ⟨ref, g, Or.inl (href.trans g)⟩, fun x _ hx => by rw [hsv]; exact hx,
        fun x hx => by rw [hsv] at hx; exact hx⟩
    · rw [h1 j hji]
      exact ⟨hj, rfl, rfl, ⟨ref, g, Or.inl g⟩, fun x _ hx => hx, fun x hx => hx⟩
  have content := d.intact.around_look ar
  have clean : ∀ p, Clean r w'.heap p → Clean r w.heap p := by
    intro p hp
    induction hp with
    | mk p hf _ ih =>
      refine Clean.mk p (by rw [← flag]; exact hf) fun hmp k hkp => ?_
      have e := loaded p hmp
      exact ih (by rw [e]; exact hmp) k (by rw [e]; exact hkp)
  have has : ∀ q k, Has w'.heap q k ↔ Has w.heap q k := by
    intro q k
    constructor
    · intro h
      have e := loaded' q h.1
      unfold Has at h ⊢
      rw [e] at h; exact h
    · intro h
      have e := loaded q h.1
      unfold Has
      rw [e]; exact h
  refine ⟨d.intact.around ar, fun j hc => ?_, d.sound.loads hl, (kind t).trans d.tk, (kind u).trans d.uk,
    by rw [h2]; exact d.tl, by rw [h2]; exact d.ul, ?_, ?_, ?_, ?_, ?_, ?_⟩
  · obtain ⟨ref, g1, g2⟩ := d.truth j (clean j hc)
    exact ⟨ref, (refs j).trans g1, g2.same_world h3 (kind j) (by have := content j; rw [h3] at this ⊢; exact this)⟩
  · refine d.rooted.step hs.kids d.tl (hl.typed d.sound.typed) (Nat.le_of_eq h2.symm) (fun j _ => kind j) d.tk
      (fun j _ h => by rw [flag] at h; exact h) (fun q k _ h => (has q k).mpr h) (fun q k h => Or.inl ((has q k).mp h))
  · intro j hj hmj
    have e := loaded' j hmj
    rw [e] at hmj ⊢
    exact d.fit j (by rw [← h2]; exact hj) hmj
  · intro j hj hmj
    exact (d.proper j (by rw [← h2]; exact hj) (by rw [← mapped]; exact hmj)).of_same (content j)
  · intro j ref hj
    exact d.named j ref (by rw [← refs]; exact hj)
  · rw [flag, refs]; exact d.tshown
  · rw [flag, refs]; exact d.ushown

theorem Desk.reads {t u : ObjId} {w w' : World} (hr : r ≠ []) (d : Desk C r t u w) (h : Reads C w w') : Desk C r t u w' := by
  induction h with
  | refl => exact d
  | read x _ hx hm hc ih => exact ih.read hr hx hm hc
  | same _ h1 h2 h3 h4 ih => exact ih.congr h1 h2 h3 h4
  | standIn i _ h1 h2 h3 h4 h5 h6 h7 h8 h9 h10 ih => exact ih.standIn i h1 h2 h3 h4 h5 h6 h7 h8 h9 h10

theorem Desk.loads {t u : ObjId} {w w' : World} (hr : r ≠ []) (d : Desk C r t u w) (h : Loads C w w') : Desk C r t u w' :=
  d.reads hr h.reads

/-- Loaded objects were changed or created, and are not marked as saved. -/
theorem Desk.change {t u : ObjId} {w w' : World} (d : Desk C r t u w) (hs : Sound C w') (hn : w.next ≤ w'.next)
    (hlog : w'.repo.log = w.repo.log) (hca : w'.caches = w.caches)
    (hkind : ∀ j, j < w.next → (w'.heap j).kind = (w.heap j).kind)
    (hkeep : ∀ q k, q < w.next → Has w.heap q k → Has w'.heap q k)
    (hch : ∀ j, w'.heap j = w.heap j ∨ ((w'.heap j).mapped = true ∧ (w'.heap j).savedOn = [] ∧
      ((w'.heap j).ref = (w.heap j).ref ∨ (w'.heap j).ref = none) ∧ DataOk (w'.heap j).body.data ∧
      ∀ e ∈ (w'.heap j).body.kids, KeyFit e.1))
    (hnew : ∀ q k, Has w'.heap q k → Has w.heap q k ∨
      (q < w'.next ∧ k ≠ t ∧ (∀ p, ¬ Has w.heap p k) ∧ ∀ p, Has w'.heap p k → p = q) ∨
      (q < w'.next ∧ Reach w.heap t k ∧ (w.heap k).kind = .mrr ∧ Shadow r w'.heap q))
    (hin : ∀ j, w.next ≤ j → j < w'.next → (w'.heap j).mapped = true ∧ DataOk (w'.heap j).body.data ∧
      ∀ e ∈ (w'.heap j).body.kids, KeyFit e.1) : Desk C r t u w' := by
  have hi := d.intact.changed hlog hca hs.fine fun j => by
    rcases hch j with e | ⟨e1, e2, _⟩
    · exact Or.inl e
    · exact Or.inr ⟨e1, e2⟩
  have flag : ∀ j, r ∈ (w'.heap j).savedOn → w'.heap j = w.heap j := by
    intro j hx
    rcases hch j with e | ⟨_, e, _⟩
    · exact e
    · rw [e] at hx; cases hx
  have away : ∀ j, (w'.heap j).mapped = false → w'.heap j = w.heap j := by
    intro j hx
    rcases hch j with e | ⟨e, _⟩
    · exact e
    · rw [e] at hx; cases hx
  refine ⟨hi.1, fun j => hi.2 j (d.truth j), hs, (hkind t d.tl).trans d.tk, (hkind u d.ul).trans d.uk,
    Nat.lt_of_lt_of_le d.tl hn, Nat.lt_of_lt_of_le d.ul hn, ?_, ?_, ?_, ?_, ?_, ?_⟩
  · refine d.rooted.step d.sound.fine.kids d.tl hs.typed hn hkind d.tk
      (fun j _ h => by rw [flag j h] at h; exact h) hkeep hnew
  · intro j hj hmj
    by_cases hlt : j < w.next
    · rcases hch j with e | ⟨_, _, _, e1, e2⟩
      · rw [e] at hmj ⊢
        exact d.fit j hlt hmj
      · exact ⟨e1, e2⟩
    · exact (hin j (Nat.not_lt.mp hlt) hj).2
  · intro j hj hmj
    have e := away j hmj
    have hlt : j < w.next := Nat.lt_of_not_le fun h => by rw [(hin j h hj).1] at hmj; cases hmj
    have hm : (w.heap j).mapped = false := by rw [← e]; exact hmj
    refine (d.proper j hlt hm).of_same ?_
    obtain ⟨_, ref, _, g1, g2, _⟩ := d.sound.fine.away j hm
    have h1 := look_unloaded (C := C) (L := w.repo.log) (h' := w.heap) hm g1 g2
    have h2 := look_unloaded (C := C) (L := w.repo.log) (h := w'.heap) (h' := w.heap) hmj (by rw [e]; exact g1) (by rw [e]; exact g2)
    rw [hlog]
    rw [e] at h2
    exact h1.trans h2.symm
  · intro j ref hj
    rcases hch j with e | ⟨_, _, e | e, _⟩
    · rw [e] at hj; exact d.named j ref hj
    · rw [e] at hj; exact d.named j ref hj
    · rw [e] at hj; cases hj
  · intro h
    have e := flag t h
    rw [e] at h ⊢
    exact d.tshown h
  · intro h
    have e := flag u h
    rw [e] at h ⊢
    exact d.ushown h

end MM
