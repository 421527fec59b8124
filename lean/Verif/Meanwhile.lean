/-
A process that works on a repository while others change the repository.
-/
import Verif.Work

namespace MM

variable {C : Cfg} {r : Realm}

/-! ### Others save -/

/-- Clean objects pass for saved. -/
theorem Clean.saved {h : Heap} {i : ObjId} (hc : Clean r h i) : ∀ n, isSavedOn n h r i ≠ .ok false := by
  induction hc with
  | mk i h1 _ ih =>
    intro n
    cases n with
    | zero => intro e; cases e
    | succ n =>
      rw [isSavedOn_succ, if_neg (fun q => q h1)]
      by_cases hm : (h i).mapped = true
      · rw [if_pos hm]
        have : ∀ l : List ObjId, (∀ k ∈ l, isSavedOn n h r k ≠ .ok false) → allOk (isSavedOn n h r) l ≠ .ok false := by
          intro l
          induction l with
          | nil => intro _ e; cases e
          | cons a l ihl =>
            intro hl e
            unfold allOk at e
            cases hx : isSavedOn n h r a with
            | error x => rw [hx] at e; cases e
            | ok b =>
              cases b with
              | false => exact hl a (List.mem_cons_self ..) hx
              | true =>
                rw [hx] at e
                exact ihl (fun k hk => hl k (List.mem_cons_of_mem _ hk)) e
        exact this _ fun k hk => ih hm k hk n
      · rw [if_neg hm]; intro e; cases e

theorem direct_kept {L L' : Log} {ref : Ref} (h : ref.direct = true) {loc : Str} (hl : ref.loc = some loc)
    (hi : ref.isNone = false) : LocKept L L' r loc := by
  unfold Ref.direct at h
  rw [hl] at h
  unfold Ref.isNone at hi
  rw [hl] at hi
  rcases (Bool.or_eq_true _ _).mp h with e | e
  · exact Or.inl e
  · exfalso
    have : loc = noneLocation := by simpa using e
    rw [this] at hi
    exact absurd hi (by decide)

/-- The name of a top-level object is what it was, or the object has changes that are not saved. -/
def NameSafe (r : Realm) (w : World) (L : Log) (i : ObjId) (nm : Str) : Prop :=
  refOf L r nm = refOf w.repo.log r nm ∨ ¬ Clean r w.heap i

/-- Nothing that passes for saved depends on a name that was changed. -/
theorem Desk.unnamed {t u : ObjId} {w : World} (d : Desk C r t u w) {L : Log} (ht : NameSafe r w L t tvlRefName)
    (hu : NameSafe r w L u uuidSetRefName) {j : ObjId}
    {ref : Ref} (hcl : Clean r w.heap j) (hr : (w.heap j).ref = some ref) {loc : Str} (hl : ref.loc = some loc)
    (hi : ref.isNone = false) : LocKept w.repo.log L r loc := by
  rcases d.named j ref hr with e | ⟨rfl, e⟩ | ⟨rfl, e⟩
  · exact direct_kept e hl hi
  · rw [hl] at e
    cases e
    rcases ht with e | e
    · exact Or.inr e
    · exact absurd hcl e
  · rw [hl] at e
    cases e
    rcases hu with e | e
    · exact Or.inr e
    · exact absurd hcl e

theorem Desk.kept {t u : ObjId} {w : World} (d : Desk C r t u w) {L : Log} (ht : NameSafe r w L t tvlRefName)
    (hu : NameSafe r w L u uuidSetRefName) : HeapKept w.repo.log L w.heap := by
  intro j x ref loc hm hx hr hl hi
  have e := d.intact.away j hm
  rw [hx] at e
  cases e
  have hcl : Clean r w.heap j := .mk j (d.intact.marked j hm ref hr hi) (fun q => by rw [hm] at q; cases q)
  exact d.unnamed ht hu hcl hr hl hi

theorem Desk.others_look {t u : ObjId} {w : World} (d : Desk C r t u w) {L : Log} (ht : NameSafe r w L t tvlRefName)
    (hu : NameSafe r w L u uuidSetRefName)
    (hg : Grows w.repo.log L) (hc : CollisionFree C L) (j : ObjId) :
    SameContent C w.repo.log w.heap (.mem j) L w.heap (.mem j) := fun ks t =>
  (look_mem_mono hg hc (d.kept ht hu) (fun _ => SameObj.refl _) ks t j (d.intact.full j ks t)).symm

theorem Desk.others {t u : ObjId} {w : World} (d : Desk C r t u w) {L : Log} (ht : NameSafe r w L t tvlRefName)
    (hu : NameSafe r w L u uuidSetRefName)
    {fs : List Fault} (hg : Grows w.repo.log L) (hc : CollisionFree C L) : Desk C r t u (MM.outside L fs w) := by
  have hk := d.kept ht hu
  have hl := d.others_look ht hu hg hc
  have htr : ∀ j, Truth C r L w.heap j := by
    intro j hcl
    obtain ⟨ref, h1, h2⟩ := d.truth j hcl
    exact ⟨ref, h1, h2.mono hg hc hk (fun _ => SameObj.refl _) fun loc h3 h4 => d.unnamed ht hu hcl h1 h3 h4⟩
  have hi := d.intact
  have hs := d.sound
  refine ⟨⟨hi.caches, fun p _ => Full.of_same (hl p) (hi.full p), fun p _ => htr p, hi.ranked, hi.home, hi.away, hi.kids, hi.marked⟩,
    htr, ⟨⟨hs.fine.kids, hs.fine.ranked, hs.fine.away, fun j _ => Full.of_same (hl j) (hi.full j), hs.fine.formed⟩, hs.typed⟩,
    d.tk, d.uk, d.tl, d.ul, ⟨d.rooted.bare, d.rooted.own, d.rooted.door, d.rooted.tree⟩, d.fit,
    fun j hj hm => (d.proper j hj hm).of_same (hl j), d.named, d.tshown, d.ushown⟩

theorem Side.clean_of {A : ObjId → Prop} {w v : World} (hs : Side A w v) {i : ObjId} (hc : Clean r v.heap i) (hi : A i) :
    Clean r w.heap i := by
  induction hc with
  | mk i h1 _ ih =>
    have e := hs.heap i hi
    rw [e] at h1 ih
    exact .mk i h1 fun hm k hk => ih hm k hk (hs.subs i hi hm k hk)

theorem Bench.others {g t u : ObjId} {w v : World} (b : Bench C r g t u w v) {L : Log} (ht : NameSafe r w L t tvlRefName)
    (hu : NameSafe r w L u uuidSetRefName) {fs : List Fault} (hg : Grows w.repo.log L) (hc : CollisionFree C L) :
    Bench C r g t u (MM.outside L fs w) (MM.outside L fs v) ∧
      ∀ j, SameContent C v.repo.log v.heap (.mem j) L v.heap (.mem j) := by
  have hs := b.side
  have key : ∀ {i : ObjId} {nm}, g ≤ i → NameSafe r w L i nm → NameSafe r v L i nm := by
    intro i nm hi h
    rcases h with e | e
    · left; rw [hs.repo]; exact e
    · exact Or.inr fun q => e (hs.clean_of q hi)
  have ht' := key b.gt ht
  have hu' := key b.gu hu
  rw [← hs.repo] at hg
  exact ⟨⟨⟨hs.heap, hs.next, rfl, hs.caches, hs.refs, hs.subs, hs.fresh⟩, b.desk.others ht' hu' hg hc, b.gt, b.gu, b.empty⟩,
    b.desk.others_look ht' hu' hg hc⟩

/-! ### A session while others save -/

/-- The name of top-level object `i` is what it was, or `is_saved_on` says that the object has changes. -/
def Unsaved (r : Realm) (w : World) (L : Log) (i : ObjId) (nm : Str) : Prop :=
  refOf L r nm = refOf w.repo.log r nm ∨ ∃ n, isSavedOn n w.heap r i = .ok false

theorem Unsaved.safe {w : World} {L : Log} {i : ObjId} {nm : Str} (h : Unsaved r w L i nm) : NameSafe r w L i nm := by
  rcases h with e | ⟨n, e⟩
  · exact Or.inl e
  · exact Or.inr fun q => q.saved n e

/-- The session goes on, while others store objects and set and delete names; they set the name of a
top-level object only when the session has changes in the object that it has not saved. -/
inductive Meanwhile (C : Cfg) (r : Realm) (g t u : ObjId) (w : World) : World → Prop
  | refl : Meanwhile C r g t u w w
  | works (w1 w2 : World) : Meanwhile C r g t u w w1 → Busy C g t u w1 w2 → Meanwhile C r g t u w w2
  | others (w1 : World) (L : Log) (fs : List Fault) : Meanwhile C r g t u w w1 →
      Unsaved r w1 L t tvlRefName → Unsaved r w1 L u uuidSetRefName →
      Grows w1.repo.log L → CollisionFree C L → Meanwhile C r g t u w (outside L fs w1)

theorem Busy.meanwhile {g t u : ObjId} {w w' : World} (h : Busy C g t u w w') : Meanwhile C r g t u w w' := .works w w' .refl h

theorem Bench.meanwhile (hr : r ≠ []) {g t u : ObjId} {w w' v : World} (b : Bench C r g t u w v) (h : Meanwhile C r g t u w w') :
    ∃ v', Bench C r g t u w' v' ∧ Stays v v' ∧ Richer C v v' := by
  induction h with
  | refl => exact ⟨v, b, ⟨Nat.le_refl _, fun _ _ => rfl, fun _ _ h => h, fun _ _ _ _ _ h => h⟩, .refl v⟩
  | works w1 w2 _ hb ih =>
    obtain ⟨v1, b1, s1, r1⟩ := ih
    obtain ⟨v2, b2, s2, r2⟩ := b1.busy hr hb
    exact ⟨v2, b2, s1.trans s2, r1.trans s1.next r2⟩
  | others w1 L fs _ ht hu hg hc ih =>
    obtain ⟨v1, b1, s1, r1⟩ := ih
    obtain ⟨b2, hl⟩ := b1.others ht.safe hu.safe (fs := fs) hg hc
    exact ⟨_, b2, ⟨s1.next, s1.kind, s1.mapped, s1.kids⟩, r1.trans s1.next fun j _ => (hl j).over⟩

end MM
