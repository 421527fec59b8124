/-
Writing one of the top-level objects of a process, whatever the outcome and wherever it stops, and
changes by others between the writes of the two objects.
-/
import Verif.Meanwhile

namespace MM

variable {C : Cfg} {r : Realm}

/-! ### A write that stops anywhere -/

/-- The state in which the parts of an object are written. -/
theorem Intact.env {w : World} (hs : Intact C r w) {i : ObjId} (hm : (w.heap i).mapped = true) (hsto : Storable w.heap i)
    (ht : Trusted C r w i) (ho : Owned r w.heap i) (hc : CollisionFree C w.repo.log) :
    ∃ rank S, Env C r rank S i { w with heap := w.heap.set i { w.heap i with realm := some r } } := by
  obtain ⟨rank, hrk, hsh, hen⟩ := hs.scope i ho
  have st1 := realm_step (r := r) (i := i) none hm
  generalize hw1 : ({ w with heap := w.heap.set i { w.heap i with realm := some r } } : World) = w1 at st1 ⊢
  have hfl : ∀ j, (w1.heap j).savedOn = (w.heap j).savedOn := by
    intro j
    rw [← hw1]
    by_cases hj : j = i
    · subst hj; simp
    · simp [Heap.set_ne hj]
  have href1 : ∀ j, (w1.heap j).ref = (w.heap j).ref := by
    intro j
    rw [← hw1]
    by_cases hj : j = i
    · subst hj; simp
    · simp [Heap.set_ne hj]
  have heff0 : w.eff = w.repo.log := by unfold World.eff; rw [hs.caches]; rfl
  have heff : w1.eff = w.repo.log := by
    have : w1.eff = w.eff := by rw [← hw1]; rfl
    rw [this, heff0]
  have hcl1 : ∀ p, Clean r w1.heap p ↔ Clean r w.heap p := fun p => flags_clean st1.same hfl
  have hsh1 := hsh.flags st1.same hfl
  refine ⟨rank, ⟨fun p => (p = i ∧ ¬ Clean r w1.heap i) ∨ ¬ Reach w.heap i p, Reach w.heap i⟩, ?_⟩
  refine ⟨by rw [← hw1]; show (dkeys w.caches).Nodup; rw [hs.caches]; exact List.nodup_nil,
    hrk.mono st1.same, hsto.mono st1.same, ⟨hsh1.closed, ?_, ?_⟩, ?_, ?_, ?_,
    (st1.same i).mapped.trans hm, Reach.refl i⟩
  · intro p hS h1 h2 k hk hSk
    have hp : Reach w.heap i p := Classical.not_not.mp fun e => hS (Or.inr e)
    rw [(st1.same p).mapped] at h2
    rw [(st1.same p).body] at hk
    rcases hSk with ⟨rfl, _⟩ | h
    · have h3 := hrk p h2 k hk
      rcases hrk.reach hp with e | e
      · subst e; exact absurd h3 (Nat.lt_irrefl _)
      · exact absurd (Nat.lt_trans h3 e) (Nat.lt_irrefl _)
    · exact h (hp.trans (Reach.step p k k h2 hk (Reach.refl k)))
  · intro p hS
    exact hsh1.alone p fun h => hS (Or.inr h)
  · intro p hS hcl
    obtain ⟨ref', g1, g2⟩ := ht p (Classical.not_not.mp fun e => hS (Or.inr e)) ((hcl1 p).mp hcl)
    refine ⟨ref', by rw [href1]; exact g1, ?_⟩
    rw [← heff0] at g2
    exact g2.step st1 (by rw [heff]; exact hc)
  · by_cases hcl : Clean r w1.heap i
    · exact Or.inr hcl
    · exact Or.inl (Or.inl ⟨rfl, hcl⟩)
  · rintro s (⟨rfl, _⟩ | h)
    · exact Nat.le_refl _
    · exact Nat.le_of_lt (hen.below s h)

/-- Writing an object, whatever the outcome. -/
theorem Intact.steps {w w' : World} (hs : Intact C r w) (hr : r ≠ []) {n : Nat} {force : Bool} {i : ObjId}
    {x : Except PyErr Ref} (h : writeOut C n (some r) force i w = (x, w')) (hc : CollisionFree C w'.repo.log)
    (hsto : Storable w.heap i) (ht : Trusted C r w i) (ho : Owned r w.heap i) : NameLast C r i w w' :=
  steps_env hr h hc hsto hs.caches (hs.full i) fun hm hc0 => hs.env hm hsto ht ho hc0

theorem NameLast.suffix {w w' : World} {i : ObjId} (h : NameLast C r i w w') : w.repo.log <:+ w'.repo.log := by
  rcases h with ⟨K, e, _⟩ | ⟨nm, hash, mid, _, ⟨K, e, _⟩, hlog, _⟩
  · exact ⟨K, e.symm⟩
  · exact ⟨.setRef r nm hash :: K, by rw [hlog, e]; rfl⟩

/-- The changes of the repository between two moments: it has grown, names other than `nm` are what they
were, and so is `nm`, or it shows the object. -/
structure Moved (C : Cfg) (r : Realm) (w : World) (i : ObjId) (l : Link) (nm : Str) (L : Log) : Prop where
  grows : Grows w.repo.log L
  others : ∀ n, n ≠ nm → refOf L r n = refOf w.repo.log r n
  name : refOf L r nm = refOf w.repo.log r nm ∨ Shows C r w i L l

/-- While a top-level object is written, whatever the outcome, and wherever the process stops -/
theorem Intact.moved {w w' : World} (hs : Intact C r w) (hr : r ≠ []) {n : Nat} {force : Bool} {i : ObjId}
    {x : Except PyErr Ref} (h : writeOut C n (some r) force i w = (x, w')) (hc : CollisionFree C w'.repo.log)
    (hsto : Storable w.heap i) (ht : Trusted C r w i) (ho : Owned r w.heap i) {l : Link} {nm : Str} (hl : Named l nm)
    (hk : (w.heap i).kind = l.kind) {L : Log} (h1 : w.repo.log <:+ L) (h2 : L <:+ w'.repo.log) :
    Moved C r w i l nm L := by
  have hcL := suffix_collisionFree h2 hc
  have saves : ∀ s', OnlySaves r w.repo s' → L <:+ s'.log → Moved C r w i l nm L := by
    rintro s' ⟨K, e, f⟩ hL
    obtain ⟨K1, rfl⟩ := h1
    obtain ⟨K2, e2⟩ := hL
    rw [e, ← List.append_assoc] at e2
    have e3 := List.append_cancel_right e2
    have hSR : SameRefs w.repo.log (K1 ++ w.repo.log) := by
      refine sameRefs_append (fun op hop => ?_) _
      obtain ⟨o, ho⟩ := f op (by rw [← e3]; exact List.mem_append_right _ hop)
      exact ⟨r, o, ho⟩
    exact ⟨grows_append K1 _, fun n _ => hSR r n, Or.inl (hSR r nm)⟩
  rcases hs.steps hr h hc hsto ht ho with hS | ⟨nm0, hash, mid, hpub, hsv, hlog, hh, hnew⟩
  · exact saves _ hS h2
  · rw [hlog, List.suffix_cons_iff] at h2
    obtain ⟨_, e1, _⟩ := hl.ref
    rw [hk, e1] at hpub
    cases hpub
    rcases h2 with rfl | h2
    · have hgm : Grows mid.log (.setRef r nm hash :: mid.log) := grows_append [_] _
      refine ⟨hsv.grows.trans hgm, ?_, Or.inr ?_⟩
      · intro n hne
        rw [← hsv.refs r n]
        simp [refOf, hne.symm]
      · have hself : refOf (.setRef r nm hash :: mid.log) r nm = some hash := by simp [refOf]
        have key : ∀ h0, SameContent C w.repo.log w.heap (.mem i) (.setRef r nm hash :: mid.log) h0 (.sto r l) := by
          intro h0
          obtain ⟨g1, g2⟩ := hnew h0
          rw [hk] at g1 g2
          refine (g2.trans ?_).trans (named_new hl hh hself h0)
          intro ks t
          refine (look_sto_mono hgm hcL ks t r _ (fun loc e _ => Or.inl ?_) (g1 ks t)).symm
          cases e
          exact hh
        exact ⟨key, fun h0 => Full.of_same (key h0) (hs.full i)⟩
    · exact saves _ hsv h2

/-! ### Others, when only the names of the top-level objects matter -/

/-- The names of the two top-level objects are what they were. -/
def TopKept (r : Realm) (L L' : Log) : Prop := ∀ nm, nm = tvlRefName ∨ nm = uuidSetRefName → refOf L' r nm = refOf L r nm

theorem pubName_top {k : Kind} {nm : Str} (h : pubName k = some nm) : nm = tvlRefName ∨ nm = uuidSetRefName := by
  cases k <;> cases h
  · exact Or.inl rfl
  · exact Or.inr rfl

/-- References of saved objects are hashes or names of top-level objects. -/
theorem Good.loc_kept {L L0 L' : Log} {h : Heap} {j : ObjId} {ref : Ref} (g : Good C r L h j ref) (hn : TopKept r L0 L')
    {loc : Str} (hl : ref.loc = some loc) (hi : ref.isNone = false) : LocKept L0 L' r loc := by
  obtain ⟨l, e, h1⟩ := g.ok.loc
  rw [hl] at e
  cases e
  rcases h1 with h1 | ⟨h1, _⟩ | h1
  · exact Or.inl h1
  · exfalso
    unfold Ref.isNone at hi
    rw [hl, h1] at hi
    exact absurd hi (by decide)
  · exact Or.inr (hn loc (pubName_top h1))

theorem Intact.top_kept {w : World} (hs : Intact C r w) {L : Log} (hn : TopKept r w.repo.log L) :
    HeapKept w.repo.log L w.heap := by
  intro j x ref loc hm hx hr hl hi
  have e := hs.away j hm
  rw [hx] at e
  cases e
  have hcl : Clean r w.heap j := .mk j (hs.marked j hm ref hr hi) (fun q => by rw [hm] at q; cases q)
  obtain ⟨ref', e1, g⟩ := hs.truth j hm hcl
  rw [hr] at e1
  cases e1
  exact g.loc_kept hn hl hi

theorem Intact.others_look {w : World} (hs : Intact C r w) {L : Log} (hg : Grows w.repo.log L)
    (hn : TopKept r w.repo.log L) (hc : CollisionFree C L) (j : ObjId) :
    SameContent C w.repo.log w.heap (.mem j) L w.heap (.mem j) := fun ks t =>
  (look_mem_mono hg hc (hs.top_kept hn) (fun _ => SameObj.refl _) ks t j (hs.full j ks t)).symm

theorem Intact.others {w : World} (hs : Intact C r w) {L : Log} {fs : List Fault} (hg : Grows w.repo.log L)
    (hn : TopKept r w.repo.log L) (hc : CollisionFree C L) : Intact C r (MM.outside L fs w) ∧
      ∀ j, Truth C r w.repo.log w.heap j → Truth C r L w.heap j := by
  have htr : ∀ j, Truth C r w.repo.log w.heap j → Truth C r L w.heap j := by
    intro p ht hcl
    obtain ⟨ref, h1, h2⟩ := ht hcl
    exact ⟨ref, h1, h2.mono hg hc (hs.top_kept hn) (fun _ => SameObj.refl _) (fun loc h3 h4 => h2.loc_kept hn h3 h4)⟩
  exact ⟨⟨hs.caches, fun p _ => Full.of_same (hs.others_look hg hn hc p) (hs.full p),
    fun p hp => htr p (hs.truth p hp), hs.ranked, hs.home, hs.away, hs.kids, hs.marked⟩, htr⟩

end MM
