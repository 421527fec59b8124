/-
What a process can do with its objects, in any order and with any outcome, and what stays
true then: nothing is lost of what is not in memory.
-/
import Verif.Session
import Verif.Within

namespace MM

variable {C : Cfg} {r : Realm}

/-- What holds in a process that works with the repository `r`, whatever it did: the content of all
objects can be read. -/
structure Intact (C : Cfg) (r : Realm) (w : World) : Prop where
  caches : w.caches = []
  stored : ∀ p, (w.heap p).mapped = false → Full C w.repo.log w.heap (.mem p)
  truth : ∀ p, (w.heap p).mapped = false → Truth C r w.repo.log w.heap p
  ranked : ∃ rank, Ranked rank w.heap
  home : ∀ j x, x ∈ (w.heap j).savedOn → x = r ∧ (w.heap j).realm = some r
  away : ∀ j, (w.heap j).mapped = false → (w.heap j).realm = some r
  kids : ∀ p, (w.heap p).mapped = true → ∀ k ∈ (w.heap p).body.subs, k < w.next
  marked : ∀ j, (w.heap j).mapped = false → ∀ ref, (w.heap j).ref = some ref → ref.isNone = false →
    r ∈ (w.heap j).savedOn

/-- The content of every object can be read. -/
theorem Intact.full {w : World} (hs : Intact C r w) (j : ObjId) : Full C w.repo.log w.heap (.mem j) := by
  obtain ⟨rank, hr⟩ := hs.ranked
  have key : ∀ n j, rank j < n → Full C w.repo.log w.heap (.mem j) := by
    intro n
    induction n with
    | zero => intro j hj; exact absurd hj (Nat.not_lt_zero _)
    | succ n ih =>
      intro j hj
      by_cases hm : (w.heap j).mapped = true
      · exact full_of_subs hm fun k hk => ih k (Nat.lt_of_lt_of_le (hr j hm k hk) (Nat.le_of_lt_succ hj))
      · exact hs.stored j (by simpa using hm)
  exact key _ j (Nat.lt_succ_self _)

theorem Intact.congr {w w' : World} (hs : Intact C r w) (h1 : w'.heap = w.heap)
    (h2 : w'.repo.log = w.repo.log) (h3 : w'.caches = w.caches) (h4 : w.next ≤ w'.next) :
    Intact C r w' := by
  refine ⟨h3.trans hs.caches, ?_, ?_, ?_, ?_, ?_, ?_, ?_⟩
  · rw [h1, h2]; exact hs.stored
  · rw [h1, h2]; exact hs.truth
  · rw [h1]; exact hs.ranked
  · rw [h1]; exact hs.home
  · rw [h1]; exact hs.away
  · rw [h1]; exact fun p hm k hk => Nat.lt_of_lt_of_le (hs.kids p hm k hk) h4
  · rw [h1]; exact hs.marked

theorem Intact.clean_away {w : World} {j : ObjId} (hm : (w.heap j).mapped = false) (hf : r ∈ (w.heap j).savedOn) :
    Clean r w.heap j := Clean.mk j hf fun h => by rw [hm] at h; cases h

theorem linkObj_marked (hr : r ≠ []) (l : Link) (ref : Ref) (h : (l.obj r).ref = some ref) (hn : ref.isNone = false) :
    r ∈ (l.obj r).savedOn := by
  have e : l.ref = ref := by injection h
  unfold Link.obj
  rw [e, hn]
  simp [hr]

/-! ### Reading -/

theorem Intact.fetched {w : World} (hs : Intact C r w) {i : ObjId} (hm : (w.heap i).mapped = false) :
    ∃ ref a, (w.heap i).ref = some ref ∧
      strictFetch C w.repo.log r (w.heap i).kind ref = .ok a ∧
      view C w.repo.log w.heap (.mem i) = .ok (a.map (.sto r)) := by
  obtain ⟨b, hb⟩ := view_ok_of_look (hs.full i [] [])
  obtain ⟨r', ref, a, h1, h2, h3, h4⟩ := (view_away hm).mp hb
  rw [hs.away i hm] at h1
  cases h1
  exact ⟨ref, a, h2, h3, by rw [hb, h4]⟩

/-- Reading any object, with any outcome, keeps the content of all objects. -/
theorem Intact.read_look {w w' : World} {res : Except PyErr Bool} (hs : Intact C r w) {i : ObjId}
    (hi : i < w.next) (hm : (w.heap i).mapped = false) (hc : ReadCase C i w w' res) :
    ∀ j, j < w.next → SameContent C w.repo.log w.heap (.mem j) w'.repo.log w'.heap (.mem j) := by
  have hcont := read_content hi hm (hs.full i) hc
  have hlog : w'.repo.log = w.repo.log := by
    cases hc <;> assumption
  rw [hlog]
  intro j hj
  refine look_frame (A := fun k => w.next ≤ k) ?_ ?_ hcont j (by oomega)
  · intro k hk hki
    have hk' : k < w.next := Nat.lt_of_not_le hk
    cases hc with
    | failed e h1 => rw [h1]
    | none r ref _ _ _ _ _ _ _ hh => rw [hh, Heap.set_ne hki]
    | read r ref loc b is so _ _ _ _ _ _ _ _ _ _ hold => exact hold k hki hk'
  · intro p hp k hk
    exact Nat.not_le.mpr (hs.kids p hp k hk)

/-- Reading, whatever the outcome: what passes for saved rightly still does, and so do new objects. -/
theorem Intact.read {w w' : World} {res : Except PyErr Bool} (hr : r ≠ []) (hs : Intact C r w) {i : ObjId}
    (hi : i < w.next) (hm : (w.heap i).mapped = false) (hc : ReadCase C i w w' res) :
    Intact C r w' ∧ ∀ j, ((w.next ≤ j ∧ j < w'.next) ∨ Truth C r w.repo.log w.heap j) →
      Truth C r w'.repo.log w'.heap j := by
  have hcont := read_content hi hm (hs.full i) hc
  obtain ⟨ref0, a, hf0, ha, hv0⟩ := hs.fetched hm
  have hr0 := hs.away i hm
  cases hc with
  | failed e h1 h2 h3 h4 =>
    refine ⟨hs.congr h1 h3 h4 (by rw [h2]; exact Nat.le_refl _), fun j hj => ?_⟩
    rcases hj with hj | hj
    · rw [h2] at hj; exact absurd hj.2 (Nat.not_lt.mpr hj.1)
    · rw [h1, h3]; exact hj
  | none r' ref hr' hf hn hcls hlog hca hnx hh =>
    rw [hf0] at hf; cases hf
    have hi' : w'.heap i = { w.heap i with mapped := true, body := (w.heap i).body.purged } := by
      rw [hh]; simp
    have hold : ∀ j, j ≠ i → w'.heap j = w.heap j := fun j hj => by rw [hh, Heap.set_ne hj]
    have hkind : (w'.heap i).kind = (w.heap i).kind := by
      rw [hi']; unfold Obj.kind Body.purged; exact Data.kind_purged _
    have hsubs : (w'.heap i).body.subs = [] := by rw [hi']; rfl
    have sw : Swap C r (fun _ => False) i w w' :=
      ⟨hlog, fun j _ hj => hold j hj, fun _ _ _ _ h => h, fun h => h, hcont, hkind,
       ⟨fun h => Clean.mk i (by rw [hi']; exact h.flag) (fun _ k hk => by rw [hsubs] at hk; cases hk),
        fun h => Intact.clean_away hm (by have := h.flag; rw [hi'] at this; exact this)⟩⟩
    have htr : ∀ p, Truth C r w.repo.log w.heap p → Truth C r w'.repo.log w'.heap p := by
      intro p hp
      refine sw.truth ?_ hp (fun h => h)
      intro hcl
      obtain ⟨ref1, hf1, hg⟩ := hs.truth i hm (sw.clean.mpr hcl)
      rw [hf0] at hf1; cases hf1
      exact ⟨ref0, by rw [hi']; exact hf0, hg.same_world hlog hkind (sw.look (fun h => h))⟩
    have hmap : ∀ j, (w'.heap j).mapped = false → j ≠ i ∧ (w.heap j).mapped = false := by
      intro j hj
      have hji : j ≠ i := by rintro rfl; rw [hi'] at hj; cases hj
      rw [hold j hji] at hj
      exact ⟨hji, hj⟩
    refine ⟨⟨hca.trans hs.caches, ?_, fun p hp => htr p (hs.truth p (hmap p hp).2), ?_, ?_, ?_, ?_, ?_⟩, ?_⟩
    · intro p hp
      exact Full.of_same (sw.look (fun h => h)) (hs.full p)
    · obtain ⟨rank, hrk⟩ := hs.ranked
      refine ⟨rank, fun p hp k hk => ?_⟩
      have hpi : p ≠ i := by rintro rfl; rw [hsubs] at hk; cases hk
      rw [hold p hpi] at hp hk
      exact hrk p hp k hk
    · intro j x hx
      by_cases hj : j = i
      · subst hj; rw [hi'] at hx ⊢; exact hs.home j x hx
      · rw [hold j hj] at hx ⊢; exact hs.home j x hx
    · intro j hj
      obtain ⟨h1, h2⟩ := hmap j hj
      rw [hold j h1]
      exact hs.away j h2
    · intro p hp k hk
      have hpi : p ≠ i := by rintro rfl; rw [hsubs] at hk; cases hk
      rw [hold p hpi] at hp hk
      rw [hnx]
      exact hs.kids p hp k hk
    · intro j hj
      obtain ⟨h1, h2⟩ := hmap j hj
      rw [hold j h1]
      exact hs.marked j h2
    · intro j hj
      rcases hj with hj | hj
      · rw [hnx] at hj; exact absurd hj.2 (Nat.not_lt.mpr hj.1)
      · exact htr j hj
  | read r' ref loc b is so hr' hf hn hloc hsv hacc hdec hlog hca hnx hold hbig hkids hnew hso hobj hdis =>
    rw [hr0] at hr'; cases hr'
    rw [hf0] at hf; cases hf
    have hci := Intact.clean_away hm hsv
    obtain ⟨ref1, hf1, hg⟩ := hs.truth i hm hci
    rw [hf0] at hf1; cases hf1
    have hab : a = b := by
      have := (strictFetch_ok ha).1
      rw [fetch_some hn hacc hloc, hdec] at this
      cases this; rfl
    subst hab
    obtain ⟨hdk, hlinks⟩ := decode_links hdec
    have hnd := decode_nodup hdec
    let A : ObjId → Prop := fun j => w.next ≤ j ∧ j < w'.next
    have hiA : ¬ A i := fun h => absurd hi (Nat.not_lt.mpr h.1)
    have hold' : ∀ j, ¬ A j → j ≠ i → w'.heap j = w.heap j := by
      intro j hj hji
      by_cases hlt : j < w.next
      · exact hold j hji hlt
      · exact hbig j hji (Nat.not_lt.mp fun h => hj ⟨Nat.not_lt.mp hlt, h⟩)
    have hapart : ∀ p, (w.heap p).mapped = true → ∀ k ∈ (w.heap p).body.subs, ¬ A k :=
      fun p hp k hk h => absurd (hs.kids p hp k hk) (Nat.not_lt.mpr h.1)
    have hkind : (w'.heap i).kind = (w.heap i).kind := by
      rw [hobj]; unfold Obj.kind; exact hdk
    have hne : ∀ j, A j → j ≠ i := by rintro j hj rfl; exact hiA hj
    have hkid : ∀ k ∈ (w'.heap i).body.subs, A k := by
      intro k hk
      rw [hobj] at hk
      unfold Body.subs at hk
      simp only at hk
      clear hv0 hdec hlinks hnd hnew hdk ha hobj hdis
      generalize a.kids = ls at hkids
      induction hkids with
      | nil => cases hk
      | cons h1 _ ih =>
        rw [List.map_cons] at hk
        rcases List.mem_cons.mp hk with e | e
        · subst e; exact ⟨h1.2.2.1, h1.2.2.2.1⟩
        · exact ih e
    have hobjA : ∀ j, A j → ∃ e ∈ a.kids, w'.heap j = e.2.2.obj r := fun j hj => hnew j (hne j hj) hj.1 hj.2
    have hmA : ∀ j, A j → (w'.heap j).mapped = false := by
      intro j hj
      obtain ⟨e, _, h1⟩ := hobjA j hj
      rw [h1]; rfl
    have hsameA : ∀ p, A p → ∃ e ∈ a.kids, w'.heap p = e.2.2.obj r ∧ (w'.heap p).kind = e.2.2.kind ∧
        SameContent C w'.repo.log w'.heap (.mem p) w'.repo.log w'.heap (.sto r ⟨(w'.heap p).kind, e.2.2.ref⟩) ∧
        Full C w'.repo.log w'.heap (.mem p) := by
      intro p hp
      obtain ⟨e, he, h1⟩ := hobjA p hp
      have hkp : (w'.heap p).kind = e.2.2.kind := by rw [h1, kind_linkObj]
      have hsame : SameContent C w'.repo.log w'.heap (.mem p) w'.repo.log w'.heap
          (.sto r ⟨(w'.heap p).kind, e.2.2.ref⟩) :=
        look_unloaded (hmA p hp) (by rw [h1]; rfl) (by rw [h1]; rfl)
      refine ⟨e, he, h1, hkp, hsame, Full.of_same hsame.symm ?_⟩
      rw [hkp, hlog]
      have hdg : dget (a.map (Node.sto r)).kids e.1 = some (e.2.1, .sto r e.2.2) := by
        rw [Body.dget_map, dget_of_mem hnd (k := e.1) (v := e.2) he]; rfl
      have : Full C w.repo.log w.heap (.sto r e.2.2) := by
        rcases (hs.full i).kid hv0 hdg with ⟨b', h3, _, h4⟩ | ⟨h3, _⟩
        · exact full_blank h3 h4
        · exact h3
      exact Full.of_same (look_sto_heap r e.2.2) this
    have htrA : ∀ p, A p → Truth C r w'.repo.log w'.heap p := by
      intro p hp hcl
      obtain ⟨e, he, h1, hkp, hsame, hfull⟩ := hsameA p hp
      have h2 : e.2.2.ref.isNone = false := by
        have := hcl.flag
        rw [h1] at this
        cases hx : e.2.2.ref.isNone with
        | false => rfl
        | true => unfold Link.obj at this; rw [hx] at this; simp at this
      have hlk := hlinks e he
      refine ⟨e.2.2.ref, by rw [h1]; rfl, by rw [hkp]; exact hlk.refOk (direct_mem ha he) h2, hfull, ?_⟩
      rw [hkp, hlk.normRef, ← hkp]; exact hsame
    have hfli : r ∈ (w'.heap i).savedOn := by
      rw [hobj, hso]
      simp only
      split
      · exact List.mem_singleton.mpr rfl
      · exact hsv
    -- the content
    have hlook : ∀ j, ¬ A j → SameContent C w.repo.log w.heap (.mem j) w'.repo.log w'.heap (.mem j) := by
      intro j hj
      rw [hlog]
      exact look_frame hold' hapart hcont j hj
    have hgi : Good C r w'.repo.log w'.heap i ⟨(w.heap i).kind.name, some loc⟩ :=
      (hg.rename hloc hn hacc).same_world hlog hkind (hlook i hiA)
    have hwas : ∀ j, Clean r w'.heap j → ¬ A j → Clean r w.heap j := by
      intro j hcl
      induction hcl with
      | mk j h1 h2 ih =>
        intro hj
        by_cases hji : j = i
        · subst hji; exact hci
        · have e := hold' j hj hji
          rw [e] at h1
          refine Clean.mk j h1 fun hm k hk => ?_
          exact ih (by rw [e]; exact hm) k (by rw [e]; exact hk) (hapart j hm k hk)
    have htr : ∀ p, (A p ∨ Truth C r w.repo.log w.heap p) → Truth C r w'.repo.log w'.heap p := by
      intro p hp
      by_cases hpA : A p
      · exact htrA p hpA
      · by_cases hpi : p = i
        · subst hpi
          intro _
          exact ⟨_, by rw [hobj], hgi⟩
        · intro hcl
          obtain ⟨ref, h1, h2⟩ := hp.resolve_left hpA (hwas p hcl hpA)
          have e := hold' p hpA hpi
          exact ⟨ref, by rw [e]; exact h1, h2.same_world hlog (by rw [e]) (hlook p hpA)⟩
    refine ⟨⟨hca.trans hs.caches, ?_, ?_, ?_, ?_, ?_, ?_, ?_⟩, htr⟩
    · intro p hp
      by_cases hpA : A p
      · exact (hsameA p hpA).choose_spec.2.2.2.2
      · exact Full.of_same (hlook p hpA) (hs.full p)
    · intro p hp
      by_cases hpA : A p
      · exact htr p (Or.inl hpA)
      · have hpi : p ≠ i := by rintro rfl; rw [hobj] at hp; cases hp
        rw [hold' p hpA hpi] at hp
        exact htr p (Or.inr (hs.truth p hp))
    · obtain ⟨rank, hrk⟩ := hs.ranked
      classical
      refine ⟨fun j => if A j then 0 else rank j + 1, fun p hp k hk => ?_⟩
      have hpA : ¬ A p := fun h => by rw [hmA p h] at hp; cases hp
      simp only [if_neg hpA]
      by_cases hpi : p = i
      · subst hpi
        rw [if_pos (hkid k hk)]
        exact Nat.succ_pos _
      · rw [hold' p hpA hpi] at hp hk
        rw [if_neg (hapart p hp k hk)]
        exact Nat.succ_lt_succ (hrk p hp k hk)
    · intro j x hx
      by_cases hj : j = i
      · subst hj
        rw [hobj, hso] at hx
        rw [hobj]
        simp only at hx ⊢
        split at hx
        · exact ⟨List.mem_singleton.mp hx, trivial⟩
        · exact ⟨(hs.home j x hx).1, trivial⟩
      · by_cases hA : A j
        · obtain ⟨e, _, h1⟩ := hobjA j hA
          rw [h1] at hx ⊢
          unfold Link.obj at hx
          simp only at hx
          split at hx
          · cases hx
          · exact ⟨List.mem_singleton.mp hx, rfl⟩
        · rw [hold' j hA hj] at hx ⊢
          exact hs.home j x hx
    · intro j hj
      have hji : j ≠ i := by rintro rfl; rw [hobj] at hj; cases hj
      by_cases hA : A j
      · obtain ⟨e, _, h1⟩ := hobjA j hA
        rw [h1]; rfl
      · rw [hold' j hA hji] at hj ⊢
        exact hs.away j hj
    · intro p hp k hk
      by_cases hpi : p = i
      · subst hpi; exact (hkid k hk).2
      · have hpA : ¬ A p := fun h => by rw [hmA p h] at hp; cases hp
        rw [hold' p hpA hpi] at hp hk
        exact Nat.lt_of_lt_of_le (hs.kids p hp k hk) hnx
    · intro j hj
      have hji : j ≠ i := by rintro rfl; rw [hobj] at hj; cases hj
      by_cases hA : A j
      · obtain ⟨e, _, h1⟩ := hobjA j hA
        rw [h1]
        exact linkObj_marked hr _
      · rw [hold' j hA hji] at hj ⊢
        exact hs.marked j hj

/-! ### Purging -/

theorem Intact.unload {w : World} (hs : Intact C r w) {i : ObjId} (hci : Clean r w.heap i)
    (ht : Truth C r w.repo.log w.heap i) (ho : OwnName w.heap i) :
    Intact C r (unload i w) ∧ Unloads w (unload i w) ∧
      (∀ j, SameContent C w.repo.log w.heap (.mem j) w.repo.log (unload i w).heap (.mem j)) ∧
      ∀ j, Truth C r w.repo.log w.heap j → Truth C r w.repo.log (unload i w).heap j := by
  have hi' : (MM.unload i w).heap i = { w.heap i with mapped := false, body := (w.heap i).body.purged } := by
    unfold MM.unload; simp
  have hold : ∀ j, j ≠ i → (MM.unload i w).heap j = w.heap j := fun j hj => by
    unfold MM.unload; simp [Heap.set_ne hj]
  have hkind : ((MM.unload i w).heap i).kind = (w.heap i).kind := by
    rw [hi']; unfold Obj.kind Body.purged; exact Data.kind_purged _
  obtain ⟨ref, hf, hg⟩ := ht hci
  have hrl := (hs.home i r hci.flag).2
  have hcont : SameContent C w.repo.log w.heap (.mem i) w.repo.log (MM.unload i w).heap (.mem i) := by
    have h1 := hg.same
    rw [ho ref hf] at h1
    have h2 : SameContent C w.repo.log (MM.unload i w).heap (.mem i) w.repo.log w.heap
        (.sto r ⟨((MM.unload i w).heap i).kind, ref⟩) :=
      look_unloaded (by rw [hi']) (by rw [hi']; exact hrl) (by rw [hi']; exact hf)
    rw [hkind] at h2
    exact h1.trans h2.symm
  have sw : Swap C r (fun _ => False) i w (MM.unload i w) :=
    ⟨rfl, fun j _ hj => hold j hj, fun _ _ _ _ h => h, fun h => h, hcont, hkind,
     iff_of_true hci (Clean.mk i (by rw [hi']; exact hci.flag) (fun h => by rw [hi'] at h; cases h))⟩
  have hun : Unloads w (MM.unload i w) := by
    refine ⟨rfl, rfl, ?_, ?_, ?_, ?_, ?_⟩ <;> intro j <;> by_cases hj : j = i
    · subst hj; rw [hi']
    · rw [hold j hj]
    · subst hj; rw [hi']
    · rw [hold j hj]
    · subst hj; rw [hi']
    · rw [hold j hj]
    · subst hj; exact hkind
    · rw [hold j hj]
    · subst hj; intro h; rw [hi'] at h; cases h
    · rw [hold j hj]; exact fun h => ⟨h, rfl⟩
  have htr : ∀ j, Truth C r w.repo.log w.heap j → Truth C r w.repo.log (MM.unload i w).heap j := by
    intro p hp
    refine sw.truth ?_ hp (fun h => h)
    intro _
    exact ⟨ref, by rw [hi']; exact hf, hg.same_world rfl hkind hcont⟩
  refine ⟨⟨hs.caches, fun p _ => Full.of_same (sw.look (fun h => h)) (hs.full p), ?_, ?_, ?_, ?_, ?_, ?_⟩, hun,
    fun j => sw.look (fun h => h), htr⟩
  · intro p hp
    by_cases hpi : p = i
    · subst hpi; exact htr p ht
    · rw [hold p hpi] at hp; exact htr p (hs.truth p hp)
  · obtain ⟨rank, hrk⟩ := hs.ranked
    refine ⟨rank, fun p hp k hk => ?_⟩
    obtain ⟨g1, g2⟩ := hun.mapped p hp
    rw [g2] at hk
    exact hrk p g1 k hk
  · intro j x hx
    rw [hun.saved] at hx
    rw [hun.realm]
    exact hs.home j x hx
  · intro j hj
    rw [hun.realm]
    by_cases hji : j = i
    · subst hji; exact hrl
    · rw [hold j hji] at hj; exact hs.away j hj
  · intro p hp k hk
    obtain ⟨g1, g2⟩ := hun.mapped p hp
    rw [g2] at hk
    exact hs.kids p g1 k hk
  · intro j hj ref
    rw [hun.saved]
    by_cases hji : j = i
    · subst hji; exact fun _ _ => hci.flag
    · rw [hold j hji] at hj ⊢; exact hs.marked j hj ref

/-- The objects below `i` that pass for saved are stored with the content they have, under references
that name their class, and unloaded objects pass for saved. -/
structure Purgeable (C : Cfg) (r : Realm) (w : World) (i : ObjId) : Prop where
  truth : ∀ j, Reach w.heap i j → Truth C r w.repo.log w.heap j
  named : ∀ j, Reach w.heap i j → OwnName w.heap j
  saved : ∀ j, Reach w.heap i j → (w.heap j).mapped = false → r ∈ (w.heap j).savedOn

/-- What holds after purging. -/
structure Emptied (C : Cfg) (r : Realm) (w w' : World) : Prop where
  intact : Intact C r w'
  unloads : Unloads w w'
  away : ∀ j, (w'.heap j).mapped = false → (w.heap j).mapped = false ∨ r ∈ (w.heap j).savedOn
  look : ∀ j, SameContent C w.repo.log w.heap (.mem j) w.repo.log w'.heap (.mem j)
  truth : ∀ j, Truth C r w.repo.log w.heap j → Truth C r w.repo.log w'.heap j

theorem Emptied.refl {w : World} (hs : Intact C r w) : Emptied C r w w :=
  ⟨hs, Unloads.refl w, fun _ h => Or.inl h, fun _ => SameContent.refl _ _ _ _, fun _ h => h⟩

theorem Emptied.trans {a b c : World} (h : Emptied C r a b) (h' : Emptied C r b c) :
    Emptied C r a c := by
  refine ⟨h'.intact, h.unloads.trans h'.unloads, ?_, fun j => (h.look j).trans ?_, fun j hj => ?_⟩
  · intro j hj
    rcases h'.away j hj with e | e
    · exact h.away j e
    · rw [h.unloads.saved] at e; exact Or.inr e
  · have := h'.look j
    rw [h.unloads.repo] at this
    exact this
  · have := h'.truth j
    rw [h.unloads.repo] at this
    exact this (h.truth j hj)

theorem Purgeable.step {w w' : World} {i : ObjId} (h : Purgeable C r w i) (p : Emptied C r w w') :
    Purgeable C r w' i := by
  refine ⟨fun j hj => ?_, fun j hj => p.unloads.ownName (h.named j (p.unloads.reach hj)), fun j hj hm => ?_⟩
  · rw [p.unloads.repo]; exact p.truth j (h.truth j (p.unloads.reach hj))
  · rw [p.unloads.saved]
    rcases p.away j hm with e | e
    · exact h.saved j (p.unloads.reach hj) e
    · exact e

theorem Intact.purge (n : Nat) : ∀ (i : ObjId) (w : World), Intact C r w → Purgeable C r w i →
    Emptied C r w (MM.purge n i w).2 ∧
      ((MM.purge n i w).1 = .ok () → ((MM.purge n i w).2.heap i).mapped = false) := by
  induction n with
  | zero => intro i w hs _; exact ⟨Emptied.refl hs, by simp [MM.purge]⟩
  | succ n ih =>
    intro i w hs ho
    have hrefl : Emptied C r w w := Emptied.refl hs
    unfold MM.purge
    rw [M.bind_of_ok (getObj_run i w)]
    by_cases hm : (w.heap i).mapped = true
    · rw [if_pos hm]
      by_cases hsv : (w.heap i).savedOn = []
      · rw [if_pos hsv]; exact ⟨hrefl, by simp⟩
      · rw [if_neg hsv]
        split
        · exact ⟨hrefl, by simp⟩
        · have hfl : r ∈ (w.heap i).savedOn := by
            obtain ⟨x, hx⟩ := List.exists_mem_of_ne_nil _ hsv
            obtain ⟨rfl, _⟩ := hs.home i x hx
            exact hx
          -- the parts
          have hlist : ∀ (l : List ObjId) (w1 : World), Intact C r w1 →
              (∀ k ∈ l, Purgeable C r w1 k) →
              Emptied C r w1 (M.forEach (MM.purge n) l w1).2 ∧
                (∀ bs, (M.forEach (MM.purge n) l w1).1 = .ok bs →
                  ∀ k ∈ l, ((M.forEach (MM.purge n) l w1).2.heap k).mapped = false) := by
            intro l
            induction l with
            | nil =>
              intro w1 hs1 _
              exact ⟨Emptied.refl hs1, by simp⟩
            | cons a l ihl =>
              intro w1 hs1 ho1
              rw [M.forEach_cons]
              obtain ⟨h1, h2⟩ := ih a w1 hs1 (ho1 a (List.mem_cons_self ..))
              cases hp : MM.purge n a w1 with
              | mk res w2 =>
                rw [hp] at h1 h2
                cases res with
                | error e => rw [M.bind_of_error hp]; exact ⟨h1, by simp⟩
                | ok u =>
                  rw [M.bind_of_ok hp]
                  obtain ⟨h3, h4⟩ := ihl w2 h1.intact (fun k hk =>
                    (ho1 k (List.mem_cons_of_mem _ hk)).step h1)
                  cases hq : M.forEach (MM.purge n) l w2 with
                  | mk res3 w3 =>
                    rw [hq] at h3 h4
                    cases res3 with
                    | error e => rw [M.bind_of_error hq]; exact ⟨h1.trans h3, by simp⟩
                    | ok us =>
                      rw [M.bind_of_ok hq]
                      refine ⟨h1.trans h3, ?_⟩
                      intro bs _ k hk
                      rcases List.mem_cons.mp hk with e | e
                      · subst e
                        have := h2 rfl
                        cases hmk : (w3.heap k).mapped with
                        | false => exact hmk
                        | true => rw [(h3.unloads.mapped k hmk).1] at this; cases this
                      · exact h4 us rfl k e
          have hkid : ∀ k ∈ (w.heap i).body.subs, Purgeable C r w k := fun k hk =>
            ⟨fun j hr => ho.truth j (Reach.step i k j hm hk hr), fun j hr => ho.named j (Reach.step i k j hm hk hr),
              fun j hr => ho.saved j (Reach.step i k j hm hk hr)⟩
          obtain ⟨h1, h2⟩ := hlist (w.heap i).body.subs w hs hkid
          cases hp : M.forEach (MM.purge n) (w.heap i).body.subs w with
          | mk res w2 =>
            rw [hp] at h1 h2
            cases res with
            | error e => rw [M.bind_of_error hp]; exact ⟨h1, by simp⟩
            | ok us =>
              rw [M.bind_of_ok hp, updObj_run]
              have ho2 := ho.step h1
              have hci : Clean r w2.heap i := by
                refine Clean.mk i (by rw [h1.unloads.saved]; exact hfl) fun hm2 k hk => ?_
                refine Intact.clean_away (h2 us rfl k ?_) ?_
                · rw [(h1.unloads.mapped i hm2).2] at hk; exact hk
                · refine ho2.saved k (Reach.step i k k hm2 hk (Reach.refl k)) (h2 us rfl k ?_)
                  rw [(h1.unloads.mapped i hm2).2] at hk; exact hk
              obtain ⟨g1, g2, g3, g4⟩ := h1.intact.unload hci (ho2.truth i (Reach.refl i))
                (ho2.named i (Reach.refl i))
              refine ⟨h1.trans ⟨g1, g2, ?_, g3, g4⟩, fun _ => ?_⟩
              · intro j hj
                by_cases hji : j = i
                · subst hji; exact Or.inr (by rw [h1.unloads.saved]; exact hfl)
                · left
                  rw [← hj]
                  simp [Heap.set_ne hji]
              · simp
    · rw [if_neg hm]
      exact ⟨hrefl, fun _ => by simpa using hm⟩

/-! ### Changing -/

theorem Intact.edit {w : World} (hs : Intact C r w) {i : ObjId} {b : Body ObjId}
    (hm : (w.heap i).mapped = true) (hkids : ∀ k ∈ b.subs, k < w.next)
    (hac : ∀ k ∈ b.subs, ¬ Reach (edit i b w).heap k i) :
    Intact C r (MM.edit i b w) ∧
      ∀ j, Truth C r w.repo.log w.heap j → Truth C r w.repo.log (MM.edit i b w).heap j := by
  have hmapped : ∀ j, ((MM.edit i b w).heap j).mapped = (w.heap j).mapped := by
    intro j
    by_cases hj : j = i
    · subst hj; rw [edit_self]
    · rw [edit_ne b w hj]
  have htr : ∀ j, Truth C r w.repo.log w.heap j → Truth C r w.repo.log (MM.edit i b w).heap j := by
    intro p hp hc
    have hnr := clean_edit hc
    have hpi : p ≠ i := by rintro rfl; exact hnr (Reach.refl _)
    obtain ⟨ref, h1, h2⟩ := hp (clean_of_edit hc)
    refine ⟨ref, by rw [edit_ne b w hpi]; exact h1, ?_⟩
    exact h2.same_world rfl (by rw [edit_ne b w hpi]) (look_edit hnr)
  refine ⟨⟨hs.caches, ?_, ?_, ?_, ?_, ?_, ?_, ?_⟩, htr⟩
  · intro p hp
    refine Full.of_same (look_edit ?_) (hs.full p)
    intro h
    cases h with
    | refl => rw [hmapped, hm] at hp; cases hp
    | step _ k _ hmp => rw [hp] at hmp; cases hmp
  · intro p hp
    rw [hmapped] at hp
    exact htr p (hs.truth p hp)
  · obtain ⟨rank, hrk⟩ := hs.ranked
    classical
    refine ⟨fun j => rank j + if Reach (MM.edit i b w).heap j i then rankSum rank b.subs + 1 else 0, ?_⟩
    intro p hp k hk
    by_cases hpi : p = i
    · subst hpi
      rw [edit_self] at hk
      simp only at hk ⊢
      rw [if_neg (hac k hk), if_pos (Reach.refl _)]
      have := le_rankSum (rank := rank) hk
      oomega
    · have h1 := hp
      have h2 := hk
      rw [edit_ne b w hpi] at h1 h2
      have h3 := hrk p h1 k h2
      simp only
      by_cases hkr : Reach (MM.edit i b w).heap k i
      · rw [if_pos hkr, if_pos (Reach.step p k i hp hk hkr)]
        exact Nat.add_lt_add_right h3 _
      · rw [if_neg hkr]
        exact Nat.lt_of_lt_of_le h3 (Nat.le_add_right _ _)
  · intro j x hx
    by_cases hj : j = i
    · subst hj; rw [edit_self] at hx; cases hx
    · rw [edit_ne b w hj] at hx ⊢; exact hs.home j x hx
  · intro j hj
    rw [hmapped] at hj
    have hji : j ≠ i := by rintro rfl; rw [hm] at hj; cases hj
    rw [edit_ne b w hji]
    exact hs.away j hj
  · intro p hp k hk
    by_cases hpi : p = i
    · subst hpi; rw [edit_self] at hk; exact hkids k hk
    · rw [edit_ne b w hpi] at hp hk
      exact hs.kids p hp k hk
  · intro j hj
    rw [hmapped] at hj
    have hji : j ≠ i := by rintro rfl; rw [hm] at hj; cases hj
    rw [edit_ne b w hji]
    exact hs.marked j hj

/-! ### New objects -/

theorem Intact.create {w : World} (hs : Intact C r w) {o : Obj}
    (hkids : o.mapped = true → ∀ k ∈ o.body.subs, k < w.next)
    (hhome : ∀ x ∈ o.savedOn, x = r ∧ o.realm = some r) (haway : o.mapped = false → o.realm = some r)
    (hfull : o.mapped = false → Full C w.repo.log (create o w).heap (.mem w.next))
    (hmark : o.mapped = false → ∀ ref, o.ref = some ref → ref.isNone = false → r ∈ o.savedOn)
    (htruth : Truth C r w.repo.log (create o w).heap w.next) :
    Intact C r (create o w) ∧
      ∀ j, (j = w.next ∨ Truth C r w.repo.log w.heap j) → Truth C r w.repo.log (MM.create o w).heap j := by
  have hfr := fun {j} => look_create_of (C := C) (j := j) hs.kids o
  have htr : ∀ j, (j = w.next ∨ Truth C r w.repo.log w.heap j) → Truth C r w.repo.log (MM.create o w).heap j := by
    intro p ht
    by_cases hp : p = w.next
    · subst hp; exact htruth
    · intro hc
      obtain ⟨ref, h1, h2⟩ := ht.resolve_left hp (clean_of_create_of hs.kids o hc hp)
      refine ⟨ref, by rw [create_ne o w hp]; exact h1, ?_⟩
      exact h2.same_world rfl (by rw [create_ne o w hp]) (hfr hp)
  refine ⟨⟨hs.caches, ?_, ?_, ?_, ?_, ?_, ?_, ?_⟩, htr⟩
  · intro p hp
    by_cases hpn : p = w.next
    · subst hpn; rw [create_self] at hp; exact hfull hp
    · exact Full.of_same (hfr hpn) (hs.full p)
  · intro p hp
    by_cases hpn : p = w.next
    · exact htr p (Or.inl hpn)
    · rw [create_ne o w hpn] at hp; exact htr p (Or.inr (hs.truth p hp))
  · obtain ⟨rank, hrk⟩ := hs.ranked
    refine ⟨fun j => if j = w.next then rankSum rank o.body.subs + 1 else rank j, fun p hp k hk => ?_⟩
    by_cases hpn : p = w.next
    · subst hpn
      rw [create_self] at hp hk
      simp only [if_true]
      rw [if_neg (Nat.ne_of_lt (hkids hp k hk))]
      exact Nat.lt_succ_of_le (le_rankSum hk)
    · rw [create_ne o w hpn] at hp hk
      simp only [if_neg hpn, if_neg (Nat.ne_of_lt (hs.kids p hp k hk))]
      exact hrk p hp k hk
  · intro j x hx
    by_cases hj : j = w.next
    · subst hj; rw [create_self] at hx ⊢; exact hhome x hx
    · rw [create_ne o w hj] at hx ⊢; exact hs.home j x hx
  · intro j hj
    by_cases hjn : j = w.next
    · subst hjn; rw [create_self] at hj ⊢; exact haway hj
    · rw [create_ne o w hjn] at hj ⊢; exact hs.away j hj
  · intro p hp k hk
    show k < w.next + 1
    by_cases hpn : p = w.next
    · subst hpn; rw [create_self] at hp hk; exact Nat.lt_succ_of_lt (hkids hp k hk)
    · rw [create_ne o w hpn] at hp hk; exact Nat.lt_succ_of_lt (hs.kids p hp k hk)
  · intro j hj
    by_cases hjn : j = w.next
    · subst hjn; rw [create_self] at hj ⊢; exact hmark hj
    · rw [create_ne o w hjn] at hj ⊢; exact hs.marked j hj

/-- An object for a reference to something stored. -/
theorem Intact.load {w : World} (hr : r ≠ []) (hs : Intact C r w) {l : Link} (hok : l.ref.isNone = false → RefOk l.kind l.ref)
    (hfull : Full C w.repo.log w.heap (.sto r l)) :
    Intact C r (MM.create (l.obj r) w) ∧ ∀ j, (j = w.next ∨ Truth C r w.repo.log w.heap j) →
      Truth C r w.repo.log (MM.create (l.obj r) w).heap j := by
  have hself := create_self (l.obj r) w
  have hsame : SameContent C w.repo.log (MM.create (l.obj r) w).heap (.mem w.next) w.repo.log
      (MM.create (l.obj r) w).heap (.sto r l) := by
    have := look_unloaded (C := C) (L := w.repo.log) (h := (MM.create (l.obj r) w).heap)
      (h' := (MM.create (l.obj r) w).heap) (i := w.next) (r := r) (ref := l.ref)
      (by rw [hself]; rfl) (by rw [hself]; rfl) (by rw [hself]; rfl)
    rw [hself, kind_linkObj] at this
    exact this
  have hf : Full C w.repo.log (MM.create (l.obj r) w).heap (.mem w.next) :=
    Full.of_same hsame.symm (Full.of_same (look_sto_heap r l) hfull)
  refine hs.create ?_ ?_ ?_ (fun _ => hf) (fun _ => linkObj_marked hr l) ?_
  · intro h; cases h
  · intro x hx
    unfold Link.obj at hx
    simp only at hx
    split at hx
    · cases hx
    · exact ⟨List.mem_singleton.mp hx, rfl⟩
  · intro _; rfl
  · intro hcl
    have hn : l.ref.isNone = false := by
      have := hcl.flag
      rw [hself] at this
      cases hx : l.ref.isNone with
      | false => rfl
      | true => unfold Link.obj at this; rw [hx] at this; simp at this
    have hnorm : normRef l.kind l.ref = l.ref := by
      by_cases hk : l.kind = .tvl
      · obtain ⟨b, hb⟩ := view_ok_of_look (hfull [] [])
        obtain ⟨a, ha, _⟩ := view_sto.mp hb
        have hf := (strictFetch_ok ha).1
        unfold fetch at hf
        rw [if_neg (by simp [hn])] at hf
        split at hf
        · rename_i hacc
          rw [hk] at hacc
          unfold normRef
          rw [if_pos hk, hk]
          have : l.ref.cls = Kind.tvl.name := by simpa [Kind.accepts, Kind.isMtree] using hacc
          rw [← this]
        · cases hf
      · exact normRef_ne hk _
    refine ⟨l.ref, by rw [hself]; rfl, ?_, hf, ?_⟩
    · rw [hself, kind_linkObj]; exact hok hn
    · rw [hself, kind_linkObj, hnorm]; exact hsame

/-! ### Changes by others -/

theorem Intact.named_kept {w : World} (hs : Intact C r w) {L : Log} (hn : ∀ n, refOf L r n = refOf w.repo.log r n) :
    HeapKept w.repo.log L w.heap := by
  intro j x ref loc hm hx _ _ _
  have := hs.away j hm
  rw [hx] at this
  cases this
  exact Or.inr (hn loc)

theorem Intact.outside_look {w : World} (hs : Intact C r w) {L : Log} {fs : List Fault}
    (hg : Grows w.repo.log L) (hn : ∀ n, refOf L r n = refOf w.repo.log r n)
    (hc : CollisionFree C L) (j : ObjId) :
    SameContent C w.repo.log w.heap (.mem j) L (outside L fs w).heap (.mem j) := fun ks t =>
  (look_mem_mono hg hc (hs.named_kept hn) (fun _ => SameObj.refl _) ks t j
    (hs.full j ks t)).symm

theorem Intact.outside {w : World} (hs : Intact C r w) {L : Log} {fs : List Fault}
    (hg : Grows w.repo.log L) (hn : ∀ n, refOf L r n = refOf w.repo.log r n)
    (hc : CollisionFree C L) : Intact C r (outside L fs w) ∧
      ∀ j, Truth C r w.repo.log w.heap j → Truth C r L w.heap j := by
  have htr : ∀ j, Truth C r w.repo.log w.heap j → Truth C r L w.heap j := by
    intro p ht hcl
    obtain ⟨ref, h1, h2⟩ := ht hcl
    exact ⟨ref, h1, h2.mono hg hc (hs.named_kept hn)
      (fun _ => SameObj.refl _) (fun loc _ _ => Or.inr (hn loc))⟩
  exact ⟨⟨hs.caches, fun p _ => Full.of_same (hs.outside_look (fs := fs) hg hn hc p) (hs.full p),
    fun p hp => htr p (hs.truth p hp), hs.ranked, hs.home, hs.away, hs.kids, hs.marked⟩, htr⟩

/-! ### Work with other repositories -/

/-- What code that works with other repositories, or copies to this one, changes: loaded objects stay,
unloaded ones stand for the same, and names stay from which something was read. -/
structure Around (C : Cfg) (r : Realm) (w w' : World) : Prop where
  next : w.next ≤ w'.next
  caches : w'.caches = []
  grows : Grows w.repo.log w'.repo.log
  names : ∀ n, refOf w'.repo.log r n = refOf w.repo.log r n ∨ NoReader r w.heap n
  unique : w'.repo.log = w.repo.log ∨ CollisionFree C w'.repo.log
  loaded : ∀ j, (w.heap j).mapped = true → w'.heap j = w.heap j
  away : ∀ j, (w.heap j).mapped = false → AwayKept (w.heap j) (w'.heap j)

theorem Intact.around_look {w w' : World} (hs : Intact C r w) (h : Around C r w w') (j : ObjId) :
    SameContent C w.repo.log w.heap (.mem j) w'.repo.log w'.heap (.mem j) := by
  have h1 : ∀ j, SameContent C w.repo.log w.heap (.mem j) w.repo.log w'.heap (.mem j) := by
    intro j ks t
    refine look_congr (fun _ => True) ?_ ks t (.mem j) trivial
    intro n _
    cases n with
    | sto r l => exact Or.inl (look_sto_heap r l)
    | mem j =>
      refine Or.inr ⟨?_, fun _ _ _ _ => trivial⟩
      cases hm : (w.heap j).mapped with
      | true => simp only [view, h.loaded j hm]
      | false =>
        obtain ⟨ref, a, e1, e2, e3⟩ := hs.fetched hm
        have ha := h.away j hm
        obtain ⟨ref', f1, f2⟩ := ha.ref
        rw [e1] at f1
        injection f1 with f1
        subst f1
        rw [e3]
        symm
        have hre := ha.realm.trans (hs.away j hm)
        rcases f2 with f2 | f2
        · exact (view_away ha.mapped).mpr ⟨r, _, a, hre, f2, by rw [ha.kind]; exact e2, rfl⟩
        · exact (view_away ha.mapped).mpr ⟨r, _, a, hre, f2, by rw [ha.kind]; exact strictFetch_canon e2, rfl⟩
  have hf : ∀ j, Full C w.repo.log w'.heap (.mem j) := fun j => Full.of_same (h1 j) (hs.full j)
  rcases h.unique with hl | hc
  · rw [hl]; exact h1 j
  · refine (h1 j).trans fun ks t => (look_mem_mono h.grows hc ?_ (fun _ => SameObj.refl _) ks t j (hf j ks t)).symm
    intro j x ref loc hm hx hf hl _
    have hm0 : (w.heap j).mapped = false := by
      cases e : (w.heap j).mapped with
      | false => rfl
      | true => rw [h.loaded j e, e] at hm; cases hm
    have ha := h.away j hm0
    rw [ha.realm, hs.away j hm0] at hx
    cases hx
    rcases h.names loc with e | e
    · exact Or.inr e
    · obtain ⟨ref', f1, f2⟩ := ha.ref
      refine absurd (hs.away j hm0) (e j ref' f1 ?_).2
      rcases f2 with f2 | f2 <;> rw [hf] at f2 <;> injection f2 with f2 <;> rw [f2] at hl <;> exact hl

theorem Intact.around {w w' : World} (hs : Intact C r w) (h : Around C r w w') : Intact C r w' := by
  have was : ∀ j, (w'.heap j).mapped = false → (w.heap j).mapped = false := by
    intro j hm
    cases e : (w.heap j).mapped with
    | false => rfl
    | true => rw [h.loaded j e, e] at hm; cases hm
  have is : ∀ j, (w'.heap j).mapped = true → (w.heap j).mapped = true ∧ w'.heap j = w.heap j := by
    intro j hm
    cases e : (w.heap j).mapped with
    | false => rw [(h.away j e).mapped] at hm; cases hm
    | true => exact ⟨rfl, h.loaded j e⟩
  have hfull : ∀ j, Full C w'.repo.log w'.heap (.mem j) := fun j => Full.of_same (hs.around_look h j) (hs.full j)
  have refs : ∀ j, (w.heap j).mapped = false → ∃ ref, (w.heap j).ref = some ref ∧ ∃ ref', (w'.heap j).ref = some ref' ∧
      ref'.loc = ref.loc ∧ (ref' = ref ∨ ref' = ⟨(w.heap j).kind.name, ref.loc⟩) := by
    intro j hm
    obtain ⟨ref, f1, f2⟩ := (h.away j hm).ref
    rcases f2 with f2 | f2
    · exact ⟨ref, f1, _, f2, rfl, Or.inl rfl⟩
    · exact ⟨ref, f1, _, f2, rfl, Or.inr rfl⟩
  refine ⟨h.caches, fun p _ => hfull p, ?_, ?_, ?_, ?_, ?_, ?_⟩
  · intro p hm hcl
    have hm0 := was p hm
    have ha := h.away p hm0
    obtain ⟨ref, e1, ref', e2, e3, e4⟩ := refs p hm0
    have hsv := ha.only r hcl.flag
    obtain ⟨ref0, g1, g2⟩ := hs.truth p hm0 (Intact.clean_away hm0 hsv)
    rw [e1] at g1
    injection g1 with g1
    subst g1
    refine ⟨ref', e2, ?_, hfull p, ?_⟩
    · rw [ha.kind]
      rcases e4 with e4 | e4
      · rw [e4]; exact g2.ok
      · rw [e4]; exact ⟨g2.ok.loc, fun hk => by rw [hk]; exact Or.inl rfl⟩
    · have h1 := look_unloaded (C := C) (L := w'.repo.log) (h := w'.heap) (h' := w'.heap) hm (ha.realm.trans (hs.away p hm0)) e2
      by_cases hk : (w'.heap p).kind = .tvl
      · refine h1.trans (look_congr_view ?_)
        obtain ⟨b, hb⟩ := (Full.of_same h1 (hfull p)).view_ok
        rw [hb]
        obtain ⟨a, ha', rfl⟩ := view_sto.mp hb
        symm
        refine view_sto.mpr ⟨a, ?_, rfl⟩
        have := strictFetch_canon ha'
        unfold normRef
        rw [if_pos hk]
        exact this
      · rw [normRef_ne hk]; exact h1
  · obtain ⟨rank, hrk⟩ := hs.ranked
    refine ⟨rank, fun p hp k hk => ?_⟩
    obtain ⟨g1, g2⟩ := is p hp
    rw [g2] at hk
    exact hrk p g1 k hk
  · intro j x hx
    cases hm : (w.heap j).mapped with
    | true => rw [h.loaded j hm] at hx ⊢; exact hs.home j x hx
    | false =>
      have ha := h.away j hm
      rw [ha.realm]
      exact hs.home j x (ha.only x hx)
  · intro j hm
    rw [(h.away j (was j hm)).realm]
    exact hs.away j (was j hm)
  · intro p hp k hk
    obtain ⟨g1, g2⟩ := is p hp
    rw [g2] at hk
    exact Nat.lt_of_lt_of_le (hs.kids p g1 k hk) h.next
  · intro j hm ref' hf hn
    have hm0 := was j hm
    obtain ⟨ref, e1, ref2, e2, e3, _⟩ := refs j hm0
    rw [e2] at hf
    injection hf with hf
    subst hf
    refine (h.away j hm0).marks r (hs.away j hm0) (hs.marked j hm0 ref e1 ?_)
    unfold Ref.isNone at hn ⊢
    rw [← e3]; exact hn

/-- An unloaded object for something stored, as copying to the repository gives it -/
theorem Intact.copied {w : World} (hs : Intact C r w) {o : Obj} {ref : Ref} (hm : o.mapped = false)
    (hre : o.realm = some r) (hf : o.ref = some ref) (hok : RefOk o.kind ref) (hk : o.kind ≠ .tvl)
    (hsv : r ∈ o.savedOn) (hon : ∀ x ∈ o.savedOn, x = r) (hfull : Full C w.repo.log w.heap (.sto r ⟨o.kind, ref⟩)) :
    Intact C r (MM.create o w) := by
  have hself := create_self o w
  have hsame : SameContent C w.repo.log (MM.create o w).heap (.mem w.next) w.repo.log
      (MM.create o w).heap (.sto r ⟨o.kind, ref⟩) := by
    have := look_unloaded (C := C) (L := w.repo.log) (h := (MM.create o w).heap)
      (h' := (MM.create o w).heap) (i := w.next) (r := r) (ref := ref)
      (by rw [hself]; exact hm) (by rw [hself]; exact hre) (by rw [hself]; exact hf)
    rw [hself] at this
    exact this
  have hf' : Full C w.repo.log (MM.create o w).heap (.mem w.next) :=
    Full.of_same hsame.symm (Full.of_same (look_sto_heap r _) hfull)
  refine (hs.create (fun h => by rw [hm] at h; cases h) (fun x hx => ⟨hon x hx, hre⟩) (fun _ => hre) (fun _ => hf')
    (fun _ _ _ _ => hsv) fun _ => ⟨ref, by rw [hself]; exact hf, by rw [hself]; exact hok, hf', ?_⟩).1
  rw [hself, normRef_ne hk]; exact hsame

/-! ### Writing -/

theorem writeAs_only {T : ObjId → Prop} {nm : Option Str} (hr : r ≠ []) (via : Via) (n : Nat) (force : Bool)
    (i : ObjId) (hi : T i) : M.Keeps (writeAs C via n (some r) force i) (Only r T nm) := by
  have g := gentle_only C r T nm
  have main := writeOut_only (C := C) (T := T) (nm := nm) hr n force i hi
  cases via with
  | own => exact main
  | dataset => exact g.proxyWrite main
  | file =>
    intro w
    show Only r T nm w (writeFileTree C n (some r) force i w).2
    rw [writeFileTree_eq hr]
    exact g.fileTreeWrite main w

/-- What a write of `i` changed, whatever the outcome. -/
structure Tried (r : Realm) (i : ObjId) (w w' : World) : Prop where
  any : Any r w w'
  limits : Limits r (Reach w.heap i) (pubName (w.heap i).kind) w w'
  away : (w.heap i).mapped = false → ∀ x n, refOf w'.repo.log x n = refOf w.repo.log x n

theorem writeAs_tried (hr : r ≠ []) (via : Via) (n : Nat) (force : Bool) (i : ObjId) (w : World)
    (hsto : Storable w.heap i) : Tried r i w (writeAs C via n (some r) force i w).2 :=
  have h := writeAs_only (C := C) (T := Reach w.heap i) (nm := pubName (w.heap i).kind) hr via n force i (Reach.refl i) w
  ⟨h.1, h.2 (names_reach hsto), fun hm => (writeAs_away_silent (C := C) hr via n force i w hm).refs⟩

/-- Objects that share nothing with what was written -/
def SharesNothing (h : Heap) (i j : ObjId) : Prop := ∀ k, Reach h j k → Reach h i k → (h k).mapped = false

theorem Tried.kept {i : ObjId} {w w' : World} (t : Tried r i w w') (hal : Alone r w.heap i)
    {p : ObjId} {x : Realm} {ref : Ref} {loc : Str} (hm : (w.heap p).mapped = false) (hx : (w.heap p).realm = some x)
    (hf : (w.heap p).ref = some ref) (hl : ref.loc = some loc) : LocKept w.repo.log w'.repo.log x loc := by
  by_cases hpi : p = i
  · subst hpi; exact Or.inr (t.away hm x loc)
  · rcases t.limits.refs x loc with ⟨rfl, e⟩ | e
    · rcases (hal loc e p hpi ref hf hl).2 with e' | e'
      · rw [hm] at e'; cases e'
      · exact absurd hx e'
    · exact Or.inr e

theorem Tried.clean {i j : ObjId} {w w' : World} (t : Tried r i w w') (hd : SharesNothing w.heap i j)
    (hc : Clean r w'.heap j) : Clean r w.heap j := by
  induction hc with
  | mk j h1 h2 ih =>
    have e : w'.heap j = w.heap j := by
      refine t.limits.out j ?_
      by_cases hj : Reach w.heap i j
      · exact Or.inr (hd j (Reach.refl j) hj)
      · exact Or.inl hj
    rw [e] at h1
    refine Clean.mk j h1 fun hm k hk => ?_
    exact ih (by rw [e]; exact hm) k (by rw [e]; exact hk) fun x hx => hd x (Reach.step j k x hm hk hx)

theorem Intact.grows {w w' : World} (hs : Intact C r w) (any : Any r w w') (hca : w'.caches = []) :
    Grows w.repo.log w'.repo.log := by
  have := any.grows (by rw [hs.caches]; exact List.nodup_nil)
  unfold World.eff at this
  rw [hca, hs.caches] at this
  exact this

/-- Writing keeps the content of all objects, whatever the outcome. -/
theorem Intact.write_look {w w' : World} (hs : Intact C r w) {i : ObjId} (t : Tried r i w w') (hca : w'.caches = [])
    (hc : CollisionFree C w'.repo.log) (hal : Alone r w.heap i) (j : ObjId) :
    SameContent C w.repo.log w.heap (.mem j) w'.repo.log w'.heap (.mem j) := by
  intro ks t'
  exact (look_mem_mono (hs.grows t.any hca) hc (fun p x ref loc hm hx hf hl _ => t.kept hal hm hx hf hl)
    t.any.same ks t' j (hs.full j ks t')).symm

/-- Of the objects outside of the written one, those keep being what they pass for that were saved
before, or that share nothing with it. -/
theorem Intact.write_truth {w w' : World} (hs : Intact C r w) {i : ObjId} (t : Tried r i w w') (hca : w'.caches = [])
    (hc : CollisionFree C w'.repo.log) (hal : Alone r w.heap i) {j : ObjId} (ht : Truth C r w.repo.log w.heap j)
    (hj : (Clean r w.heap j ∧ (Reach w.heap i j → (w.heap j).mapped = false)) ∨ SharesNothing w.heap i j) :
    Truth C r w'.repo.log w'.heap j := by
  intro hcl
  have hcl0 : Clean r w.heap j := by
    rcases hj with hj | hj
    · exact hj.1
    · exact t.clean hj hcl
  have hout : Reach w.heap i j → (w.heap j).mapped = false := by
    rcases hj with hj | hj
    · exact hj.2
    · exact hj j (Reach.refl j)
  have e : w'.heap j = w.heap j := by
    refine t.limits.out j ?_
    by_cases h : Reach w.heap i j
    · exact Or.inr (hout h)
    · exact Or.inl h
  obtain ⟨ref, h1, h2⟩ := ht hcl0
  refine ⟨ref, by rw [e]; exact h1, h2.mono (hs.grows t.any hca) hc
    (fun p x ref loc hm hx hf hl _ => t.kept hal hm hx hf hl) t.any.same ?_⟩
  intro loc hl _
  by_cases hm : (w.heap j).mapped = false
  · exact t.kept hal hm (hs.home j r hcl0.flag).2 h1 hl
  · have hji : j ≠ i := by rintro rfl; exact hm (hout (Reach.refl j))
    rcases t.limits.refs r loc with ⟨_, e'⟩ | e'
    · exact absurd hcl0.flag (hal loc e' j hji ref h1 hl).1
    · exact Or.inr e'

/-- Writing, whatever the outcome -/
theorem Intact.write {w w' : World} (hs : Intact C r w) {i : ObjId} (t : Tried r i w w') (hca : w'.caches = [])
    (hc : CollisionFree C w'.repo.log) (hal : Alone r w.heap i) : Intact C r w' := by
  refine ⟨hca, ?_, ?_, ?_, ?_, ?_, ?_, ?_⟩
  · intro p hp
    exact Full.of_same (hs.write_look t hca hc hal p) (hs.full p)
  · intro p hp
    rw [(t.any.same p).mapped] at hp
    have hd : SharesNothing w.heap i p := by
      intro k hk _
      cases hk with
      | refl => exact hp
      | step _ k _ hm => rw [hp] at hm; cases hm
    exact hs.write_truth t hca hc hal (hs.truth p hp) (Or.inr hd)
  · obtain ⟨rank, hrk⟩ := hs.ranked
    exact ⟨rank, hrk.mono t.any.same⟩
  · intro j x hx
    by_cases hxr : x = r
    · subst hxr
      refine ⟨rfl, ?_⟩
      rcases t.any.home j hx with e | e
      · have := (hs.home j x e).2
        rcases t.any.realm j with e' | e'
        · rw [e', this]
        · exact e'
      · exact e
    · exact absurd (hs.home j x (t.any.other j x hxr hx)).1 hxr
  · intro j hj
    rw [(t.any.same j).mapped] at hj
    rw [((t.any.same j).away hj).1]
    exact hs.away j hj
  · intro p hp k hk
    rw [(t.any.same p).mapped] at hp
    rw [(t.any.same p).body] at hk
    rw [t.any.next]
    exact hs.kids p hp k hk
  · intro j hj
    rw [(t.any.same j).mapped] at hj
    rw [t.limits.out j (Or.inr hj)]
    exact hs.marked j hj

/-- What passes for saved below `i` is stored with the content it has. -/
def Trusted (C : Cfg) (r : Realm) (w : World) (i : ObjId) : Prop :=
  ∀ j, Reach w.heap i j → Truth C r w.repo.log w.heap j

/-- Below `i`, a modified part of an object that is marked as saved is part of no other object. -/
def Owned (r : Realm) (h : Heap) (i : ObjId) : Prop :=
  ∀ p, Reach h i p → r ∈ (h p).savedOn → (h p).mapped = true → ∀ k ∈ (h p).body.subs, ¬ Clean r h k →
    ∀ q, Reach h i q → (h q).mapped = true → k ∈ (h q).body.subs → q = p

/-- The objects that are written with `i`; the others may be anything. -/
def Scope.below (h : Heap) (i : ObjId) : Scope := ⟨fun p => ¬ Reach h i p, Reach h i⟩

theorem scope_at {w : World} {rank : ObjId → Nat} (hrk : Ranked rank w.heap) (i : ObjId) (ho : Owned r w.heap i) :
    ∃ rank', rank' i = rank i ∧ Ranked rank' w.heap ∧ Shape r (Scope.below w.heap i) w.heap ∧
      Entry r rank' (Scope.below w.heap i) w.heap i := by
  have hcl : ∀ p, Reach w.heap i p → (w.heap p).mapped = true → ∀ k ∈ (w.heap p).body.subs, Reach w.heap i k :=
    fun p hp hm k hk => hp.trans (Reach.step p k k hm hk (Reach.refl k))
  classical
  refine ⟨fun p => if Reach w.heap i p then rank p else rank p + rank i + 1, if_pos (Reach.refl i), ?_, ⟨hcl, ?_, ?_⟩, ⟨Reach.refl i, ?_, ?_⟩⟩
  · intro p hm k hk
    have h1 := hrk p hm k hk
    simp only
    by_cases hp : Reach w.heap i p
    · rw [if_pos hp, if_pos (hcl p hp hm k hk)]; exact h1
    · rw [if_neg hp]
      split <;> omega
  · intro p hp _ hm k hk hk'
    exact hp fun h => hk' (hcl p h hm k hk)
  · intro p hp h1 h2 k hk hn q hq hmq hkq
    exact ho p (Classical.not_not.mp hp) h1 h2 k hk hn q hq hmq hkq
  · intro s hs'
    rw [if_pos (Reach.refl i), if_neg hs']
    omega
  · intro p hp _ hm hk
    have h1 := hrk p hm i hk
    rcases hrk.reach (Classical.not_not.mp hp) with e | e
    · subst e; exact absurd h1 (Nat.lt_irrefl _)
    · exact absurd (Nat.lt_trans h1 e) (Nat.lt_irrefl _)

theorem Intact.scope {w : World} (hs : Intact C r w) (i : ObjId) (ho : Owned r w.heap i) :
    ∃ rank, Ranked rank w.heap ∧ Shape r (Scope.below w.heap i) w.heap ∧
      Entry r rank (Scope.below w.heap i) w.heap i := by
  obtain ⟨rank, hrk⟩ := hs.ranked
  obtain ⟨rank', _, h⟩ := scope_at hrk i ho
  exact ⟨rank', h⟩

/-- Writing an object succeeds. -/
theorem Intact.post {w w' : World} (hs : Intact C r w) (hr : r ≠ []) {via : Via} {n : Nat} {force : Bool}
    {i : ObjId} {ref : Ref} (h : writeAs C via n (some r) force i w = (.ok ref, w'))
    (hc : CollisionFree C w'.repo.log) (hsto : Storable w.heap i) (hal : Alone r w.heap i)
    (ht : Trusted C r w i) (ho : Owned r w.heap i) :
    ∃ rank, Post C r rank (Scope.below w.heap i) n i ref w w' := by
  obtain ⟨rank, hrk, hsh, hen⟩ := hs.scope i ho
  exact ⟨rank, writeAs_post hs.caches hr h hc hsto hal (fun p hp => ht p (Classical.not_not.mp hp)) hrk hsh hen⟩

/-- What is known after an object was written. -/
structure WriteDone (C : Cfg) (r : Realm) (i : ObjId) (ref : Ref) (w w' : World) : Prop where
  tried : Tried r i w w'
  caches : w'.caches = []
  intact : Intact C r w'
  look : ∀ j, SameContent C w.repo.log w.heap (.mem j) w'.repo.log w'.heap (.mem j)
  trusted : Trusted C r w' i
  owned : Owned r w'.heap i
  clean : Clean r w'.heap i
  hasRef : (w'.heap i).ref = some ref
  good : Good C r w'.repo.log w'.heap i ref

theorem Intact.done {w w' : World} (hs : Intact C r w) (hr : r ≠ []) {via : Via} {n : Nat} {force : Bool}
    {i : ObjId} {ref : Ref} (h : writeAs C via n (some r) force i w = (.ok ref, w'))
    (hc : CollisionFree C w'.repo.log) (hsto : Storable w.heap i) (hal : Alone r w.heap i)
    (ht : Trusted C r w i) (ho : Owned r w.heap i) : WriteDone C r i ref w w' := by
  obtain ⟨rank, post⟩ := hs.post hr h hc hsto hal ht ho
  have hca := caches_writeAs h hs.caches
  have t := writeAs_tried (C := C) hr via n force i w hsto
  rw [h] at t
  have heff : w'.eff = w'.repo.log := by unfold World.eff; rw [hca]; rfl
  have hg := post.good
  rw [heff] at hg
  have hre : ∀ j, Reach w'.heap i j → Reach w.heap i j := fun j hj => hj.mono t.any.same
  refine ⟨t, hca, hs.write t hca hc hal, hs.write_look t hca hc hal, ?_, ?_, clean_of_isSavedOn post.saved, post.hasRef, hg⟩
  · intro j hj
    rw [← heff]
    exact post.truth j (Classical.not_not.mpr (hre j hj))
  · intro p hp h1 h2 k hk hn q hq
    exact post.shape.alone p (Classical.not_not.mpr (hre p hp)) h1 h2 k hk hn q (hre q hq)

/-- After an object was written, the repository holds its content under the returned reference. -/
theorem Intact.read_back {w w' : World} (hs : Intact C r w) {i : ObjId} {ref : Ref} (d : WriteDone C r i ref w w')
    (h0 : Heap) :
    SameContent C w.repo.log w.heap (.mem i) w'.repo.log h0
        (.sto r ⟨(w.heap i).kind, normRef (w.heap i).kind ref⟩) ∧
      Full C w'.repo.log h0 (.sto r ⟨(w.heap i).kind, normRef (w.heap i).kind ref⟩) := by
  have h2 := d.good.same
  rw [(d.tried.any.same i).kind] at h2
  have h3 := ((d.look i).trans h2).trans (look_sto_heap r _ (h' := h0))
  exact ⟨h3, Full.of_same h3 (hs.full i)⟩

/-- What is known after writing an object was tried, in any way. -/
structure WriteTried (C : Cfg) (r : Realm) (i : ObjId) (w w' : World) : Prop where
  tried : Tried r i w w'
  intact : Intact C r w'
  look : ∀ j, SameContent C w.repo.log w.heap (.mem j) w'.repo.log w'.heap (.mem j)
  trusted : Trusted C r w' i
  owned : Owned r w'.heap i
  storable : Storable w'.heap i
  alone : Alone r w'.heap i
  half : NoHalf r w'.heap i

theorem Intact.attempt {w w' : World} (hs : Intact C r w) (hr : r ≠ []) {via : Via} {n : Nat} {i : ObjId}
    (h : (writeAs C via n (some r) false i w).2 = w') (hca : w'.caches = [])
    (hc : CollisionFree C w'.repo.log) (hsto : Storable w.heap i) (hal : Alone r w.heap i)
    (ht : Trusted C r w i) (ho : Owned r w.heap i) (hh : NoHalf r w.heap i) : WriteTried C r i w w' := by
  obtain ⟨rank, hrk, hsh, hen⟩ := hs.scope i ho
  have heff : w'.eff = w'.repo.log := by unfold World.eff; rw [hca]; rfl
  have heff0 : w.eff = w.repo.log := by unfold World.eff; rw [hs.caches]; rfl
  have t := writeAs_tried (C := C) hr via n false i w hsto
  rw [h] at t
  have at1 := writeAs_attempt (C := C) hr rank (Scope.below w.heap i) via n i w
  rw [h] at at1
  have b : BeforeWrite C r rank (Scope.below w.heap i) i w :=
    ⟨by rw [hs.caches]; exact List.nodup_nil, hrk, hsto, hsh,
      fun p hp => by rw [heff0]; exact ht p (Classical.not_not.mp hp), hen, hal, hh⟩
  have post := at1.2 (by rw [heff]; exact hc) b
  have b' := b.step post
  have hre : ∀ j, Reach w'.heap i j → Reach w.heap i j := fun j hj => hj.mono t.any.same
  refine ⟨t, hs.write t hca hc hal, hs.write_look t hca hc hal, ?_, ?_, b'.storable, b'.alone, b'.half⟩
  · intro j hj
    rw [← heff]
    exact post.truth j (Classical.not_not.mpr (hre j hj))
  · intro p hp h1 h2 k hk hn q hq
    exact post.shape.alone p (Classical.not_not.mpr (hre p hp)) h1 h2 k hk hn q (hre q hq)

/-! ### Histories -/

/-- The states that a process working with one repository `r` can be in.

* `start`: a process begins with no objects, at any state of the repositories.
* `new`: an object is created from any parts.
* `load`: an object is created for a reference to something complete in the repository.
* `read`: an object is loaded, or this fails.
* `purge`: an object is purged, or this fails.  What passes for saved in it is stored as it is
  (`Purgeable`); otherwise purging loses changes, see C19.
* `edit`: a loaded object is changed in any way; it becomes no part of itself.
* `write`: an object is written in any way, and with any outcome, except that a write that fails
  inside a file tree leaves a cache behind (`caches`), see C51.  Names and texts can be stored, and
  no other object was read from the name that is set.
* `outside`: other processes store objects; names of this repository are not changed, and no two stored
  objects have the same hash.  The failures to come are any.
* `around`: the process works with other repositories (`Around`).
* `copied`: an unloaded object for something complete in the repository, as copying makes it. -/
inductive History (C : Cfg) (r : Realm) : World → Prop
  | start (w : World) : w.caches = [] → w.next = 0 → (∀ j, w.heap j = Obj.new (Body.empty .text)) →
      History C r w
  | new (w : World) (b : Body ObjId) : History C r w → (∀ k ∈ b.subs, k < w.next) →
      History C r (create (Obj.new b) w)
  | load (w : World) (l : Link) : History C r w → (l.ref.isNone = false → RefOk l.kind l.ref) →
      Full C w.repo.log w.heap (.sto r l) → History C r (create (l.obj r) w)
  | read (w : World) (i : ObjId) : History C r w → i < w.next → History C r (ensureMapped C i w).2
  | purge (w : World) (n : Nat) (i : ObjId) : History C r w → Purgeable C r w i → History C r (purge n i w).2
  | edit (w : World) (i : ObjId) (b : Body ObjId) : History C r w → (w.heap i).mapped = true →
      (∀ k ∈ b.subs, k < w.next) → (∀ k ∈ b.subs, ¬ Reach (edit i b w).heap k i) → History C r (edit i b w)
  | write (w : World) (via : Via) (n : Nat) (force : Bool) (i : ObjId) (res : Except PyErr Ref) (w' : World) :
      History C r w → writeAs C via n (some r) force i w = (res, w') → w'.caches = [] →
      CollisionFree C w'.repo.log → Storable w.heap i → Alone r w.heap i → History C r w'
  | outside (w : World) (L : Log) (fs : List Fault) : History C r w → Grows w.repo.log L →
      (∀ n, refOf L r n = refOf w.repo.log r n) → CollisionFree C L →
      History C r (outside L fs w)
  | around (w w' : World) : History C r w → Around C r w w' → History C r w'
  | copied (w : World) (o : Obj) (ref : Ref) : History C r w → o.mapped = false → o.realm = some r →
      o.ref = some ref → RefOk o.kind ref → o.kind ≠ .tvl → r ∈ o.savedOn → (∀ x ∈ o.savedOn, x = r) →
      Full C w.repo.log w.heap (.sto r ⟨o.kind, ref⟩) → History C r (create o w)

theorem History.intact (hr : r ≠ []) {w : World} (h : History C r w) : Intact C r w := by
  induction h with
  | start w h1 h2 h3 =>
    have hsv : ∀ j, (w.heap j).savedOn = [] := fun j => by rw [h3]; rfl
    have hsub : ∀ j, (w.heap j).body.subs = [] := fun j => by rw [h3]; rfl
    have hmp : ∀ j, (w.heap j).mapped = true := fun j => by rw [h3]; rfl
    refine ⟨h1, ?_, ?_, ⟨fun _ => 0, ?_⟩, ?_, ?_, ?_, ?_⟩
    · intro p hp; rw [hmp] at hp; cases hp
    · intro p hp; rw [hmp] at hp; cases hp
    · intro p _ k hk; rw [hsub] at hk; cases hk
    · intro j x hx; rw [hsv] at hx; cases hx
    · intro j hj; rw [hmp] at hj; cases hj
    · intro p _ k hk; rw [hsub] at hk; cases hk
    · intro j hj; rw [hmp] at hj; cases hj
  | new w b _ hk ih =>
    refine (ih.create (fun _ => hk) (by intro x hx; cases hx) (by intro h; cases h) (by intro h; cases h)
      (by intro h; cases h) ?_).1
    intro hc
    have := hc.flag
    rw [create_self] at this
    cases this
  | load w l _ h1 h2 ih => exact (ih.load hr h1 h2).1
  | read w i _ hi ih =>
    by_cases hm : (w.heap i).mapped = true
    · rw [ensureMapped_mapped hm]; exact ih
    · exact (ih.read hr hi (by simpa using hm) (ensureMapped_cases C i w (by simpa using hm))).1
  | purge w n i _ ho ih => exact (ih.purge n i w ho).1.intact
  | edit w i b _ hm hk hac ih => exact (ih.edit hm hk hac).1
  | write w via n force i res w' _ h hca hc hsto hal ih =>
    have t := writeAs_tried (C := C) hr via n force i w hsto
    rw [h] at t
    exact ih.write t hca hc hal
  | outside w L fs _ hg hn hc ih => exact (ih.outside hg hn hc).1
  | around w w' _ h ih => exact ih.around h
  | copied w o ref _ h1 h2 h3 h4 h5 h6 h7 h8 ih => exact ih.copied h1 h2 h3 h4 h5 h6 h7 h8

theorem Sane.intact {w : World} (hs : Sane C r w) : Intact C r w :=
  ⟨hs.caches, fun p _ => hs.full p, fun p _ => hs.truth p, hs.ranked, hs.home,
    fun j hm => (hs.home j r (hs.away j hm)).2, hs.kids, fun j hm _ _ _ => hs.away j hm⟩

theorem Sane.trusted {w : World} (hs : Sane C r w) (i : ObjId) : Trusted C r w i := fun j _ => hs.truth j

theorem Sane.owned {w : World} (hs : Sane C r w) (i : ObjId) : Owned r w.heap i :=
  fun p _ h1 h2 k hk hn q _ => hs.stale p h1 h2 k hk hn q

theorem Sane.purgeable {w : World} (hs : Sane C r w) {i : ObjId} (ho : ∀ j, Reach w.heap i j → OwnName w.heap j) :
    Purgeable C r w i := ⟨hs.trusted i, ho, fun j _ hm => hs.away j hm⟩

theorem Session.history (hr : r ≠ []) {w : World} (h : Session C r w) : History C r w := by
  induction h with
  | start w h1 h2 h3 => exact .start w h1 h2 h3
  | new w b _ hk hst ih => exact .new w b ih hk
  | load w l _ h1 h2 h3 ih => exact .load w l ih (fun _ => h1) h3
  | read w i _ hi haway ih => exact .read w i ih hi
  | purge w n i h0 ho ih => exact .purge w n i ih ((h0.sane hr).purgeable ho)
  | edit w i b _ hm hk hac hst ih => exact .edit w i b ih hm hk hac
  | write w via n force i ref w' h0 h hc hsto hal hp ih =>
    exact .write w via n force i _ w' ih h (caches_writeAs h (h0.sane hr).caches) hc hsto hal
  | failed w via n i e w' _ h hca hc hsto hal hp hh ih => exact .write w via n false i _ w' ih h hca hc hsto hal
  | outside w L fs _ hg hn hc ih => exact .outside w L fs ih hg (hn r) hc

end MM
