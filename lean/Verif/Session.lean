/-
The use of objects over time: creating, loading, reading, changing, writing and
purging them, in any order.
-/
import Verif.Frame
import Verif.WriteFail

namespace MM

/-- An object that is not saved is part of no container that passes for saved, unless
this container is the only one it is part of. -/
def NoStale (r : Realm) (h : Heap) : Prop :=
  ∀ p, r ∈ (h p).savedOn → (h p).mapped = true → ∀ k ∈ (h p).body.subs, ¬ Clean r h k →
    ∀ q, (h q).mapped = true → k ∈ (h q).body.subs → q = p

/-- What holds in a process that works with the repository `r`. -/
structure Sane (C : Cfg) (r : Realm) (w : World) : Prop where
  caches : w.caches = []
  truth : ∀ p, Truth C r w.repo.log w.heap p
  stale : NoStale r w.heap
  ranked : ∃ rank, Ranked rank w.heap
  home : ∀ j x, x ∈ (w.heap j).savedOn → x = r ∧ (w.heap j).realm = some r
  away : ∀ j, (w.heap j).mapped = false → r ∈ (w.heap j).savedOn
  kids : ∀ p, (w.heap p).mapped = true → ∀ k ∈ (w.heap p).body.subs, k < w.next

variable {C : Cfg} {r : Realm}

theorem Sane.cleanAway {w : World} (hs : Sane C r w) {j : ObjId} (hm : (w.heap j).mapped = false) :
    Clean r w.heap j := Clean.mk j (hs.away j hm) fun h => by rw [hm] at h; cases h

/-- The content of every object can be read. -/
theorem Sane.full {w : World} (hs : Sane C r w) (j : ObjId) : Full C w.repo.log w.heap (.mem j) := by
  obtain ⟨rank, hr⟩ := hs.ranked
  have key : ∀ n j, rank j < n → Full C w.repo.log w.heap (.mem j) := by
    intro n
    induction n with
    | zero => intro j hj; exact absurd hj (Nat.not_lt_zero _)
    | succ n ih =>
      intro j hj
      by_cases hm : (w.heap j).mapped = true
      · exact full_of_subs hm fun k hk => ih k (Nat.lt_of_lt_of_le (hr j hm k hk) (Nat.le_of_lt_succ hj))
      · obtain ⟨ref, _, hg⟩ := hs.truth j (hs.cleanAway (by simpa using hm))
        exact hg.full
  exact key _ j (Nat.lt_succ_self _)

/-- Only the log, the caches and the objects matter. -/
theorem Sane.congr {w w' : World} (hs : Sane C r w) (h1 : w'.heap = w.heap)
    (h2 : w'.repo.log = w.repo.log) (h3 : w'.caches = w.caches) (h4 : w.next ≤ w'.next) :
    Sane C r w' := by
  refine ⟨h3.trans hs.caches, ?_, ?_, ?_, ?_, ?_, ?_⟩
  · rw [h1, h2]; exact hs.truth
  · rw [h1]; exact hs.stale
  · rw [h1]; exact hs.ranked
  · rw [h1]; exact hs.home
  · rw [h1]; exact hs.away
  · rw [h1]; exact fun p hm k hk => Nat.lt_of_lt_of_le (hs.kids p hm k hk) h4

/-- One object is replaced, and objects in `A` are created. -/
structure Swap (C : Cfg) (r : Realm) (A : ObjId → Prop) (i : ObjId) (w w' : World) : Prop where
  log : w'.repo.log = w.repo.log
  old : ∀ j, ¬ A j → j ≠ i → w'.heap j = w.heap j
  apart : ∀ p, (w.heap p).mapped = true → ∀ k ∈ (w.heap p).body.subs, ¬ A k
  self : ¬ A i
  content : SameContent C w.repo.log w.heap (.mem i) w.repo.log w'.heap (.mem i)
  kind : (w'.heap i).kind = (w.heap i).kind
  clean : Clean r w.heap i ↔ Clean r w'.heap i

theorem Swap.look {A : ObjId → Prop} {i : ObjId} {w w' : World} (s : Swap C r A i w w') {j : ObjId}
    (hj : ¬ A j) : SameContent C w.repo.log w.heap (.mem j) w'.repo.log w'.heap (.mem j) := by
  rw [s.log]
  exact look_frame s.old s.apart s.content j hj

theorem Swap.stays {A : ObjId → Prop} {i : ObjId} {w w' : World} (s : Swap C r A i w w') {j : ObjId}
    (hc : Clean r w.heap j) (hj : ¬ A j) : Clean r w'.heap j := by
  induction hc with
  | mk j h1 h2 ih =>
    by_cases hji : j = i
    · subst hji; exact s.clean.mp (Clean.mk j h1 h2)
    · have e := s.old j hj hji
      refine Clean.mk j (by rw [e]; exact h1) fun hm k hk => ?_
      rw [e] at hm hk
      exact ih hm k hk (s.apart j hm k hk)

theorem Swap.was {A : ObjId → Prop} {i : ObjId} {w w' : World} (s : Swap C r A i w w') {j : ObjId}
    (hc : Clean r w'.heap j) (hj : ¬ A j) : Clean r w.heap j := by
  induction hc with
  | mk j h1 h2 ih =>
    by_cases hji : j = i
    · subst hji; exact s.clean.mpr (Clean.mk j h1 h2)
    · have e := s.old j hj hji
      rw [e] at h1
      refine Clean.mk j h1 fun hm k hk => ?_
      refine ih (by rw [e]; exact hm) k (by rw [e]; exact hk) (s.apart j hm k hk)

theorem Good.same_world {L L' : Log} {h h' : Heap} {p : ObjId} {ref : Ref} (hL : L' = L)
    (hg : Good C r L h p ref) (hk : (h' p).kind = (h p).kind)
    (hl : SameContent C L h (.mem p) L' h' (.mem p)) : Good C r L' h' p ref := by
  subst hL
  refine ⟨by rw [hk]; exact hg.ok, Full.of_same hl hg.full, ?_⟩
  rw [hk]
  exact hl.symm.trans (hg.same.trans (look_sto_heap r _))

theorem Swap.truth {A : ObjId → Prop} {i : ObjId} {w w' : World} (s : Swap C r A i w w')
    (hi : Truth C r w'.repo.log w'.heap i) {j : ObjId} (ht : Truth C r w.repo.log w.heap j) (hj : ¬ A j) :
    Truth C r w'.repo.log w'.heap j := by
  by_cases hji : j = i
  · subst hji; exact hi
  · intro hc
    obtain ⟨ref, h1, h2⟩ := ht (s.was hc hj)
    have e := s.old j hj hji
    exact ⟨ref, by rw [e]; exact h1, h2.same_world s.log (by rw [e]) (s.look hj)⟩

/-! ### Reading -/

theorem strictFetch_cls {L : Log} {k : Kind} {ref ref' : Ref} (hl : ref'.loc = ref.loc)
    (hn : ref.isNone = false) (ha : k.accepts ref.cls = true) (ha' : k.accepts ref'.cls = true) :
    strictFetch C L r k ref' = strictFetch C L r k ref := by
  have hn' : ref'.isNone = false := by unfold Ref.isNone at hn ⊢; rw [hl]; exact hn
  have hf : fetch C L r k ref' = fetch C L r k ref := by
    unfold fetch
    simp [hn, hn', ha, ha', hl]
  have hi : innerDirect C L r k ref' = innerDirect C L r k ref := by
    unfold innerDirect
    rw [hn, hn', hl]
  unfold strictFetch
  rw [hf, hi]

/-- A reference with the current class name means the same. -/
theorem Good.rename {L : Log} {h : Heap} {i : ObjId} {ref : Ref} {loc : Str}
    (hg : Good C r L h i ref) (hl : ref.loc = some loc) (hn : ref.isNone = false)
    (ha : (h i).kind.accepts ref.cls = true) : Good C r L h i ⟨(h i).kind.name, some loc⟩ := by
  refine ⟨⟨?_, ?_⟩, hg.full, hg.same.trans ?_⟩
  · obtain ⟨l, h1, h2⟩ := hg.ok.loc
    exact ⟨l, by rw [← h1, hl], h2⟩
  · intro e; left; rw [e]; rfl
  · by_cases hk : (h i).kind = .tvl
    · unfold normRef
      rw [if_pos hk, if_pos hk, hl]
      exact SameContent.refl _ _ _ _
    · rw [normRef_ne hk, normRef_ne hk]
      refine look_of_view (r := r) (k := (h i).kind) (ref := ref) rfl ?_
      simp only [view]
      rw [strictFetch_cls (ref := ref) (by rw [hl]) hn ha (accepts_name _)]

/-- Everything about a tree without children can be read. -/
theorem full_blank {L : Log} {h : Heap} {n : Node} {b : Body Node} (hv : view C L h n = .ok b)
    (hb : b.blank = true) : Full C L h n := by
  unfold Body.blank at hb
  simp only [Bool.and_eq_true, List.isEmpty_iff] at hb
  intro ks t
  cases ks with
  | nil => rw [look_nil t hv]; simp
  | cons k ks => rw [look_cons_none hv (by rw [hb.2]; rfl)]; simp

theorem Sane.fetched {w : World} (hs : Sane C r w) {i : ObjId} (hm : (w.heap i).mapped = false) :
    ∃ ref a, (w.heap i).realm = some r ∧ (w.heap i).ref = some ref ∧
      strictFetch C w.repo.log r (w.heap i).kind ref = .ok a ∧
      view C w.repo.log w.heap (.mem i) = .ok (a.map (.sto r)) := by
  obtain ⟨b, hb⟩ := view_ok_of_look (hs.full i [] [])
  obtain ⟨r', ref, a, h1, h2, h3, h4⟩ := (view_away hm).mp hb
  have := (hs.home i r (hs.away i hm)).2
  rw [this] at h1
  cases h1
  exact ⟨ref, a, this, h2, h3, by rw [hb, h4]⟩

/-- Reading any object, with any outcome, keeps the content of all objects. -/
theorem Sane.read_look {w w' : World} {res : Except PyErr Bool} (hs : Sane C r w) {i : ObjId}
    (hi : i < w.next) (hm : (w.heap i).mapped = false) (hc : ReadCase C i w w' res) :
    ∀ j, j < w.next → SameContent C w.repo.log w.heap (.mem j) w'.repo.log w'.heap (.mem j) := by
  have hcont := read_content hi hm (hs.full i) hc
  have hlog : w'.repo.log = w.repo.log := by
    cases hc <;> assumption
  rw [hlog]
  intro j hj
  refine look_frame (A := fun k => w.next ≤ k) ?_ ?_ hcont j (by oomega)
  · intro k hk hki
    have hk' : k < w.next := Nat.lt_of_not_le hk
    cases hc with
    | failed e h1 => rw [h1]
    | none r ref _ _ _ _ _ _ _ hh => rw [hh, Heap.set_ne hki]
    | read r ref loc b is so _ _ _ _ _ _ _ _ _ _ hold => exact hold k hki hk'
  · intro p hp k hk
    exact Nat.not_le.mpr (hs.kids p hp k hk)

theorem Sane.read {w w' : World} {res : Except PyErr Bool} (hs : Sane C r w) (hr : r ≠ []) {i : ObjId}
    (hi : i < w.next) (hm : (w.heap i).mapped = false) (hc : ReadCase C i w w' res)
    (haway : ∀ j, (w'.heap j).mapped = false → (w'.heap j).savedOn ≠ []) : Sane C r w' := by
  have hcont := read_content hi hm (hs.full i) hc
  obtain ⟨ref0, a, hr0, hf0, ha, hv0⟩ := hs.fetched hm
  have hci := hs.cleanAway hm
  obtain ⟨ref1, hf1, hg⟩ := hs.truth i hci
  rw [hf0] at hf1; cases hf1
  cases hc with
  | failed e h1 h2 h3 h4 => exact hs.congr h1 h3 h4 (by rw [h2]; exact Nat.le_refl _)
  | none r' ref hr' hf hn hcls hlog hca hnx hh =>
    rw [hf0] at hf; cases hf
    have hfl : r ∈ (w.heap i).savedOn := hs.away i hm
    have hi' : w'.heap i = { w.heap i with mapped := true, body := (w.heap i).body.purged } := by
      rw [hh]; simp
    have hold : ∀ j, j ≠ i → w'.heap j = w.heap j := fun j hj => by rw [hh, Heap.set_ne hj]
    have hkind : (w'.heap i).kind = (w.heap i).kind := by
      rw [hi']; unfold Obj.kind Body.purged; exact Data.kind_purged _
    have hsubs : (w'.heap i).body.subs = [] := by rw [hi']; rfl
    have sw : Swap C r (fun _ => False) i w w' :=
      ⟨hlog, fun j _ hj => hold j hj, fun _ _ _ _ h => h, fun h => h, hcont, hkind,
       iff_of_true hci (Clean.mk i (by rw [hi']; exact hfl) (fun _ k hk => by rw [hsubs] at hk; cases hk))⟩
    have htr : ∀ p, Truth C r w'.repo.log w'.heap p := by
      intro p
      refine sw.truth ?_ (hs.truth p) (fun h => h)
      intro _
      exact ⟨ref0, by rw [hi']; exact hf0, hg.same_world hlog hkind (sw.look (fun h => h))⟩
    refine ⟨hca.trans hs.caches, htr, ?_, ?_, ?_, ?_, ?_⟩
    · intro p h1 h2 k hk hnc q hq hkq
      have hpi : p ≠ i := by rintro rfl; rw [hsubs] at hk; cases hk
      have hqi : q ≠ i := by rintro rfl; rw [hsubs] at hkq; cases hkq
      rw [hold p hpi] at h1 h2 hk
      rw [hold q hqi] at hq hkq
      exact hs.stale p h1 h2 k hk (fun hcl => hnc (sw.stays hcl (fun h => h))) q hq hkq
    · obtain ⟨rank, hrk⟩ := hs.ranked
      refine ⟨rank, fun p hp k hk => ?_⟩
      have hpi : p ≠ i := by rintro rfl; rw [hsubs] at hk; cases hk
      rw [hold p hpi] at hp hk
      exact hrk p hp k hk
    · intro j x hx
      by_cases hj : j = i
      · subst hj; rw [hi'] at hx ⊢; exact hs.home j x hx
      · rw [hold j hj] at hx ⊢; exact hs.home j x hx
    · intro j hj
      have hji : j ≠ i := by rintro rfl; rw [hi'] at hj; cases hj
      rw [hold j hji] at hj ⊢
      exact hs.away j hj
    · intro p hp k hk
      have hpi : p ≠ i := by rintro rfl; rw [hsubs] at hk; cases hk
      rw [hold p hpi] at hp hk
      rw [hnx]
      exact hs.kids p hp k hk
  | read r' ref loc b is so hr' hf hn hloc hsv hacc hdec hlog hca hnx hold hbig hkids hnew hso hobj hdis =>
    rw [hr0] at hr'; cases hr'
    rw [hf0] at hf; cases hf
    have hab : a = b := by
      have := (strictFetch_ok ha).1
      rw [fetch_some hn hacc hloc, hdec] at this
      cases this; rfl
    subst hab
    obtain ⟨hdk, hlinks⟩ := decode_links hdec
    have hnd := decode_nodup hdec
    let A : ObjId → Prop := fun j => w.next ≤ j ∧ j < w'.next
    have hiA : ¬ A i := fun h => absurd hi (Nat.not_lt.mpr h.1)
    have hold' : ∀ j, ¬ A j → j ≠ i → w'.heap j = w.heap j := by
      intro j hj hji
      by_cases hlt : j < w.next
      · exact hold j hji hlt
      · exact hbig j hji (Nat.not_lt.mp fun h => hj ⟨Nat.not_lt.mp hlt, h⟩)
    have hapart : ∀ p, (w.heap p).mapped = true → ∀ k ∈ (w.heap p).body.subs, ¬ A k :=
      fun p hp k hk h => absurd (hs.kids p hp k hk) (Nat.not_lt.mpr h.1)
    have hkind : (w'.heap i).kind = (w.heap i).kind := by
      rw [hobj]; unfold Obj.kind; exact hdk
    -- new objects
    have hne : ∀ j, A j → j ≠ i := by rintro j hj rfl; exact hiA hj
    have hkid : ∀ k ∈ (w'.heap i).body.subs, A k := by
      intro k hk
      rw [hobj] at hk
      unfold Body.subs at hk
      simp only at hk
      clear hv0 hdec hlinks hnd hnew hdk ha hobj hdis
      generalize a.kids = ls at hkids
      induction hkids with
      | nil => cases hk
      | cons h1 _ ih =>
        rw [List.map_cons] at hk
        rcases List.mem_cons.mp hk with e | e
        · subst e; exact ⟨h1.2.2.1, h1.2.2.2.1⟩
        · exact ih e
    have hobjA : ∀ j, A j → ∃ e ∈ a.kids, w'.heap j = e.2.2.obj r ∧ e.2.2.ref.isNone = false ∧
        (w'.heap j).savedOn = [r] := by
      intro j hj
      obtain ⟨e, he, h1⟩ := hnew j (hne j hj) hj.1 hj.2
      have h2 := haway j (by rw [h1]; rfl)
      refine ⟨e, he, h1, ?_⟩
      rw [h1] at h2 ⊢
      unfold Link.obj at h2 ⊢
      simp only at h2 ⊢
      cases hno : e.2.2.ref.isNone with
      | true => rw [hno] at h2; simp at h2
      | false =>
        refine ⟨rfl, ?_⟩
        rw [if_neg]
        simp [hr]
    have hmA : ∀ j, A j → (w'.heap j).mapped = false := by
      intro j hj
      obtain ⟨e, _, h1, _⟩ := hobjA j hj
      rw [h1]; rfl
    have hcA : ∀ j, A j → Clean r w'.heap j := by
      intro j hj
      obtain ⟨e, _, _, _, h2⟩ := hobjA j hj
      exact Clean.mk j (by rw [h2]; exact List.mem_singleton.mpr rfl)
        (fun h => by rw [hmA j hj] at h; cases h)
    have hfli : r ∈ (w'.heap i).savedOn := by
      rw [hobj, hso]
      simp only
      split
      · exact List.mem_singleton.mpr rfl
      · exact hsv
    have sw : Swap C r A i w w' :=
      ⟨hlog, hold', hapart, hiA, hcont, hkind, iff_of_true hci (Clean.mk i hfli (fun _ k hk => hcA k (hkid k hk)))⟩
    have hgi : Good C r w'.repo.log w'.heap i ⟨(w.heap i).kind.name, some loc⟩ :=
      (hg.rename hloc hn hacc).same_world hlog hkind (sw.look hiA)
    have htr : ∀ p, Truth C r w'.repo.log w'.heap p := by
      intro p
      by_cases hp : A p
      · intro _
        obtain ⟨e, he, h1, h2, _⟩ := hobjA p hp
        have hdir := direct_mem ha he
        have hlk := hlinks e he
        have hkp : (w'.heap p).kind = e.2.2.kind := by rw [h1, kind_linkObj]
        have hrefp : (w'.heap p).ref = some e.2.2.ref := by rw [h1]; rfl
        have hsame : SameContent C w'.repo.log w'.heap (.mem p) w'.repo.log w'.heap
            (.sto r ⟨(w'.heap p).kind, e.2.2.ref⟩) :=
          look_unloaded (hmA p hp) (by rw [h1]; rfl) hrefp
        refine ⟨e.2.2.ref, hrefp, by rw [hkp]; exact hlk.refOk hdir h2, ?_, ?_⟩
        · refine Full.of_same hsame.symm ?_
          rw [hkp, hlog]
          have hdg : dget (a.map (Node.sto r)).kids e.1 = some (e.2.1, .sto r e.2.2) := by
            rw [Body.dget_map, dget_of_mem hnd (k := e.1) (v := e.2) he]; rfl
          have : Full C w.repo.log w.heap (.sto r e.2.2) := by
            rcases (hs.full i).kid hv0 hdg with ⟨b', h3, _, h4⟩ | ⟨h3, _⟩
            · exact full_blank h3 h4
            · exact h3
          exact Full.of_same (look_sto_heap r e.2.2) this
        · rw [hkp, hlk.normRef, ← hkp]; exact hsame
      · refine sw.truth ?_ (hs.truth p) hp
        intro _
        exact ⟨_, by rw [hobj], hgi⟩
    refine ⟨hca.trans hs.caches, htr, ?_, ?_, ?_, ?_, ?_⟩
    · intro p h1 h2 k hk hnc q hq hkq
      have hkA : ¬ A k := fun h => hnc (hcA k h)
      have hpi : p ≠ i := by rintro rfl; exact hkA (hkid k hk)
      have hqi : q ≠ i := by rintro rfl; exact hkA (hkid k hkq)
      have hpA : ¬ A p := fun h => by rw [hmA p h] at h2; cases h2
      have hqA : ¬ A q := fun h => by rw [hmA q h] at hq; cases hq
      rw [hold' p hpA hpi] at h1 h2 hk
      rw [hold' q hqA hqi] at hq hkq
      exact hs.stale p h1 h2 k hk (fun hcl => hnc (sw.stays hcl hkA)) q hq hkq
    · obtain ⟨rank, hrk⟩ := hs.ranked
      classical
      refine ⟨fun j => if A j then 0 else rank j + 1, fun p hp k hk => ?_⟩
      have hpA : ¬ A p := fun h => by rw [hmA p h] at hp; cases hp
      simp only [if_neg hpA]
      by_cases hpi : p = i
      · subst hpi
        rw [if_pos (hkid k hk)]
        exact Nat.succ_pos _
      · rw [hold' p hpA hpi] at hp hk
        rw [if_neg (hapart p hp k hk)]
        exact Nat.succ_lt_succ (hrk p hp k hk)
    · intro j x hx
      by_cases hj : j = i
      · subst hj
        rw [hobj, hso] at hx
        rw [hobj]
        simp only at hx ⊢
        split at hx
        · exact ⟨List.mem_singleton.mp hx, trivial⟩
        · exact ⟨(hs.home j x hx).1, trivial⟩
      · by_cases hA : A j
        · obtain ⟨e, _, h1, _, h2⟩ := hobjA j hA
          rw [h2] at hx
          refine ⟨List.mem_singleton.mp hx, ?_⟩
          rw [h1]; rfl
        · rw [hold' j hA hj] at hx ⊢
          exact hs.home j x hx
    · intro j hj
      have hji : j ≠ i := by rintro rfl; rw [hobj] at hj; cases hj
      by_cases hA : A j
      · exact (hcA j hA).flag
      · rw [hold' j hA hji] at hj ⊢
        exact hs.away j hj
    · intro p hp k hk
      by_cases hpi : p = i
      · subst hpi; exact (hkid k hk).2
      · have hpA : ¬ A p := fun h => by rw [hmA p h] at hp; cases hp
        rw [hold' p hpA hpi] at hp hk
        exact Nat.lt_of_lt_of_le (hs.kids p hp k hk) hnx

/-! ### Purging -/

/-- What purging does to objects, whatever its outcome. -/
structure Unloads (w w' : World) : Prop where
  next : w'.next = w.next
  repo : w'.repo = w.repo
  realm : ∀ j, (w'.heap j).realm = (w.heap j).realm
  ref : ∀ j, (w'.heap j).ref = (w.heap j).ref
  saved : ∀ j, (w'.heap j).savedOn = (w.heap j).savedOn
  kind : ∀ j, (w'.heap j).kind = (w.heap j).kind
  mapped : ∀ j, (w'.heap j).mapped = true → (w.heap j).mapped = true ∧ (w'.heap j).body = (w.heap j).body

theorem Unloads.refl (w : World) : Unloads w w :=
  ⟨rfl, rfl, fun _ => rfl, fun _ => rfl, fun _ => rfl, fun _ => rfl, fun _ h => ⟨h, rfl⟩⟩

theorem Unloads.trans {a b c : World} (h : Unloads a b) (h' : Unloads b c) : Unloads a c :=
  ⟨h'.next.trans h.next, h'.repo.trans h.repo, fun j => (h'.realm j).trans (h.realm j),
   fun j => (h'.ref j).trans (h.ref j), fun j => (h'.saved j).trans (h.saved j),
   fun j => (h'.kind j).trans (h.kind j),
   fun j hj => ⟨(h.mapped j (h'.mapped j hj).1).1,
     (h'.mapped j hj).2.trans (h.mapped j (h'.mapped j hj).1).2⟩⟩

theorem Unloads.reach {w w' : World} (h : Unloads w w') {i j : ObjId} (hr : Reach w'.heap i j) :
    Reach w.heap i j := by
  induction hr with
  | refl => exact Reach.refl _
  | step i k j hm hk _ ih =>
    obtain ⟨h1, h2⟩ := h.mapped i hm
    rw [h2] at hk
    exact Reach.step i k j h1 hk ih

/-- The reference of an object has the name of its class.  This fails for a
`TreeVersionList` that was written (versionlistmapper.py 86). -/
def OwnName (h : Heap) (j : ObjId) : Prop :=
  ∀ ref, (h j).ref = some ref → normRef (h j).kind ref = ref

theorem Unloads.ownName {w w' : World} (h : Unloads w w') {j : ObjId} (ho : OwnName w.heap j) :
    OwnName w'.heap j := by
  intro ref hf
  rw [h.ref] at hf
  rw [h.kind]
  exact ho ref hf

/-- The end of `purge`: the object forgets its content. -/
def unload (i : ObjId) (w : World) : World :=
  { w with heap := w.heap.set i { w.heap i with mapped := false, body := (w.heap i).body.purged } }

theorem Sane.unload {w : World} (hs : Sane C r w) {i : ObjId} (hci : Clean r w.heap i)
    (ho : OwnName w.heap i) : Sane C r (unload i w) ∧ Unloads w (unload i w) ∧
      ∀ j, SameContent C w.repo.log w.heap (.mem j) w.repo.log (unload i w).heap (.mem j) := by
  have hi' : (MM.unload i w).heap i = { w.heap i with mapped := false, body := (w.heap i).body.purged } := by
    unfold MM.unload; simp
  have hold : ∀ j, j ≠ i → (MM.unload i w).heap j = w.heap j := fun j hj => by
    unfold MM.unload; simp [Heap.set_ne hj]
  have hkind : ((MM.unload i w).heap i).kind = (w.heap i).kind := by
    rw [hi']; unfold Obj.kind Body.purged; exact Data.kind_purged _
  obtain ⟨ref, hf, hg⟩ := hs.truth i hci
  have hrl := (hs.home i r hci.flag).2
  have hcont : SameContent C w.repo.log w.heap (.mem i) w.repo.log (MM.unload i w).heap (.mem i) := by
    have h1 := hg.same
    rw [ho ref hf] at h1
    have h2 : SameContent C w.repo.log (MM.unload i w).heap (.mem i) w.repo.log w.heap
        (.sto r ⟨((MM.unload i w).heap i).kind, ref⟩) :=
      look_unloaded (by rw [hi']) (by rw [hi']; exact hrl) (by rw [hi']; exact hf)
    rw [hkind] at h2
    exact h1.trans h2.symm
  have sw : Swap C r (fun _ => False) i w (MM.unload i w) :=
    ⟨rfl, fun j _ hj => hold j hj, fun _ _ _ _ h => h, fun h => h, hcont, hkind,
     iff_of_true hci (Clean.mk i (by rw [hi']; exact hci.flag) (fun h => by rw [hi'] at h; cases h))⟩
  have hun : Unloads w (MM.unload i w) := by
    refine ⟨rfl, rfl, ?_, ?_, ?_, ?_, ?_⟩ <;> intro j <;> by_cases hj : j = i
    · subst hj; rw [hi']
    · rw [hold j hj]
    · subst hj; rw [hi']
    · rw [hold j hj]
    · subst hj; rw [hi']
    · rw [hold j hj]
    · subst hj; exact hkind
    · rw [hold j hj]
    · subst hj; intro h; rw [hi'] at h; cases h
    · rw [hold j hj]; exact fun h => ⟨h, rfl⟩
  refine ⟨⟨hs.caches, ?_, ?_, ?_, ?_, ?_, ?_⟩, hun, fun j => sw.look (fun h => h)⟩
  · intro p
    refine sw.truth ?_ (hs.truth p) (fun h => h)
    intro _
    exact ⟨ref, by rw [hi']; exact hf, hg.same_world rfl hkind hcont⟩
  · intro p h1 h2 k hk hnc q hq hkq
    obtain ⟨g1, g2⟩ := hun.mapped p h2
    obtain ⟨g3, g4⟩ := hun.mapped q hq
    rw [hun.saved] at h1
    rw [g2] at hk
    rw [g4] at hkq
    exact hs.stale p h1 g1 k hk (fun hcl => hnc (sw.stays hcl (fun h => h))) q g3 hkq
  · obtain ⟨rank, hrk⟩ := hs.ranked
    refine ⟨rank, fun p hp k hk => ?_⟩
    obtain ⟨g1, g2⟩ := hun.mapped p hp
    rw [g2] at hk
    exact hrk p g1 k hk
  · intro j x hx
    rw [hun.saved] at hx
    rw [hun.realm]
    exact hs.home j x hx
  · intro j hj
    rw [hun.saved]
    by_cases hji : j = i
    · subst hji; exact hci.flag
    · rw [hold j hji] at hj; exact hs.away j hj
  · intro p hp k hk
    obtain ⟨g1, g2⟩ := hun.mapped p hp
    rw [g2] at hk
    exact hs.kids p g1 k hk

/-- What holds after purging. -/
structure PurgePost (C : Cfg) (r : Realm) (w w' : World) : Prop where
  sane : Sane C r w'
  unloads : Unloads w w'
  look : ∀ j, SameContent C w.repo.log w.heap (.mem j) w.repo.log w'.heap (.mem j)

theorem PurgePost.trans {a b c : World} (h : PurgePost C r a b) (h' : PurgePost C r b c) :
    PurgePost C r a c := by
  refine ⟨h'.sane, h.unloads.trans h'.unloads, fun j => (h.look j).trans ?_⟩
  have := h'.look j
  rw [h.unloads.repo] at this
  exact this

theorem Sane.purge (n : Nat) : ∀ (i : ObjId) (w : World), Sane C r w →
    (∀ j, Reach w.heap i j → OwnName w.heap j) →
    PurgePost C r w (MM.purge n i w).2 ∧
      ((MM.purge n i w).1 = .ok () → ((MM.purge n i w).2.heap i).mapped = false) := by
  induction n with
  | zero => intro i w hs _; exact ⟨⟨hs, Unloads.refl w, fun _ => SameContent.refl _ _ _ _⟩, by simp [MM.purge]⟩
  | succ n ih =>
    intro i w hs ho
    have hrefl : PurgePost C r w w := ⟨hs, Unloads.refl w, fun _ => SameContent.refl _ _ _ _⟩
    unfold MM.purge
    rw [M.bind_of_ok (getObj_run i w)]
    by_cases hm : (w.heap i).mapped = true
    · rw [if_pos hm]
      by_cases hsv : (w.heap i).savedOn = []
      · rw [if_pos hsv]; exact ⟨hrefl, by simp⟩
      · rw [if_neg hsv]
        split
        · exact ⟨hrefl, by simp⟩
        · have hfl : r ∈ (w.heap i).savedOn := by
            obtain ⟨x, hx⟩ := List.exists_mem_of_ne_nil _ hsv
            obtain ⟨rfl, _⟩ := hs.home i x hx
            exact hx
          -- the parts
          have hlist : ∀ (l : List ObjId) (w1 : World), Sane C r w1 →
              (∀ k ∈ l, ∀ j, Reach w1.heap k j → OwnName w1.heap j) →
              PurgePost C r w1 (M.forEach (MM.purge n) l w1).2 ∧
                (∀ bs, (M.forEach (MM.purge n) l w1).1 = .ok bs →
                  ∀ k ∈ l, ((M.forEach (MM.purge n) l w1).2.heap k).mapped = false) := by
            intro l
            induction l with
            | nil =>
              intro w1 hs1 _
              exact ⟨⟨hs1, Unloads.refl w1, fun _ => SameContent.refl _ _ _ _⟩, by simp⟩
            | cons a l ihl =>
              intro w1 hs1 ho1
              rw [M.forEach_cons]
              obtain ⟨h1, h2⟩ := ih a w1 hs1 (ho1 a (List.mem_cons_self ..))
              cases hp : MM.purge n a w1 with
              | mk res w2 =>
                rw [hp] at h1 h2
                cases res with
                | error e => rw [M.bind_of_error hp]; exact ⟨h1, by simp⟩
                | ok u =>
                  rw [M.bind_of_ok hp]
                  obtain ⟨h3, h4⟩ := ihl w2 h1.sane (fun k hk j hr =>
                    h1.unloads.ownName (ho1 k (List.mem_cons_of_mem _ hk) j (h1.unloads.reach hr)))
                  cases hq : M.forEach (MM.purge n) l w2 with
                  | mk res3 w3 =>
                    rw [hq] at h3 h4
                    cases res3 with
                    | error e => rw [M.bind_of_error hq]; exact ⟨h1.trans h3, by simp⟩
                    | ok us =>
                      rw [M.bind_of_ok hq]
                      refine ⟨h1.trans h3, ?_⟩
                      intro bs _ k hk
                      rcases List.mem_cons.mp hk with e | e
                      · subst e
                        have := h2 rfl
                        cases hmk : (w3.heap k).mapped with
                        | false => exact hmk
                        | true => rw [(h3.unloads.mapped k hmk).1] at this; cases this
                      · exact h4 us rfl k e
          obtain ⟨h1, h2⟩ := hlist (w.heap i).body.subs w hs
            (fun k hk j hr => ho j (Reach.step i k j hm hk hr))
          cases hp : M.forEach (MM.purge n) (w.heap i).body.subs w with
          | mk res w2 =>
            rw [hp] at h1 h2
            cases res with
            | error e => rw [M.bind_of_error hp]; exact ⟨h1, by simp⟩
            | ok us =>
              rw [M.bind_of_ok hp, updObj_run]
              have hci : Clean r w2.heap i := by
                refine Clean.mk i (by rw [h1.unloads.saved]; exact hfl) fun hm2 k hk => ?_
                rw [(h1.unloads.mapped i hm2).2] at hk
                exact h1.sane.cleanAway (h2 us rfl k hk)
              obtain ⟨g1, g2, g3⟩ := h1.sane.unload hci
                (h1.unloads.ownName (ho i (Reach.refl i)))
              refine ⟨h1.trans ⟨g1, g2, g3⟩, fun _ => ?_⟩
              simp
    · rw [if_neg hm]
      exact ⟨hrefl, fun _ => by simpa using hm⟩

/-! ### Changing -/

/-- A modified object: the modifying methods call `touch`. -/
def edit (i : ObjId) (b : Body ObjId) (w : World) : World :=
  { w with heap := w.heap.set i { w.heap i with body := b, savedOn := [] } }

theorem edit_self (i : ObjId) (b : Body ObjId) (w : World) :
    (edit i b w).heap i = { w.heap i with body := b, savedOn := [] } := by unfold edit; simp

theorem edit_ne {i j : ObjId} (b : Body ObjId) (w : World) (h : j ≠ i) :
    (edit i b w).heap j = w.heap j := by unfold edit; simp [Heap.set_ne h]

/-- No object that contains a modified object is known as saved. -/
theorem clean_edit {w : World} {i : ObjId} {b : Body ObjId} {j : ObjId}
    (hc : Clean r (edit i b w).heap j) : ¬ Reach (edit i b w).heap j i := by
  induction hc with
  | mk j h1 h2 ih =>
    intro hr
    cases hr with
    | refl => rw [edit_self] at h1; cases h1
    | step _ k _ hm hk hr => exact ih hm k hk hr

/-- Objects that do not contain the modified object keep their content. -/
theorem look_edit {L : Log} {w : World} {i : ObjId} {b : Body ObjId} {j : ObjId}
    (hj : ¬ Reach (edit i b w).heap j i) :
    SameContent C L w.heap (.mem j) L (edit i b w).heap (.mem j) := by
  intro ks t
  refine look_congr (fun n => ∀ j, n = .mem j → ¬ Reach (edit i b w).heap j i) ?_ ks t (.mem j)
    (by rintro _ ⟨⟩; exact hj)
  intro n hn
  cases n with
  | sto r l => exact Or.inl (look_sto_heap r l)
  | mem j =>
    right
    have hr := hn j rfl
    have hji : j ≠ i := by rintro rfl; exact hr (Reach.refl _)
    have e : (edit i b w).heap j = w.heap j := edit_ne b w hji
    refine ⟨by simp only [view, e], ?_⟩
    intro b' hb x hx k hxk
    by_cases hm : (w.heap j).mapped = true
    · rw [view_mapped hm] at hb
      cases hb
      rw [Body.map_kids] at hx
      obtain ⟨y, hy, rfl⟩ := List.mem_map.mp hx
      simp only at hxk
      cases hxk
      intro h
      exact hr (Reach.step j _ i (by rw [e]; exact hm) (by rw [e]; exact List.mem_map.mpr ⟨y, hy, rfl⟩) h)
    · obtain ⟨r, ref, a, _, _, _, rfl⟩ := (view_away (by simpa using hm)).mp hb
      rw [Body.map_kids] at hx
      obtain ⟨y, _, rfl⟩ := List.mem_map.mp hx
      simp at hxk

theorem clean_of_edit {w : World} {i : ObjId} {b : Body ObjId} {j : ObjId}
    (hc : Clean r (edit i b w).heap j) : Clean r w.heap j := by
  induction hc with
  | mk j h1 h2 ih =>
    have hji : j ≠ i := by rintro rfl; rw [edit_self] at h1; cases h1
    rw [edit_ne b w hji] at h1
    refine Clean.mk j h1 fun hm k hk => ?_
    exact ih (by rw [edit_ne b w hji]; exact hm) k (by rw [edit_ne b w hji]; exact hk)

/-- Ranks of a list of objects -/
def rankSum (rank : ObjId → Nat) : List ObjId → Nat
  | [] => 0
  | k :: ks => rank k + rankSum rank ks

theorem le_rankSum {rank : ObjId → Nat} {l : List ObjId} {k : ObjId} (h : k ∈ l) :
    rank k ≤ rankSum rank l := by
  induction l with
  | nil => cases h
  | cons a l ih =>
    rcases List.mem_cons.mp h with h | h
    · subst h; exact Nat.le_add_right _ _
    · exact Nat.le_trans (ih h) (Nat.le_add_left _ _)

theorem Sane.edit {w : World} (hs : Sane C r w) {i : ObjId} {b : Body ObjId}
    (hm : (w.heap i).mapped = true) (hkids : ∀ k ∈ b.subs, k < w.next)
    (hac : ∀ k ∈ b.subs, ¬ Reach (edit i b w).heap k i) (hst : NoStale r (edit i b w).heap) :
    Sane C r (MM.edit i b w) := by
  have hmapped : ∀ j, ((MM.edit i b w).heap j).mapped = (w.heap j).mapped := by
    intro j
    by_cases hj : j = i
    · subst hj; rw [edit_self]
    · rw [edit_ne b w hj]
  refine ⟨hs.caches, ?_, hst, ?_, ?_, ?_, ?_⟩
  · intro p hc
    have hnr := clean_edit hc
    have hpi : p ≠ i := by rintro rfl; exact hnr (Reach.refl _)
    obtain ⟨ref, h1, h2⟩ := hs.truth p (clean_of_edit hc)
    refine ⟨ref, by rw [edit_ne b w hpi]; exact h1, ?_⟩
    exact h2.same_world rfl (by rw [edit_ne b w hpi]) (look_edit hnr)
  · obtain ⟨rank, hrk⟩ := hs.ranked
    classical
    refine ⟨fun j => rank j + if Reach (MM.edit i b w).heap j i then rankSum rank b.subs + 1 else 0, ?_⟩
    intro p hp k hk
    by_cases hpi : p = i
    · subst hpi
      rw [edit_self] at hk
      simp only at hk ⊢
      rw [if_neg (hac k hk), if_pos (Reach.refl _)]
      have := le_rankSum (rank := rank) hk
      oomega
    · have h1 := hp
      have h2 := hk
      rw [edit_ne b w hpi] at h1 h2
      have h3 := hrk p h1 k h2
      simp only
      by_cases hkr : Reach (MM.edit i b w).heap k i
      · rw [if_pos hkr, if_pos (Reach.step p k i hp hk hkr)]
        exact Nat.add_lt_add_right h3 _
      · rw [if_neg hkr]
        exact Nat.lt_of_lt_of_le h3 (Nat.le_add_right _ _)
  · intro j x hx
    by_cases hj : j = i
    · subst hj; rw [edit_self] at hx; cases hx
    · rw [edit_ne b w hj] at hx ⊢; exact hs.home j x hx
  · intro j hj
    rw [hmapped] at hj
    have hji : j ≠ i := by rintro rfl; rw [hm] at hj; cases hj
    rw [edit_ne b w hji]
    exact hs.away j hj
  · intro p hp k hk
    by_cases hpi : p = i
    · subst hpi; rw [edit_self] at hk; exact hkids k hk
    · rw [edit_ne b w hpi] at hp hk
      exact hs.kids p hp k hk

/-! ### New objects -/

/-- A new object -/
def create (o : Obj) (w : World) : World :=
  { w with heap := w.heap.set w.next o, next := w.next + 1 }

theorem create_self (o : Obj) (w : World) : (create o w).heap w.next = o := by unfold create; simp

theorem create_ne {j : ObjId} (o : Obj) (w : World) (h : j ≠ w.next) :
    (create o w).heap j = w.heap j := by unfold create; simp [Heap.set_ne h]

theorem Sane.ne_next {w : World} (hs : Sane C r w) {p k : ObjId} (hp : (w.heap p).mapped = true)
    (hk : k ∈ (w.heap p).body.subs) : k ≠ w.next := Nat.ne_of_lt (hs.kids p hp k hk)

theorem look_create_of {w : World} (hk : ∀ p, (w.heap p).mapped = true → ∀ k ∈ (w.heap p).body.subs, k < w.next)
    (o : Obj) {j : ObjId} (hj : j ≠ w.next) :
    SameContent C w.repo.log w.heap (.mem j) w.repo.log (create o w).heap (.mem j) := by
  intro ks t
  refine look_congr (fun n => ∀ j, n = .mem j → j ≠ w.next) ?_ ks t (.mem j) (by rintro _ ⟨⟩; exact hj)
  intro n hn
  cases n with
  | sto r l => exact Or.inl (look_sto_heap r l)
  | mem j =>
    right
    have e : (create o w).heap j = w.heap j := create_ne o w (hn j rfl)
    refine ⟨by simp only [view, e], ?_⟩
    intro b' hb x hx k hxk
    by_cases hm : (w.heap j).mapped = true
    · rw [view_mapped hm] at hb
      cases hb
      rw [Body.map_kids] at hx
      obtain ⟨y, hy, rfl⟩ := List.mem_map.mp hx
      simp only at hxk
      cases hxk
      exact Nat.ne_of_lt (hk j hm _ (List.mem_map.mpr ⟨y, hy, rfl⟩))
    · obtain ⟨r, ref, a, _, _, _, rfl⟩ := (view_away (by simpa using hm)).mp hb
      rw [Body.map_kids] at hx
      obtain ⟨y, _, rfl⟩ := List.mem_map.mp hx
      simp at hxk

theorem look_create {w : World} (hs : Sane C r w) (o : Obj) {j : ObjId} (hj : j ≠ w.next) :
    SameContent C w.repo.log w.heap (.mem j) w.repo.log (create o w).heap (.mem j) := look_create_of hs.kids o hj

theorem clean_create {w : World} (hs : Sane C r w) (o : Obj) {j : ObjId}
    (hc : Clean r w.heap j) (hj : j ≠ w.next) : Clean r (create o w).heap j := by
  induction hc with
  | mk j h1 _ ih =>
    have e := create_ne o w hj
    refine Clean.mk j (by rw [e]; exact h1) fun hm k hk => ?_
    rw [e] at hm hk
    exact ih hm k hk (hs.ne_next hm hk)

theorem clean_of_create_of {w : World} (hs : ∀ p, (w.heap p).mapped = true → ∀ k ∈ (w.heap p).body.subs, k < w.next)
    (o : Obj) {j : ObjId} (hc : Clean r (create o w).heap j) (hj : j ≠ w.next) : Clean r w.heap j := by
  induction hc with
  | mk j h1 _ ih =>
    have e := create_ne o w hj
    rw [e] at h1
    refine Clean.mk j h1 fun hm k hk => ?_
    exact ih (by rw [e]; exact hm) k (by rw [e]; exact hk) (Nat.ne_of_lt (hs j hm k hk))

theorem clean_of_create {w : World} (hs : Sane C r w) (o : Obj) {j : ObjId}
    (hc : Clean r (create o w).heap j) (hj : j ≠ w.next) : Clean r w.heap j := clean_of_create_of hs.kids o hc hj

theorem Sane.create {w : World} (hs : Sane C r w) {o : Obj}
    (hkids : o.mapped = true → ∀ k ∈ o.body.subs, k < w.next)
    (hhome : ∀ x ∈ o.savedOn, x = r ∧ o.realm = some r) (haway : o.mapped = false → r ∈ o.savedOn)
    (htruth : Truth C r w.repo.log (create o w).heap w.next)
    (hst : NoStale r (create o w).heap) : Sane C r (create o w) := by
  refine ⟨hs.caches, ?_, hst, ?_, ?_, ?_, ?_⟩
  · intro p
    by_cases hp : p = w.next
    · subst hp; exact htruth
    · intro hc
      obtain ⟨ref, h1, h2⟩ := hs.truth p (clean_of_create hs o hc hp)
      refine ⟨ref, by rw [create_ne o w hp]; exact h1, ?_⟩
      exact h2.same_world rfl (by rw [create_ne o w hp]) (look_create hs o hp)
  · obtain ⟨rank, hrk⟩ := hs.ranked
    refine ⟨fun j => if j = w.next then rankSum rank o.body.subs + 1 else rank j, fun p hp k hk => ?_⟩
    by_cases hpn : p = w.next
    · subst hpn
      rw [create_self] at hp hk
      simp only [if_true]
      rw [if_neg (Nat.ne_of_lt (hkids hp k hk))]
      exact Nat.lt_succ_of_le (le_rankSum hk)
    · rw [create_ne o w hpn] at hp hk
      simp only [if_neg hpn, if_neg (hs.ne_next hp hk)]
      exact hrk p hp k hk
  · intro j x hx
    by_cases hj : j = w.next
    · subst hj; rw [create_self] at hx ⊢; exact hhome x hx
    · rw [create_ne o w hj] at hx ⊢; exact hs.home j x hx
  · intro j hj
    by_cases hjn : j = w.next
    · subst hjn; rw [create_self] at hj ⊢; exact haway hj
    · rw [create_ne o w hjn] at hj ⊢; exact hs.away j hj
  · intro p hp k hk
    show k < w.next + 1
    by_cases hpn : p = w.next
    · subst hpn; rw [create_self] at hp hk; exact Nat.lt_succ_of_lt (hkids hp k hk)
    · rw [create_ne o w hpn] at hp hk; exact Nat.lt_succ_of_lt (hs.kids p hp k hk)

/-- An object for a reference to something stored. -/
theorem Sane.load {w : World} (hs : Sane C r w) (hr : r ≠ []) {l : Link} (hok : RefOk l.kind l.ref)
    (hn : l.ref.isNone = false) (hfull : Full C w.repo.log w.heap (.sto r l)) :
    Sane C r (MM.create (l.obj r) w) := by
  have hsv : (l.obj r).savedOn = [r] := by
    unfold Link.obj
    simp [hn, hr]
  have hself := create_self (l.obj r) w
  have hsame : SameContent C w.repo.log (MM.create (l.obj r) w).heap (.mem w.next) w.repo.log
      (MM.create (l.obj r) w).heap (.sto r l) := by
    have := look_unloaded (C := C) (L := w.repo.log) (h := (MM.create (l.obj r) w).heap)
      (h' := (MM.create (l.obj r) w).heap) (i := w.next) (r := r) (ref := l.ref)
      (by rw [hself]; rfl) (by rw [hself]; rfl) (by rw [hself]; rfl)
    rw [hself, kind_linkObj] at this
    exact this
  have hclean : Clean r (MM.create (l.obj r) w).heap w.next :=
    Clean.mk _ (by rw [hself, hsv]; exact List.mem_singleton.mpr rfl) (fun h => by rw [hself] at h; cases h)
  refine hs.create ?_ ?_ ?_ ?_ ?_
  · intro h; cases h
  · intro x hx
    rw [hsv] at hx
    exact ⟨List.mem_singleton.mp hx, rfl⟩
  · intro _; rw [hsv]; exact List.mem_singleton.mpr rfl
  · intro _
    have hnorm : normRef l.kind l.ref = l.ref := by
      by_cases hk : l.kind = .tvl
      · obtain ⟨b, hb⟩ := view_ok_of_look (hfull [] [])
        obtain ⟨a, ha, _⟩ := view_sto.mp hb
        have hf := (strictFetch_ok ha).1
        unfold fetch at hf
        rw [if_neg (by simp [hn])] at hf
        split at hf
        · rename_i hacc
          rw [hk] at hacc
          unfold normRef
          rw [if_pos hk, hk]
          have : l.ref.cls = Kind.tvl.name := by simpa [Kind.accepts, Kind.isMtree] using hacc
          rw [← this]
        · cases hf
      · exact normRef_ne hk _
    refine ⟨l.ref, by rw [hself]; rfl, ?_, ?_, ?_⟩
    · rw [hself, kind_linkObj]; exact hok
    · exact Full.of_same hsame.symm (Full.of_same (look_sto_heap r l) hfull)
    · rw [hself, kind_linkObj, hnorm]; exact hsame
  · intro p h1 h2 k hk hnc q hq hkq
    have hp : p ≠ w.next := by rintro rfl; rw [hself] at h2; cases h2
    have hq' : q ≠ w.next := by rintro rfl; rw [hself] at hq; cases hq
    rw [create_ne _ w hp] at h1 h2 hk
    rw [create_ne _ w hq'] at hq hkq
    exact hs.stale p h1 h2 k hk
      (fun hcl => hnc (clean_create hs _ hcl (hs.ne_next h2 hk))) q hq hkq

/-! ### Writing -/

/-- No object passes for saved wrongly, and all may be written. -/
def Scope.all : Scope := ⟨fun _ => False, fun _ => True⟩

theorem noStale_shape {h : Heap} (hs : NoStale r h) : Shape r Scope.all h :=
  ⟨fun _ _ _ _ _ => trivial, fun _ _ _ _ _ _ h => h, fun p _ h1 h2 k hk hn q _ => hs p h1 h2 k hk hn q⟩

/-- An object is not written on its own while it is a modified part of a container
that passes for saved. -/
def NoStaleParent (r : Realm) (h : Heap) (i : ObjId) : Prop :=
  ∀ p, r ∈ (h p).savedOn → (h p).mapped = true → i ∈ (h p).body.subs → Clean r h i

theorem Sane.eff {w : World} (hs : Sane C r w) : w.eff = w.repo.log := by
  unfold World.eff; rw [hs.caches]; rfl

/-- How an object is written: by its own method, or a tree node through the wrapper
`DatasetTree` or `FileTree`. -/
inductive Via
  | own | dataset | file

/-- `write_out` of the object or of its wrapper. -/
def writeAs (C : Cfg) (via : Via) (n : Nat) (dest : Option Realm) (force : Bool) (i : ObjId) : W Ref :=
  match via with
  | .own => writeOut C n dest force i
  | .dataset => writeDatasetTree C n dest force i
  | .file => writeFileTree C n dest force i

theorem pyOr_some (hr : r ≠ []) (x : Option Realm) : pyOr (some r) x = some r := by
  cases r with
  | nil => exact absurd rfl hr
  | cons a r => rfl

theorem writeFileTree_eq (hr : r ≠ []) (n : Nat) (force : Bool) (i : ObjId) (w : World) :
    writeFileTree C n (some r) force i w = fileTreeWrite C (some r) (writeOut C n (some r) force i) w := by
  unfold writeFileTree
  rw [M.bind_of_ok (getObj_run i w), pyOr_some hr]

theorem writeAs_any (hr : r ≠ []) (via : Via) (n : Nat) (force : Bool) (i : ObjId) :
    M.Keeps (writeAs C via n (some r) force i) (Any r) := by
  have c := closed_any C r
  cases via with
  | own => exact writeOut_any hr n force i
  | dataset => exact c.proxyWrite (writeOut_any hr n force i)
  | file =>
    intro w
    show Any r w (writeFileTree C n (some r) force i w).2
    rw [writeFileTree_eq hr]
    exact c.fileTreeWrite (writeOut_any hr n force i) w

theorem caches_writeAs {via : Via} {n : Nat} {dest : Option Realm} {force : Bool} {i : ObjId}
    {w w' : World} {ref : Ref} (h : writeAs C via n dest force i w = (.ok ref, w'))
    (hc : w.caches = []) : w'.caches = [] := by
  have key : KeysOk (writeAs C via n dest force i) := by
    cases via with
    | own => exact KeysOk.writeOut C n dest force i
    | dataset =>
      show KeysOk (proxyWrite _)
      unfold proxyWrite
      exact KeysOk.bind (KeysOk.writeOut C n dest force i) fun ref =>
        KeysOk.ite (KeysOk.pure _) (KeysOk.bind (KeysOk.addRef _ _) fun _ => KeysOk.pure _)
    | file =>
      show KeysOk (writeFileTree C n dest force i)
      unfold writeFileTree
      refine KeysOk.bind (KeysOk.getObj i) fun o => ?_
      cases pyOr dest o.realm with
      | none => exact KeysOk.raise _
      | some x => exact KeysOk.fileTreeWrite (KeysOk.writeOut C n dest force i)
  have := key w w' ref h
  rw [hc] at this
  exact List.map_eq_nil_iff.mp this

theorem Post.quiet_left {rank : ObjId → Nat} {S : Scope} {n : Nat} {i : ObjId} {ref : Ref}
    {w w1 w2 : World} (q : Quiet w w1) (h : Post C r rank S n i ref w1 w2) :
    Post C r rank S n i ref w w2 := by
  refine ⟨?_, ?_, h.saved, h.good, h.hasRef, h.shape, h.truth⟩
  · have := h.step
    rw [q.heap] at this
    exact (Wrote.weaken q.step).trans this
  · intro j hj
    have := h.fresh j hj
    rw [q.heap] at this
    exact this

theorem Post.quiet_right {rank : ObjId → Nat} {S : Scope} {n : Nat} {i : ObjId} {ref : Ref}
    {w w1 w2 : World} (h : Post C r rank S n i ref w w1) (q : Quiet w1 w2)
    (hc : CollisionFree C w2.eff) : Post C r rank S n i ref w w2 := by
  refine ⟨h.step.trans (Wrote.weaken q.step), ?_, ?_, h.good.step q.step hc, ?_,
    h.shape.of_same q.heap, fun p hp => (h.truth p hp).quiet q hc⟩
  · rw [q.heap]; exact h.fresh
  · rw [q.heap]; exact h.saved
  · rw [q.heap]; exact h.hasRef

/-- Writing an object, where the objects in `S` may pass for saved wrongly. -/
theorem writeAs_post {w w' : World} (hca : w.caches = []) (hr : r ≠ []) {via : Via} {n : Nat} {force : Bool}
    {i : ObjId} {ref : Ref} (h : writeAs C via n (some r) force i w = (.ok ref, w'))
    (hc : CollisionFree C w'.repo.log) (hsto : Storable w.heap i) (hal : Alone r w.heap i)
    {rank : ObjId → Nat} {S : Scope} (ht : ∀ p, ¬ S p → Truth C r w.repo.log w.heap p) (hrk : Ranked rank w.heap) (hsh : Shape r S w.heap)
    (hen : Entry r rank S w.heap i) : Post C r rank S n i ref w w' := by
  have hc' : CollisionFree C w'.eff := by
    unfold World.eff; rw [caches_writeAs h hca]; exact hc
  have hnd : (dkeys w.caches).Nodup := by rw [hca]; exact List.nodup_nil
  have main : ∀ w0 w1 ref1, Quiet w w0 → writeOut C n (some r) force i w0 = (.ok ref1, w1) →
      CollisionFree C w1.eff → Post C r rank S n i ref1 w w1 := by
    intro w0 w1 ref1 q h1 hc1
    have n0 := q.caches hnd
    have a1 := writeOut_any (C := C) hr n force i w0
    rw [h1] at a1
    have hc0 := hc1.mono (a1.grows n0)
    refine Post.quiet_left q (writeSpec C hr rank n S force i w0 w1 ref1 h1 hc1 n0 ?_ ?_
      ?_ ?_ ?_ ?_)
    · rw [q.heap]; exact hrk
    · rw [q.heap]; exact hsto
    · rw [q.heap]; exact hsh
    · intro p hp
      refine Truth.quiet q hc0 ?_
      unfold World.eff
      rw [hca]
      exact ht p hp
    · rw [q.heap]; exact hen
    · rw [q.heap]; exact hal
  cases via with
  | own => exact main w w' ref (Quiet.refl w) h hc'
  | dataset =>
    change proxyWrite _ w = _ at h
    unfold proxyWrite at h
    obtain ⟨ref1, w1, e1, h⟩ := M.bind_ok h
    split at h
    · cases h; exact main w _ _ (Quiet.refl w) e1 hc'
    · obtain ⟨_, w2, e2, h⟩ := M.bind_ok h
      cases h
      have q := (addRef_quiet e2).1
      exact Post.quiet_right (main w _ _ (Quiet.refl w) e1 (hc'.mono q.grows)) q hc'
  | file =>
    change writeFileTree C n (some r) force i w = _ at h
    rw [writeFileTree_eq hr] at h
    unfold fileTreeWrite at h
    simp only at h
    obtain ⟨_, w0, e0, h⟩ := M.bind_ok h
    obtain ⟨ref1, w1, e1, h⟩ := M.bind_ok h
    obtain ⟨_, w2, e2, h⟩ := M.bind_ok h
    have q0 := (cacheRealm_quiet e0).1
    have n0 := q0.caches hnd
    have a1 := writeOut_any (C := C) hr n force i w0
    rw [e1] at a1
    have q2 := (flushRealm_quiet (a1.nodup n0) e2).1
    split at h
    · cases h
      exact Post.quiet_right (main w0 _ _ q0 e1 (hc'.mono q2.grows)) q2 hc'
    · obtain ⟨_, w3, e3, h⟩ := M.bind_ok h
      cases h
      have q3 := q2.trans (addRef_quiet e3).1
      exact Post.quiet_right (main w0 _ _ q0 e1 (hc'.mono q3.grows)) q3 hc'

/-- Writing an object of a sane process, where the objects in `S` may pass for saved wrongly. -/
theorem Sane.postIn {w w' : World} (hs : Sane C r w) (hr : r ≠ []) {via : Via} {n : Nat} {force : Bool}
    {i : ObjId} {ref : Ref} (h : writeAs C via n (some r) force i w = (.ok ref, w'))
    (hc : CollisionFree C w'.repo.log) (hsto : Storable w.heap i) (hal : Alone r w.heap i)
    {rank : ObjId → Nat} {S : Scope} (hrk : Ranked rank w.heap) (hsh : Shape r S w.heap)
    (hen : Entry r rank S w.heap i) : Post C r rank S n i ref w w' :=
  writeAs_post hs.caches hr h hc hsto hal (fun p _ => hs.truth p) hrk hsh hen

/-- The loaded objects that contain `i`, directly or not -/
def Above (h : Heap) (i p : ObjId) : Prop := p ≠ i ∧ Reach h p i

theorem Ranked.reach {rank : ObjId → Nat} {h : Heap} (hrk : Ranked rank h) {p i : ObjId} (hr : Reach h p i) :
    p = i ∨ rank i < rank p := by
  induction hr with
  | refl => exact Or.inl rfl
  | step a k b ha hka _ ih =>
    have h1 := hrk a ha k hka
    rcases ih with rfl | h2
    · exact Or.inr h1
    · exact Or.inr (Nat.lt_trans h2 h1)

theorem Ranked.above {rank : ObjId → Nat} {h : Heap} (hrk : Ranked rank h) {i p k : ObjId} (hm : (h p).mapped = true)
    (hk : k ∈ (h p).body.subs) (hr : Reach h k i) : Above h i p := by
  have h1 := hrk p hm k hk
  refine ⟨?_, Reach.step p k i hm hk hr⟩
  rintro rfl
  rcases hrk.reach hr with rfl | h2
  · exact absurd h1 (Nat.lt_irrefl _)
  · exact absurd (Nat.lt_trans h1 h2) (Nat.lt_irrefl _)

theorem Sane.shapeAbove {w : World} (hs : Sane C r w) {rank : ObjId → Nat} (hrk : Ranked rank w.heap) (i : ObjId) :
    Shape r ⟨Above w.heap i, fun _ => True⟩ w.heap ∧ Entry r rank ⟨Above w.heap i, fun _ => True⟩ w.heap i := by
  refine ⟨⟨fun _ _ _ _ _ => trivial, ?_, fun p _ h1 h2 k hk hn q _ => hs.stale p h1 h2 k hk hn q⟩,
    ⟨trivial, ?_, ?_⟩⟩
  · intro p hp _ hm k hk hS
    exact hp (hrk.above hm hk hS.2)
  · intro p hS
    exact (hrk.reach hS.2).resolve_left hS.1
  · intro p hp _ hm hk
    exact absurd (hrk.above hm hk (Reach.refl i)) hp

/-- Writing an object of a sane process.  The objects that contain it may afterwards pass for saved
although they are stored with its old content. -/
theorem Sane.postAbove {w w' : World} (hs : Sane C r w) (hr : r ≠ []) {via : Via} {n : Nat} {force : Bool}
    {i : ObjId} {ref : Ref} (h : writeAs C via n (some r) force i w = (.ok ref, w'))
    (hc : CollisionFree C w'.repo.log) (hsto : Storable w.heap i) (hal : Alone r w.heap i) :
    ∃ rank, Ranked rank w.heap ∧ Post C r rank ⟨Above w.heap i, fun _ => True⟩ n i ref w w' := by
  obtain ⟨rank, hrk⟩ := hs.ranked
  obtain ⟨h1, h2⟩ := hs.shapeAbove hrk i
  exact ⟨rank, hrk, hs.postIn hr h hc hsto hal hrk h1 h2⟩

theorem Sane.post {w w' : World} (hs : Sane C r w) (hr : r ≠ []) {via : Via} {n : Nat} {force : Bool}
    {i : ObjId} {ref : Ref} (h : writeAs C via n (some r) force i w = (.ok ref, w'))
    (hc : CollisionFree C w'.repo.log) (hsto : Storable w.heap i) (hal : Alone r w.heap i)
    (hp : NoStaleParent r w.heap i) :
    ∃ rank, Post C r rank Scope.all n i ref w w' := by
  obtain ⟨rank, hrk⟩ := hs.ranked
  exact ⟨rank, hs.postIn hr h hc hsto hal hrk (noStale_shape hs.stale) ⟨trivial, fun _ h => h.elim, fun p _ => hp p⟩⟩

/-- Writing keeps the objects in their repository. -/
theorem Sane.write_home {w w' : World} (hs : Sane C r w) (any : Any r w w') (j : ObjId) (x : Realm)
    (hx : x ∈ (w'.heap j).savedOn) : x = r ∧ (w'.heap j).realm = some r := by
  by_cases hxr : x = r
  · subst hxr
    refine ⟨rfl, ?_⟩
    rcases any.home j hx with e | e
    · have := (hs.home j x e).2
      rcases any.realm j with e' | e'
      · rw [e', this]
      · exact e'
    · exact e
  · exact absurd (hs.home j x (any.other j x hxr hx)).1 hxr

theorem Sane.write_plain {w w' : World} (hs : Sane C r w) (hr : r ≠ []) {via : Via} {n : Nat} {force : Bool}
    {i : ObjId} {ref : Ref} (h : writeAs C via n (some r) force i w = (.ok ref, w')) :
    w'.caches = [] ∧ w'.eff = w'.repo.log ∧
      ∀ j x, x ∈ (w'.heap j).savedOn → x = r ∧ (w'.heap j).realm = some r := by
  have hca := caches_writeAs h hs.caches
  have any := writeAs_any (C := C) hr via n force i w
  rw [h] at any
  exact ⟨hca, by unfold World.eff; rw [hca]; rfl, hs.write_home any⟩

theorem Sane.write {w w' : World} (hs : Sane C r w) (hr : r ≠ []) {via : Via} {n : Nat} {force : Bool}
    {i : ObjId} {ref : Ref} (h : writeAs C via n (some r) force i w = (.ok ref, w'))
    (hc : CollisionFree C w'.repo.log) (hsto : Storable w.heap i) (hal : Alone r w.heap i)
    (hp : NoStaleParent r w.heap i) : Sane C r w' := by
  obtain ⟨rank, post⟩ := hs.post hr h hc hsto hal hp
  have hca := caches_writeAs h hs.caches
  have heff : w'.eff = w'.repo.log := by unfold World.eff; rw [hca]; rfl
  have any : Any r w w' := by
    have := writeAs_any (C := C) hr via n force i w
    rw [h] at this
    exact this
  obtain ⟨rank0, hrk⟩ := hs.ranked
  refine ⟨hca, fun p => by rw [← heff]; exact post.truth p (fun h => h), ?_, ⟨rank0, hrk.mono any.same⟩,
    ?_, ?_, ?_⟩
  · intro p h1 h2 k hk hnc q hq hkq
    exact post.shape.alone p (fun h => h) h1 h2 k hk hnc q trivial hq hkq
  · exact hs.write_home any
  · intro j hj
    rw [(any.same j).mapped] at hj
    exact any.saved j r (hs.away j hj)
  · intro p hp k hk
    rw [(any.same p).mapped] at hp
    rw [(any.same p).body] at hk
    rw [any.next]
    exact hs.kids p hp k hk

theorem Sane.grows {w w' : World} (hs : Sane C r w) (any : Any r w w') (hca : w'.caches = []) :
    Grows w.repo.log w'.repo.log := by
  have := any.grows (by rw [hs.caches]; exact List.nodup_nil)
  rw [hs.eff] at this
  unfold World.eff at this
  rw [hca] at this
  exact this

/-- Writing an object that is not loaded does nothing, except for the notes of the
wrappers. -/
theorem writeAs_away {w w' : World} (hr : r ≠ []) {via : Via} {n : Nat} {force : Bool} {i : ObjId}
    {ref : Ref} (h : writeAs C via n (some r) force i w = (.ok ref, w')) (hca : w.caches = [])
    (hm : (w.heap i).mapped = false) : Quiet w w' := by
  have main : ∀ w0 w1 ref1, (w0.heap i).mapped = false →
      writeOut C n (some r) force i w0 = (.ok ref1, w1) → w1 = w0 := by
    intro w0 w1 ref1 hm h
    cases n with
    | zero => cases h
    | succ n =>
      rw [writeOut_away hm] at h
      split at h
      · split at h
        · injection h with _ h; exact h.symm
        · cases h
      · cases h
  cases via with
  | own => rw [main w w' ref hm h]; exact Quiet.refl w
  | dataset =>
    change proxyWrite _ w = _ at h
    unfold proxyWrite at h
    obtain ⟨ref1, w1, e1, g⟩ := M.bind_ok h
    rw [main w w1 ref1 hm e1] at g
    split at g
    · cases g; exact Quiet.refl _
    · obtain ⟨_, w2, e2, g2⟩ := M.bind_ok g
      cases g2
      exact (addRef_quiet e2).1
  | file =>
    change writeFileTree C n (some r) force i w = _ at h
    rw [writeFileTree_eq hr] at h
    unfold fileTreeWrite at h
    simp only at h
    obtain ⟨_, w0, e0, g0⟩ := M.bind_ok h
    obtain ⟨ref1, w1, e1, g1⟩ := M.bind_ok g0
    obtain ⟨_, w2, e2, g2⟩ := M.bind_ok g1
    have q0 := (cacheRealm_quiet e0).1
    have e10 := main w0 w1 ref1 (by rw [q0.heap]; exact hm) e1
    rw [e10] at e2
    have q2 := q0.trans (flushRealm_quiet (q0.caches (by rw [hca]; exact List.nodup_nil)) e2).1
    split at g2
    · cases g2; exact q2
    · obtain ⟨_, w3, e3, g3⟩ := M.bind_ok g2
      cases g3
      exact q2.trans (addRef_quiet e3).1

/-- Writing keeps the content of all objects. -/
theorem Sane.write_look {w w' : World} (hs : Sane C r w) (hr : r ≠ []) {via : Via} {n : Nat}
    {force : Bool} {i : ObjId} {ref : Ref} (h : writeAs C via n (some r) force i w = (.ok ref, w'))
    (hc : CollisionFree C w'.repo.log) (hsto : Storable w.heap i) (hal : Alone r w.heap i)
    (j : ObjId) :
    SameContent C w.repo.log w.heap (.mem j) w'.repo.log w'.heap (.mem j) := by
  obtain ⟨rank, _, post⟩ := hs.postAbove hr h hc hsto hal
  have any : Any r w w' := by
    have := writeAs_any (C := C) hr via n force i w
    rw [h] at this
    exact this
  have hg := hs.grows any (caches_writeAs h hs.caches)
  intro ks t
  refine (look_mem_mono hg hc ?_ any.same ks t j (hs.full j ks t)).symm
  intro p x ref' loc hmp hx hf hl hn
  by_cases hm : (w.heap i).mapped = true
  case neg => exact Or.inr ((writeAs_away hr h hs.caches (by simpa using hm)).refs x loc)
  rcases post.step.refs x loc with ⟨rfl, e⟩ | e
  · have hpi : p ≠ i := by rintro rfl; rw [hm] at hmp; cases hmp
    have := hal loc e p hpi ref' hf hl
    exact absurd (hs.away p hmp) this.1
  · exact Or.inr e

/-! ### Writes that fail -/

/-- What is assumed of the state before an object is written. -/
structure BeforeWrite (C : Cfg) (r : Realm) (rank : ObjId → Nat) (S : Scope) (i : ObjId) (w : World) : Prop where
  nodup : (dkeys w.caches).Nodup
  ranked : Ranked rank w.heap
  storable : Storable w.heap i
  shape : Shape r S w.heap
  truth : ∀ p, ¬ S p → Truth C r w.eff w.heap p
  entry : Entry r rank S w.heap i
  alone : Alone r w.heap i
  half : NoHalf r w.heap i

theorem BeforeWrite.step {rank : ObjId → Nat} {S : Scope} {i : ObjId} {w w' : World}
    (b : BeforeWrite C r rank S i w) (h : FailPost C r rank S i w w') : BeforeWrite C r rank S i w' where
  nodup := h.step.nodup b.nodup
  ranked := b.ranked.mono h.step.same
  storable := b.storable.mono h.step.same
  shape := h.shape
  truth := h.truth
  entry := by
    refine ⟨b.entry.dom, b.entry.below, ?_⟩
    intro p h0 h1 h2 h3
    rcases h.fresh p h1 with e | e
    · rw [(h.step.same p).mapped] at h2
      rw [(h.step.same p).body] at h3
      exact h.step.clean (b.entry.parents p h0 e h2 h3)
    · exact e.1.kid h2 h3
  alone := b.alone.step h.step
  half := b.half.step h.step.same h.step.saved fun j hj => (h.fresh j hj).imp id fun e => e.1

/-- Writing an object, whatever the outcome -/
def Attempt (C : Cfg) (r : Realm) (rank : ObjId → Nat) (S : Scope) (i : ObjId) (w w' : World) : Prop :=
  Any r w w' ∧ (CollisionFree C w'.eff → BeforeWrite C r rank S i w → FailPost C r rank S i w w')

theorem FailPost.trans {rank : ObjId → Nat} {S : Scope} {i : ObjId} {a b c : World}
    (h : FailPost C r rank S i a b) (h' : FailPost C r rank S i b c) : FailPost C r rank S i a c := by
  have h2 := h'.step
  rw [(h.step.same i).kind] at h2
  refine ⟨h.step.trans h2, ?_, h'.shape, h'.truth⟩
  intro j hj
  rcases h'.fresh j hj with e | e
  · rcases h.fresh j e with e | e
    · exact Or.inl e
    · exact Or.inr ⟨h'.step.clean e.1, e.2⟩
  · exact Or.inr e

theorem gentle_attempt {rank : ObjId → Nat} {S : Scope} {i : ObjId} : Gentle C r (Attempt C r rank S i) where
  refl w := ⟨Any.refl r w, fun _ b => ⟨Wrote.refl _ _ _, fun j hj => Or.inl hj, b.shape, b.truth⟩⟩
  trans a b c h h' := by
    refine ⟨h.1.trans h'.1, fun hc pre => ?_⟩
    have p1 := h.2 (hc.mono (h'.1.grows (h.1.nodup pre.nodup))) pre
    exact p1.trans (h'.2 hc (pre.step p1))
  silent w w' h := by
    refine ⟨h.any, fun hc b => ?_⟩
    have m := (h.quiet b.nodup).mid (r := r) (rank := rank) (m := 0) hc b.shape b.truth
    exact ⟨m.step.weaken, fun j hj => (m.fresh j hj).imp id fun e => absurd e.2 (Nat.not_lt_zero _), m.shape, m.truth⟩

theorem writeAs_attempt (hr : r ≠ []) (rank : ObjId → Nat) (S : Scope) (via : Via) (n : Nat) (i : ObjId) :
    M.Keeps (writeAs C via n (some r) false i) (Attempt C r rank S i) := by
  have main : M.Keeps (writeOut C n (some r) false i) (Attempt C r rank S i) := by
    intro w
    refine ⟨writeOut_any hr n false i w, fun hc b => ?_⟩
    cases hx : writeOut C n (some r) false i w with
    | mk res w' =>
      rw [hx] at hc
      cases res with
      | ok ref =>
        have p := writeSpec C hr rank n _ false i w w' ref hx hc b.nodup b.ranked b.storable b.shape b.truth b.entry b.alone
        exact ⟨p.step, p.fresh, p.shape, p.truth⟩
      | error e => exact failSpec C hr rank n _ i w w' e hx hc b.nodup b.ranked b.storable b.shape b.truth b.entry b.alone b.half
  cases via with
  | own => exact main
  | dataset => exact gentle_attempt.proxyWrite main
  | file =>
    intro w
    show Attempt C r rank S i w (writeFileTree C n (some r) false i w).2
    rw [writeFileTree_eq hr]
    exact gentle_attempt.fileTreeWrite main w

/-- Writing an object that is not loaded stores nothing, whatever the outcome. -/
theorem writeAs_away_silent (hr : r ≠ []) (via : Via) (n : Nat) (force : Bool) (i : ObjId) :
    M.Keeps (writeAs C via n (some r) force i) (fun w w' => (w.heap i).mapped = false → Silent r w w') := by
  have st : Gentle C r (fun w w' => (w.heap i).mapped = false → Silent r w w') :=
    ⟨fun w _ => Silent.refl r w, fun a b c h h' hm => (h hm).trans (h' (by rw [(h hm).heap]; exact hm)), fun _ _ h _ => h⟩
  have main : M.Keeps (writeOut C n (some r) force i) (fun w w' => (w.heap i).mapped = false → Silent r w w') := by
    intro w hm
    have : (writeOut C n (some r) force i w).2 = w := by
      cases n with
      | zero => rfl
      | succ n =>
        rw [writeOut_away hm]
        split
        · split <;> rfl
        · rfl
    rw [this]
    exact Silent.refl r w
  cases via with
  | own => exact main
  | dataset => exact st.proxyWrite main
  | file =>
    intro w
    show (w.heap i).mapped = false → Silent r w (writeFileTree C n (some r) force i w).2
    rw [writeFileTree_eq hr]
    exact st.fileTreeWrite main w

/-- A write that was tried, and that left no cache behind. -/
theorem Sane.attempt {w w' : World} (hs : Sane C r w) (hr : r ≠ []) {via : Via} {n : Nat} {i : ObjId}
    (h : (writeAs C via n (some r) false i w).2 = w') (hca : w'.caches = [])
    (hc : CollisionFree C w'.repo.log) (hsto : Storable w.heap i) (hal : Alone r w.heap i)
    (hp : NoStaleParent r w.heap i) (hh : NoHalf r w.heap i) :
    Sane C r w' ∧ ∀ j, SameContent C w.repo.log w.heap (.mem j) w'.repo.log w'.heap (.mem j) := by
  obtain ⟨rank, hrk⟩ := hs.ranked
  have heff : w'.eff = w'.repo.log := by unfold World.eff; rw [hca]; rfl
  have at1 := writeAs_attempt (C := C) hr rank Scope.all via n i w
  rw [h] at at1
  have any := at1.1
  have post := at1.2 (by rw [heff]; exact hc) ⟨by rw [hs.caches]; exact List.nodup_nil, hrk, hsto,
    noStale_shape hs.stale, fun p _ => by rw [hs.eff]; exact hs.truth p, ⟨trivial, fun _ h => h.elim, fun p _ => hp p⟩, hal, hh⟩
  refine ⟨⟨hca, fun p => by rw [← heff]; exact post.truth p (fun h => h), ?_, ⟨rank, hrk.mono any.same⟩,
    ?_, ?_, ?_⟩, ?_⟩
  · intro p h1 h2 k hk hnc q hq hkq
    exact post.shape.alone p (fun h => h) h1 h2 k hk hnc q trivial hq hkq
  · intro j x hx
    by_cases hxr : x = r
    · subst hxr
      refine ⟨rfl, ?_⟩
      rcases any.home j hx with e | e
      · have := (hs.home j x e).2
        rcases any.realm j with e' | e'
        · rw [e', this]
        · exact e'
      · exact e
    · exact absurd (hs.home j x (any.other j x hxr hx)).1 hxr
  · intro j hj
    rw [(any.same j).mapped] at hj
    exact any.saved j r (hs.away j hj)
  · intro p hp k hk
    rw [(any.same p).mapped] at hp
    rw [(any.same p).body] at hk
    rw [any.next]
    exact hs.kids p hp k hk
  · intro j ks t
    refine (look_mem_mono (hs.grows any hca) hc ?_ any.same ks t j (hs.full j ks t)).symm
    intro p x ref' loc hmp hx hf hl hn
    by_cases hpi : p = i
    · subst hpi
      have := writeAs_away_silent (C := C) hr via n false p w hmp
      rw [h] at this
      exact Or.inr (this.refs x loc)
    · rcases post.step.refs x loc with ⟨rfl, e⟩ | e
      · have := hal loc e p hpi ref' hf hl
        exact absurd (hs.away p hmp) this.1
      · exact Or.inr e

/-! ### Changes by others -/

/-- No object stands for what the name means in the repository. -/
def NoReader (r : Realm) (h : Heap) (nm : Str) : Prop :=
  ∀ x ref, (h x).ref = some ref → ref.loc = some nm → r ∉ (h x).savedOn ∧ (h x).realm ≠ some r

/-- An unloaded object stands for the same as before. -/
structure AwayKept (o o' : Obj) : Prop where
  mapped : o'.mapped = false
  realm : o'.realm = o.realm
  kind : o'.kind = o.kind
  ref : ∃ ref, o.ref = some ref ∧ (o'.ref = some ref ∨ o'.ref = some ⟨o.kind.name, ref.loc⟩)
  marks : ∀ x, o.realm = some x → x ∈ o.savedOn → x ∈ o'.savedOn
  only : ∀ x ∈ o'.savedOn, x ∈ o.savedOn

theorem AwayKept.trans {a b c : Obj} (h : AwayKept a b) (h' : AwayKept b c) : AwayKept a c := by
  refine ⟨h'.mapped, h'.realm.trans h.realm, h'.kind.trans h.kind, ?_, ?_, ?_⟩
  · obtain ⟨ref, e1, e2⟩ := h.ref
    obtain ⟨ref', e3, e4⟩ := h'.ref
    refine ⟨ref, e1, ?_⟩
    rw [h.kind] at e4
    rcases e2 with e2 | e2 <;> rw [e2] at e3 <;> injection e3 with e3 <;> subst e3
    · exact e4
    · rcases e4 with e4 | e4 <;> exact Or.inr e4
  · intro x hx hm
    exact h'.marks x (h.realm.trans hx) (h.marks x hx hm)
  · exact fun x hx => h.only x (h'.only x hx)

/-- The repositories after other processes stored objects, and another sequence of
failures. -/
def outside (L : Log) (fs : List Fault) (w : World) : World := { w with repo := ⟨L, fs⟩ }

theorem Sane.outside_look {w : World} (hs : Sane C r w) {L : Log} {fs : List Fault}
    (hg : Grows w.repo.log L) (hn : ∀ x n, refOf L x n = refOf w.repo.log x n)
    (hc : CollisionFree C L) (j : ObjId) :
    SameContent C w.repo.log w.heap (.mem j) L (outside L fs w).heap (.mem j) := fun ks t =>
  (look_mem_mono hg hc (fun _ x _ loc _ _ _ _ _ => Or.inr (hn x loc)) (fun _ => SameObj.refl _) ks t j
    (hs.full j ks t)).symm

theorem Sane.outside {w : World} (hs : Sane C r w) {L : Log} {fs : List Fault}
    (hg : Grows w.repo.log L) (hn : ∀ x n, refOf L x n = refOf w.repo.log x n)
    (hc : CollisionFree C L) : Sane C r (outside L fs w) := by
  refine ⟨hs.caches, ?_, hs.stale, hs.ranked, hs.home, hs.away, hs.kids⟩
  intro p hcl
  obtain ⟨ref, h1, h2⟩ := hs.truth p hcl
  exact ⟨ref, h1, h2.mono hg hc (fun _ x _ loc _ _ _ _ _ => Or.inr (hn x loc))
    (fun _ => SameObj.refl _) (fun loc _ _ => Or.inr (hn r loc))⟩

/-! ### Sessions -/

/-- The states that a process working with one repository `r` can be in.

* `start`: a process begins with no objects, at any state of the repositories.
* `new`: an object is created from parts.
* `load`: an object is created for a reference to something complete in the repository.
* `read`: an object is loaded, or this fails.  Trees without children inside of
  version lists are excluded, because reading them gives an object that is not known
  as saved.
* `purge`: an object is purged, or this fails.  Tree version lists that were written
  are excluded, because they get a wrong reference.
* `edit`: a loaded object is changed; it becomes no part of itself.
* `write`: an object is written.  Its content can be stored, it is not on its own a
  modified part of a container that passes for saved, and no other object was read
  from the name that is set.
* `failed`: writing an object fails.  Objects that pass for saved are saved with all
  their parts, and the write did not fail inside a file tree (`caches`); in the other
  cases later writes lose changes or fail, see C51, and the session ends.
* `outside`: other processes store objects; names are not changed, and no two stored
  objects have the same hash.  The failures to come are any.

Creating and changing objects do not make an unsaved object a part of two containers
of which one passes for saved (`NoStale`). -/
inductive Session (C : Cfg) (r : Realm) : World → Prop
  | start (w : World) : w.caches = [] → w.next = 0 → (∀ j, w.heap j = Obj.new (Body.empty .text)) →
      Session C r w
  | new (w : World) (b : Body ObjId) : Session C r w → (∀ k ∈ b.subs, k < w.next) →
      NoStale r (create (Obj.new b) w).heap → Session C r (create (Obj.new b) w)
  | load (w : World) (l : Link) : Session C r w → RefOk l.kind l.ref → l.ref.isNone = false →
      Full C w.repo.log w.heap (.sto r l) → Session C r (create (l.obj r) w)
  | read (w : World) (i : ObjId) : Session C r w → i < w.next →
      (∀ j, ((ensureMapped C i w).2.heap j).mapped = false →
        ((ensureMapped C i w).2.heap j).savedOn ≠ []) →
      Session C r (ensureMapped C i w).2
  | purge (w : World) (n : Nat) (i : ObjId) : Session C r w →
      (∀ j, Reach w.heap i j → OwnName w.heap j) → Session C r (purge n i w).2
  | edit (w : World) (i : ObjId) (b : Body ObjId) : Session C r w → (w.heap i).mapped = true →
      (∀ k ∈ b.subs, k < w.next) → (∀ k ∈ b.subs, ¬ Reach (edit i b w).heap k i) →
      NoStale r (edit i b w).heap → Session C r (edit i b w)
  | write (w : World) (via : Via) (n : Nat) (force : Bool) (i : ObjId) (ref : Ref) (w' : World) :
      Session C r w → writeAs C via n (some r) force i w = (.ok ref, w') →
      CollisionFree C w'.repo.log → Storable w.heap i → Alone r w.heap i →
      NoStaleParent r w.heap i → Session C r w'
  | failed (w : World) (via : Via) (n : Nat) (i : ObjId) (e : PyErr) (w' : World) :
      Session C r w → writeAs C via n (some r) false i w = (.error e, w') → w'.caches = [] →
      CollisionFree C w'.repo.log → Storable w.heap i → Alone r w.heap i →
      NoStaleParent r w.heap i → NoHalf r w.heap i → Session C r w'
  | outside (w : World) (L : Log) (fs : List Fault) : Session C r w → Grows w.repo.log L →
      (∀ x n, refOf L x n = refOf w.repo.log x n) → CollisionFree C L →
      Session C r (outside L fs w)

theorem Session.sane (hr : r ≠ []) {w : World} (h : Session C r w) : Sane C r w := by
  induction h with
  | start w h1 h2 h3 =>
    have hsv : ∀ j, (w.heap j).savedOn = [] := fun j => by rw [h3]; rfl
    have hsub : ∀ j, (w.heap j).body.subs = [] := fun j => by rw [h3]; rfl
    refine ⟨h1, ?_, ?_, ⟨fun _ => 0, ?_⟩, ?_, ?_, ?_⟩
    · intro p hc
      have := hc.flag
      rw [hsv] at this; cases this
    · intro p hp; rw [hsv] at hp; cases hp
    · intro p _ k hk; rw [hsub] at hk; cases hk
    · intro j x hx; rw [hsv] at hx; cases hx
    · intro j hj; rw [h3] at hj; cases hj
    · intro p _ k hk; rw [hsub] at hk; cases hk
  | new w b _ hk hst ih =>
    refine ih.create (fun _ => hk) (by intro x hx; cases hx) (by intro h; cases h) ?_ hst
    intro hc
    have := hc.flag
    rw [create_self] at this
    cases this
  | load w l _ h1 h2 h3 ih => exact ih.load hr h1 h2 h3
  | read w i _ hi haway ih =>
    by_cases hm : (w.heap i).mapped = true
    · rw [ensureMapped_mapped hm]; exact ih
    · exact ih.read hr hi (by simpa using hm) (ensureMapped_cases C i w (by simpa using hm)) haway
  | purge w n i _ ho ih => exact (ih.purge n i w ho).1.sane
  | edit w i b _ hm hk hac hst ih => exact ih.edit hm hk hac hst
  | write w via n force i ref w' _ h hc hsto hal hp ih => exact ih.write hr h hc hsto hal hp
  | failed w via n i e w' _ h hca hc hsto hal hp hh ih =>
    exact (ih.attempt hr (by rw [h]) hca hc hsto hal hp hh).1
  | outside w L fs _ hg hn hc ih => exact ih.outside hg hn hc

end MM
