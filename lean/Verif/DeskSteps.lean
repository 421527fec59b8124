/-
The steps of a process that adds metadata keep what holds in it.
-/
import Verif.Desk

namespace MM

variable {C : Cfg} {r : Realm}

/-- An object that is part of nothing -/
def Loose (w : World) (x : ObjId) : Prop := ∀ p, ¬ Has w.heap p x

theorem Loose.loads {t u : ObjId} {w w' : World} (hl : Loads C w w') (d : Desk C r t u w') {x : ObjId} (hx : x < w.next)
    (h : Loose w x) : Loose w' x := by
  intro p hp
  have hpn := d.rooted.bare p x hp
  by_cases hold : w.next ≤ p ∨ (w.heap p).mapped = false
  · exact absurd (hl.newKids p hpn hp.1 hold x hp.2) (Nat.not_le.mpr hx)
  · have hlt : p < w.next := Nat.lt_of_not_le fun e => hold (Or.inl e)
    have hm : (w.heap p).mapped = true := by
      cases h : (w.heap p).mapped with
      | true => rfl
      | false => exact absurd (Or.inr h) hold
    have e := hl.loaded p hlt hm
    unfold Has at hp
    rw [e] at hp
    exact h p hp

theorem Reach.grown {w w' : World} (hg : Grown w w') (hf : Fine C w) {a b : ObjId} (hr : Reach w.heap a b) :
    a < w.next → Reach w'.heap a b := by
  induction hr with
  | refl => intro _; exact Reach.refl _
  | step a k c hm hk _ ih =>
    intro ha
    obtain ⟨e, he, rfl⟩ := List.mem_map.mp hk
    have := hg.kids a ha hm e.1 e.2 (dget_of_mem (hf.formed a hm).keys he)
    exact Reach.step a e.2.2 c (hg.mapped a ha hm) (dget_sub this) (ih (hf.kids a hm _ hk))

/-- A new object without parts -/
theorem Desk.create {t u : ObjId} {w : World} (d : Desk C r t u w) {b : Body ObjId} (hb : DataOk b.data) (hk : b.kids = []) :
    Desk C r t u (MM.create (Obj.new b) w) ∧ Loose (MM.create (Obj.new b) w) w.next := by
  have hform : Formed b := ⟨by rw [hk]; exact List.nodup_nil, (fun e he => by rw [hk] at he; cases he),
    (fun _ e he => by rw [hk] at he; cases he)⟩
  have hs := d.sound.create hform (fun e he => by rw [hk] at he; cases he)
  have has : ∀ q k, Has (MM.create (Obj.new b) w).heap q k → Has w.heap q k := by
    intro q k h
    by_cases hq : q = w.next
    · subst hq
      have := h.2
      rw [create_self] at this
      unfold Body.subs at this
      rw [show (Obj.new b).body.kids = [] from hk] at this
      cases this
    · unfold Has at h
      rw [create_ne _ _ hq] at h
      exact h
  refine ⟨d.change hs.1 (Nat.le_succ _) rfl rfl hs.2.kind ?_ ?_ (fun q k h => Or.inl (has q k h)) ?_, ?_⟩
  · intro q k hq h
    unfold Has
    rw [create_ne _ _ (by oomega)]
    exact h
  · intro j
    by_cases hj : j = w.next
    · subst hj
      right
      rw [create_self]
      exact ⟨rfl, rfl, Or.inr rfl, hb, fun e he => by rw [show (Obj.new b).body.kids = [] from hk] at he; cases he⟩
    · exact Or.inl (create_ne _ _ hj)
  · intro j h1 h2
    have hj : j = w.next := Nat.le_antisymm (Nat.le_of_lt_succ h2) h1
    subst hj
    rw [create_self]
    exact ⟨rfl, hb, fun e he => by rw [show (Obj.new b).body.kids = [] from hk] at he; cases he⟩
  · intro p hp
    have := has p _ hp
    exact absurd (d.sound.fine.kids p this.1 _ this.2) (Nat.lt_irrefl _)

/-- The objects of a new root record -/
theorem Desk.madeRecord {t u : ObjId} {w : World} (d : Desk C r t u w) (id : Uuid) (v : Str) :
    Desk C r t u (MM.madeRecord id v w) ∧ Loose (MM.madeRecord id v w) (w.next + 2) := by
  obtain ⟨hs, hg⟩ := madeRecord_gained d.sound id v (fun _ _ => True)
  obtain ⟨_, hn, hrepo, hold, h0, h1, h2⟩ := madeRecord_spec d.sound.fine id v
  have hbig : ∀ j, w.next + 3 ≤ j → (MM.madeRecord id v w).heap j = w.heap j := by
    intro j hj
    unfold MM.madeRecord
    rw [create_ne _ _ (by show j ≠ w.next + 1 + 1; oomega), create_ne _ _ (by show j ≠ w.next + 1; oomega),
      create_ne _ _ (by oomega)]
  have edge : ∀ q k, Has (MM.madeRecord id v w).heap q k → Has w.heap q k ∨
      (q = w.next + 2 ∧ (k = w.next ∨ k = w.next + 1)) := by
    intro q k h
    by_cases a1 : q < w.next
    · unfold Has at h; rw [hold q a1] at h; exact Or.inl h
    · by_cases a2 : w.next + 3 ≤ q
      · unfold Has at h; rw [hbig q a2] at h; exact Or.inl h
      · have : q = w.next ∨ q = w.next + 1 ∨ q = w.next + 2 := by oomega
        rcases this with e | e | e <;> subst e
        · have := h.2; rw [h0] at this; cases this
        · have := h.2; rw [h1] at this; cases this
        · right
          refine ⟨rfl, ?_⟩
          have := h.2
          rw [h2] at this
          rcases List.mem_cons.mp this with h | h
          · exact Or.inl h
          · exact Or.inr (List.mem_singleton.mp h)
  have none : ∀ k, w.next ≤ k → ∀ p, ¬ Has w.heap p k := fun k hk p hp =>
    absurd (d.sound.fine.kids p hp.1 k hp.2) (Nat.not_lt.mpr hk)
  have new : ∀ j, w.next ≤ j → j < w.next + 3 → ((MM.madeRecord id v w).heap j).mapped = true ∧
      ((MM.madeRecord id v w).heap j).savedOn = [] ∧ ((MM.madeRecord id v w).heap j).ref = .none ∧
      DataOk ((MM.madeRecord id v w).heap j).body.data ∧
      ∀ e ∈ ((MM.madeRecord id v w).heap j).body.kids, KeyFit e.1 := by
    intro j a1 a2
    have : j = w.next ∨ j = w.next + 1 ∨ j = w.next + 2 := by oomega
    rcases this with e | e | e <;> subst e
    · rw [h0]; exact ⟨rfl, rfl, rfl, ⟨List.nodup_nil, fun p hp => by cases hp⟩, (fun e he => by cases he)⟩
    · rw [h1]; exact ⟨rfl, rfl, rfl, trivial, (fun e he => by cases he)⟩
    · rw [h2]
      refine ⟨rfl, rfl, rfl, ⟨⟨id, rfl⟩, ⟨v, rfl⟩⟩, fun e he => ?_⟩
      rcases List.mem_cons.mp he with h | h
      · rw [h]; trivial
      · rw [List.mem_singleton.mp h]; trivial
  refine ⟨d.change hs hg.grown.next hg.grown.log (by unfold MM.madeRecord; rfl) hg.grown.kind ?_ ?_ ?_ ?_, ?_⟩
  · intro q k hq h
    unfold Has
    rw [hold q hq]; exact h
  · intro j
    by_cases a1 : j < w.next
    · exact Or.inl (hold j a1)
    · by_cases a2 : w.next + 3 ≤ j
      · exact Or.inl (hbig j a2)
      · obtain ⟨b1, b2, b3, b4, b5⟩ := new j (Nat.not_lt.mp a1) (Nat.not_le.mp a2)
        exact Or.inr ⟨b1, b2, Or.inr b3, b4, b5⟩
  · intro q k h
    rcases edge q k h with e | ⟨rfl, e⟩
    · exact Or.inl e
    · have hk : w.next ≤ k := by rcases e with e | e <;> oomega
      refine Or.inr (Or.inl ⟨by rw [hn]; oomega, ?_, none k hk, fun p hp => ?_⟩)
      · rintro rfl; exact absurd d.tl (Nat.not_lt.mpr hk)
      · rcases edge p k hp with e | ⟨e, _⟩
        · exact absurd e (none k hk p)
        · exact e
  · intro j a1 a2
    obtain ⟨b1, _, _, b4, b5⟩ := new j a1 (by rw [← hn]; exact a2)
    exact ⟨b1, b4, b5⟩
  · intro p hp
    rcases edge p _ hp with e | ⟨_, e⟩
    · exact none _ (by oomega) p e
    · rcases e with e | e <;> oomega

/-- A loaded object got one more part. -/
theorem Desk.extend {t u : ObjId} {w : World} (d : Desk C r t u w) {i : ObjId} (hi : i < w.next)
    (hm : (w.heap i).mapped = true) {k : Key} {s : Str} {x : ObjId} {b : Body ObjId}
    (hdata : b.data = (w.heap i).body.data) (hform : Formed b) (hget : dget b.kids k = some (s, x))
    (hother : ∀ k', k' ≠ k → dget b.kids k' = dget (w.heap i).body.kids k')
    (hnone : dget (w.heap i).body.kids k = none) (hx : x < w.next) (hxi : ¬ Reach w.heap x i)
    (hkid : KidOk (w.heap i).kind k (w.heap x).kind) (hkf : KeyFit k)
    (hnew : (x ≠ t ∧ Loose w x) ∨ (Reach w.heap t x ∧ (w.heap x).kind = .mrr ∧ (w.heap i).kind = .vlist)) :
    Desk C r t u (MM.edit i b w) := by
  obtain ⟨hs, hg⟩ := d.sound.extend hm hdata hform hget hother hnone hx hxi hkid
  have hmem : ∀ e ∈ b.kids, (e.1 = k ∧ e.2.2 = x) ∨ e ∈ (w.heap i).body.kids := by
    intro e he
    have hde := dget_of_mem hform.keys (show (e.1, e.2) ∈ b.kids from he)
    by_cases hek : e.1 = k
    · rw [hek, hget] at hde
      injection hde with hde
      exact Or.inl ⟨hek, by rw [← hde]⟩
    · rw [hother _ hek] at hde
      exact Or.inr (mem_of_dget hde)
  have edge : ∀ q c, Has (MM.edit i b w).heap q c → Has w.heap q c ∨ (q = i ∧ c = x) := by
    intro q c h
    by_cases hq : q = i
    · subst hq
      have := h.2
      rw [edit_self] at this
      obtain ⟨e, he, rfl⟩ := List.mem_map.mp this
      rcases hmem e he with h | h
      · exact Or.inr ⟨rfl, h.2⟩
      · exact Or.inl ⟨hm, List.mem_map.mpr ⟨e, h, rfl⟩⟩
    · unfold Has at h
      rw [edit_ne _ _ hq] at h
      exact Or.inl h
  refine d.change hs hg.next rfl rfl hg.kind ?_ ?_ ?_ ?_
  · intro q c hq h
    obtain ⟨e, he, rfl⟩ := List.mem_map.mp h.2
    exact ⟨hg.mapped q hq h.1, dget_sub (hg.kids q hq h.1 e.1 e.2 (dget_of_mem (d.sound.fine.formed q h.1).keys he))⟩
  · intro j
    by_cases hj : j = i
    · subst hj
      right
      rw [edit_self]
      refine ⟨hm, rfl, Or.inl rfl, ?_, fun e he => ?_⟩
      · show DataOk b.data
        rw [hdata]; exact (d.fit j hi hm).1
      · rcases hmem e he with h | h
        · rw [h.1]; exact hkf
        · exact (d.fit j hi hm).2 e h
    · exact Or.inl (edit_ne _ _ hj)
  · intro q c h
    rcases edge q c h with e | ⟨rfl, rfl⟩
    · exact Or.inl e
    · rcases hnew with ⟨e1, e2⟩ | ⟨e1, e2, e3⟩
      · refine Or.inr (Or.inl ⟨hi, e1, e2, fun p hp => ?_⟩)
        rcases edge p c hp with e | e
        · exact absurd e (e2 p)
        · exact e.1
      · refine Or.inr (Or.inr ⟨hi, e1, e2, ?_, ?_⟩)
        · rw [hg.kind q hi]; exact e3
        · rw [edit_self]; exact fun h => by cases h
  · intro j h1 h2
    exact absurd h2 (Nat.not_lt.mpr h1)

/-- The data of a loaded object was changed. -/
theorem Desk.rewrite {t u : ObjId} {w : World} (d : Desk C r t u w) {i : ObjId} (hi : i < w.next)
    (hm : (w.heap i).mapped = true) {dat : Data} (hk : dat.kind = (w.heap i).kind) (hok : DataOk dat) :
    Desk C r t u (MM.edit i ⟨dat, (w.heap i).body.kids⟩ w) := by
  have hkind : ∀ j, ((MM.edit i ⟨dat, (w.heap i).body.kids⟩ w).heap j).kind = (w.heap j).kind := by
    intro j
    by_cases hj : j = i
    · subst hj; rw [edit_self]; exact hk
    · rw [edit_ne _ w hj]
  have hsub : ∀ j, ((MM.edit i ⟨dat, (w.heap i).body.kids⟩ w).heap j).mapped = (w.heap j).mapped ∧
      ((MM.edit i ⟨dat, (w.heap i).body.kids⟩ w).heap j).body.kids = (w.heap j).body.kids := by
    intro j
    by_cases hj : j = i
    · subst hj; rw [edit_self]; exact ⟨rfl, rfl⟩
    · rw [edit_ne _ w hj]; exact ⟨rfl, rfl⟩
  have has : ∀ q c, Has (MM.edit i ⟨dat, (w.heap i).body.kids⟩ w).heap q c ↔ Has w.heap q c := by
    intro q c
    unfold Has Body.subs
    rw [(hsub q).1, (hsub q).2]
  have hform := d.sound.fine.formed i hm
  have hs : Sound C (MM.edit i ⟨dat, (w.heap i).body.kids⟩ w) := by
    refine ⟨d.sound.fine.edit hm ⟨hform.keys, ?_, ?_⟩ (fun c hc => d.sound.fine.kids i hm c hc)
      (fun c hc => d.sound.fine.irrefl hm hc), ?_⟩
    · intro e he
      show Key.fits dat.kind e.1 = true
      rw [hk]; exact hform.fits e he
    · intro h
      exact hform.stamps (by
        have : dat.kind.stamped = false := h
        rw [hk] at this; exact this)
    · intro p hp e he
      rw [(hsub p).1] at hp
      rw [(hsub p).2] at he
      rw [hkind, hkind]
      exact d.sound.typed p hp e he
  refine d.change hs (Nat.le_refl _) rfl rfl (fun j _ => hkind j) (fun q c _ h => (has q c).mpr h) ?_
    (fun q c h => Or.inl ((has q c).mp h)) (fun j h1 h2 => absurd h2 (Nat.not_lt.mpr h1))
  intro j
  by_cases hj : j = i
  · subst hj
    right
    rw [edit_self]
    exact ⟨hm, rfl, Or.inl rfl, hok, (d.fit j hi hm).2⟩
  · exact Or.inl (edit_ne _ _ hj)

/-- What the new nodes contain -/
theorem Chain.at {h : Heap} {k : Kind} {child lo : ObjId} {rest : List Str} (hc : Chain h k child lo rest) {p : ObjId}
    (h1 : lo ≤ p) (h2 : p < lo + rest.length) : ∃ n ∈ rest,
      h p = Obj.new ⟨Data.empty k, [(.name n, [], if p + 1 < lo + rest.length then p + 1 else child)]⟩ := by
  obtain ⟨r1, x, r2, e1, e2, e3⟩ := hc.mem h1 h2
  refine ⟨x, by rw [e1]; simp, ?_⟩
  rw [e3]
  unfold chainStart
  cases r2 with
  | nil =>
    rw [if_pos rfl, if_neg]
    rw [e1, List.length_append]
    simp only [List.length_cons, List.length_nil]
    oomega
  | cons y r2 =>
    rw [if_neg (by simp), if_pos]
    rw [e1, List.length_append]
    simp only [List.length_cons]
    oomega

/-- An object was added to a tree. -/
theorem Desk.added {t u : ObjId} {leaf : Leaf} {i : ObjId} {q : List Str} {n : Str} {rest : List Str} {m child : ObjId}
    {w w' : World} (d : Desk C r t u w) (ha : AddedAt i q n rest m child w w') (hi : i < w.next)
    (hik : (w.heap i).kind = .mtree leaf) (hc : child < w.next) (hck : (w.heap child).kind = leaf.kind)
    (hcm : ¬ Reach w.heap child m) (hn : NameOk n) (hrest : ∀ x ∈ rest, NameOk x) (hct : child ≠ t)
    (hcl : Loose w child) : Desk C r t u w' := by
  obtain ⟨hs, hg⟩ := d.sound.added ha hi hik hc hck hcm
  have hm : m < w.next := ha.lt d.sound.fine hi
  have none : ∀ k, w.next ≤ k → ∀ p, ¬ Has w.heap p k := fun k hk p hp =>
    absurd (d.sound.fine.kids p hp.1 k hp.2) (Nat.not_lt.mpr hk)
  -- the new edges
  have edge : ∀ p k, Has w'.heap p k → Has w.heap p k ∨
      (p = m ∧ k = if 0 < rest.length then w.next else child) ∨
      (w.next ≤ p ∧ p < w.next + rest.length ∧ k = if p + 1 < w.next + rest.length then p + 1 else child) := by
    intro p k h
    by_cases hpm : p = m
    · subst hpm
      have := h.2
      rw [ha.node] at this
      obtain ⟨e, he, rfl⟩ := List.mem_map.mp this
      rcases List.mem_append.mp he with he | he
      · exact Or.inl ⟨ha.mapped, List.mem_map.mpr ⟨e, he, rfl⟩⟩
      · right; left
        refine ⟨rfl, ?_⟩
        rw [List.mem_singleton.mp he]
        show chainStart child w.next rest = _
        unfold chainStart
        cases rest with
        | nil => rfl
        | cons y rest => rw [if_neg (by simp), if_pos (by simp)]
    · by_cases h1 : p < w.next
      · unfold Has at h; rw [ha.old p hpm h1] at h; exact Or.inl h
      · by_cases h2 : p < w'.next
        · rw [ha.next] at h2
          obtain ⟨x, _, e⟩ := ha.chain.at (Nat.not_lt.mp h1) h2
          have := h.2
          rw [e] at this
          exact Or.inr (Or.inr ⟨Nat.not_lt.mp h1, h2, List.mem_singleton.mp this⟩)
        · unfold Has at h; rw [ha.high p (Nat.not_lt.mp h2)] at h; exact Or.inl h
  have loose : ∀ p k, ¬ Has w.heap p k → Has w'.heap p k → (∀ p, ¬ Has w.heap p k) ∧ k ≠ t ∧ p < w'.next := by
    intro p k h1 h2
    have hcase : (k = child ∨ w.next ≤ k) ∧ p < w'.next := by
      rw [ha.next]
      rcases edge p k h2 with e | ⟨e1, e2⟩ | ⟨e1, e2, e3⟩
      · exact absurd e h1
      · refine ⟨?_, by oomega⟩
        split at e2
        · right; oomega
        · exact Or.inl e2
      · refine ⟨?_, e2⟩
        split at e3
        · right; oomega
        · exact Or.inl e3
    rcases hcase.1 with e | e
    · subst e; exact ⟨hcl, hct, hcase.2⟩
    · exact ⟨none k e, (by rintro rfl; exact absurd d.tl (Nat.not_lt.mpr e)), hcase.2⟩
  refine d.change hs hg.next hg.log ha.caches hg.kind ?_ ?_ ?_ ?_
  · intro q c hq h
    obtain ⟨e, he, rfl⟩ := List.mem_map.mp h.2
    exact ⟨hg.mapped q hq h.1, dget_sub (hg.kids q hq h.1 e.1 e.2 (dget_of_mem (d.sound.fine.formed q h.1).keys he))⟩
  · intro j
    by_cases hjm : j = m
    · subst hjm
      right
      rw [ha.node]
      refine ⟨ha.mapped, rfl, Or.inl rfl, (d.fit j hm ha.mapped).1, fun e he => ?_⟩
      rcases List.mem_append.mp he with he | he
      · exact (d.fit j hm ha.mapped).2 e he
      · rw [List.mem_singleton.mp he]; exact hn
    · by_cases h1 : j < w.next
      · exact Or.inl (ha.old j hjm h1)
      · by_cases h2 : j < w'.next
        · right
          rw [ha.next] at h2
          obtain ⟨x, hx, e⟩ := ha.chain.at (Nat.not_lt.mp h1) h2
          rw [e]
          refine ⟨rfl, rfl, Or.inr rfl, ?_, fun e he => ?_⟩
          · have := ha.tree
            cases hk : (w.heap m).kind <;> rw [hk] at this <;> first | exact trivial | cases this
          · rw [List.mem_singleton.mp he]; exact hrest x hx
        · exact Or.inl (ha.high j (Nat.not_lt.mp h2))
  · intro p k h
    by_cases h0 : Has w.heap p k
    · exact Or.inl h0
    · obtain ⟨l1, l2, l3⟩ := loose p k h0 h
      refine Or.inr (Or.inl ⟨l3, l2, l1, fun p' hp' => ?_⟩)
      have e1 := edge p k h
      have e2 := edge p' k hp'
      rcases e1 with e1 | e1
      · exact absurd e1 h0
      rcases e2 with e2 | e2
      · exact absurd e2 (l1 p')
      rcases e1 with ⟨a1, a2⟩ | ⟨a1, a2, a3⟩ <;> rcases e2 with ⟨b1, b2⟩ | ⟨b1, b2, b3⟩
      · rw [a1, b1]
      · split at a2 <;> split at b3 <;> oomega
      · split at a3 <;> split at b2 <;> oomega
      · split at a3 <;> split at b3 <;> oomega
  · intro j h1 h2
    rw [ha.next] at h2
    obtain ⟨x, hx, e⟩ := ha.chain.at h1 h2
    rw [e]
    refine ⟨rfl, ?_, fun e he => ?_⟩
    · have := ha.tree
      cases hk : (w.heap m).kind <;> rw [hk] at this <;> first | exact trivial | cases this
    · rw [List.mem_singleton.mp he]; exact hrest x hx

/-! ### Finding or creating a root record -/

theorem Desk.listFor {t u : ObjId} {w w' : World} (hr : r ≠ []) (d : Desk C r t u w) (auto : Option Bool) (id : Uuid)
    {res : Except PyErr (Option ObjId)} (h : MM.listFor C auto u id w = (res, w')) : Desk C r t u w' := by
  have hc := listFor_case d.sound.fine auto d.ul id
  rw [h] at hc
  cases hc with
  | failed _ hl => exact d.loads hr hl
  | none _ hl => exact d.loads hr hl
  | found _ _ _ hl => exact d.loads hr hl
  | made w1 hl hm hn ha hd =>
    have d1 := d.loads hr hl
    obtain ⟨d2, l2⟩ := d1.create (b := Body.empty .vlist) trivial rfl
    have hne : u ≠ w1.next := Nat.ne_of_lt d1.ul
    have h5 : (MM.create (Obj.new (Body.empty .vlist)) w1).heap u = w1.heap u := create_ne _ _ hne
    refine d2.extend (k := .uuid id) (s := []) (x := w1.next) d2.ul (by rw [h5]; exact hm) (by rw [h5])
      (formed_uset (d1.sound.fine.formed u hm) d1.uk id _) (by simp)
      (fun k' hk' => by rw [h5]; exact dget_dset_ne _ _ fun e => hk' e.symm) (by rw [h5]; exact hd)
      (Nat.lt_succ_self _) (fun hr => ?_) ?_ trivial (Or.inl ⟨Nat.ne_of_gt d1.tl, l2⟩)
    · have := d2.sound.typed.level hr
      rw [d2.uk, create_self] at this
      exact absurd this (by decide)
    · rw [d2.uk, create_self]; rfl

theorem Desk.treeFor {t u : ObjId} {w w' : World} (hr : r ≠ []) (d : Desk C r t u w) (auto : Option Bool) (now : Str)
    (v : Str) {p : PPath} (hp : Canonical p) {res : Except PyErr (Option ObjId)}
    (h : MM.treeFor C auto now t v p w = (res, w')) : Desk C r t u w' := by
  have hc := treeFor_case d.sound.fine auto now d.tl v p
  rw [h] at hc
  cases hc with
  | failed _ hl => exact d.loads hr hl
  | none _ hl => exact d.loads hr hl
  | found _ _ _ hl => exact d.loads hr hl
  | made w1 hl hm hn ha hd =>
    have d1 := d.loads hr hl
    obtain ⟨d2, l2⟩ := d1.create (b := Body.empty (.mtree .mrr)) trivial rfl
    have hne : t ≠ w1.next := Nat.ne_of_lt d1.tl
    have h5 : (MM.create (Obj.new (Body.empty (.mtree .mrr))) w1).heap t = w1.heap t := create_ne _ _ hne
    have hkeys := (d1.sound.fine.formed t hm).keys
    refine d2.extend (k := .ver v p) (s := now) (x := w1.next) d2.tl (by rw [h5]; exact hm) (by rw [h5])
      (formed_vset (d1.sound.fine.formed t hm) (Or.inr d1.tk) v p _)
      (by show dget (vset _ _ _ _) _ = _; rw [dget_vset hkeys, if_pos rfl])
      (fun k' hk' => by
        rw [h5]; show dget (vset _ _ _ _) _ = _; rw [dget_vset hkeys, if_neg fun e => hk' e.symm])
      (by rw [h5]; exact hd)
      (Nat.lt_succ_self _) (fun hr => ?_) ?_ hp (Or.inl ⟨Nat.ne_of_gt d1.tl, l2⟩)
    · have := d2.sound.typed.level hr
      rw [d2.tk, create_self] at this
      exact absurd this (by decide)
    · rw [d2.tk, create_self]; exact Or.inl rfl

theorem Desk.entryFor {t u : ObjId} {w w' : World} (hr : r ≠ []) (d : Desk C r t u w) {vl : ObjId} (hv : vl < w.next)
    (hvk : (w.heap vl).kind = .vlist) (v now : Str) {p : PPath} (hp : Canonical p) {x : ObjId} (hx : Reach w.heap t x)
    (hxk : (w.heap x).kind = .mrr) {res : Except PyErr Unit} (h : MM.entryFor C vl v now p x w = (res, w')) :
    Desk C r t u w' := by
  have hc := entryFor_case d.sound.fine hv v now p x
  rw [h] at hc
  cases hc with
  | failed _ hl => exact d.loads hr hl
  | known _ _ hl => exact d.loads hr hl
  | entered w1 hl hm ha hd =>
    have d1 := d.loads hr hl
    have hxn : x < w.next := hx.lt d.sound.fine.kids d.tl
    have hk1 : (w1.heap vl).kind = .vlist := (hl.kind vl hv).trans hvk
    have hx1 : (w1.heap x).kind = .mrr := (hl.kind x hxn).trans hxk
    have hkeys := (d1.sound.fine.formed vl hm).keys
    refine d1.extend (k := .ver v p) (s := now) (x := x) (Nat.lt_of_lt_of_le hv hl.next) hm rfl
      (formed_vset (d1.sound.fine.formed vl hm) (Or.inl hk1) v p _)
      (by show dget (vset _ _ _ _) _ = _; rw [dget_vset hkeys, if_pos rfl])
      (fun k' hk' => by show dget (vset _ _ _ _) _ = _; rw [dget_vset hkeys, if_neg fun e => hk' e.symm]) hd
      (Nat.lt_of_lt_of_le hxn hl.next) (fun hr => ?_) (by rw [hk1, hx1]; exact Or.inr rfl) hp
      (Or.inr ⟨hx.grown hl.grown d.sound.fine d.tl, hx1, hk1⟩)
    have := d1.sound.typed.level hr
    rw [hk1, hx1] at this
    exact absurd this (by decide)

/-- Nodes of a tree have its class. -/
theorem Typed.node {h : Heap} (ht : Typed h) {leaf : Leaf} {m : ObjId} (hm : (h m).kind.isMtree = true) (q : List Str) :
    ∀ a, (h a).kind = .mtree leaf → Leads h a (names q) m → (h m).kind = .mtree leaf := by
  induction q with
  | nil => intro a hk hl; cases hl; exact hk
  | cons x q ih =>
    intro a hk hl
    cases hl with
    | cons t c hma hd hl =>
      have := ht a hma _ (mem_of_dget hd)
      rw [hk] at this
      rcases this with h1 | h1
      · exact ih c h1 hl
      · cases q with
        | nil => cases hl; rw [h1] at hm; cases leaf <;> cases hm
        | cons y q =>
          cases hl with
          | cons t' c' hm' hd' _ =>
            have h2 := ht c hm' _ (mem_of_dget hd')
            rw [h1] at h2
            cases leaf <;> exact absurd h2 id

theorem rootRecordName_ok : NameOk rootRecordName := by
  constructor <;> decide

theorem Desk.recordFor {t u : ObjId} {w w' : World} (hr : r ≠ []) (d : Desk C r t u w) (auto : Option Bool) {dt : ObjId}
    (hd : dt < w.next) (hk : (w.heap dt).kind.isMtree = true → (w.heap dt).kind = .mtree .mrr) {path : List Str}
    (hp : ∀ n ∈ path, CompOk n ∧ NameOk n) (id : Uuid) (v : Str) {res : Except PyErr (Option ObjId)}
    (h : MM.recordFor C auto dt path id v w = (res, w')) : Desk C r t u w' := by
  have hc := recordFor_case d.sound.fine auto hd (fun n hn => (hp n hn).1) id v
  rw [h] at hc
  cases hc with
  | failed _ _ hl => exact d.loads hr hl
  | none _ hl => exact d.loads hr hl
  | found _ _ hl => exact d.loads hr hl
  | refused w0 _ _ hl _ _ _ hl1 => exact (((d.loads hr hl).madeRecord id v).1).loads hr hl1
  | made w0 w1 _ q n rest node hl hn hkd ha hpath hl1 had =>
    have d0 := d.loads hr hl
    have hd0 := Nat.lt_of_lt_of_le hd hl.next
    obtain ⟨d2, l2⟩ := d0.madeRecord id v
    obtain ⟨_, hn3, _, hold, _, _, hrec⟩ := madeRecord_spec d0.sound.fine id v
    have d1 := d2.loads hr hl1
    have hd3 : dt < (MM.madeRecord id v w0).next := Nat.lt_of_lt_of_le hd0 (by rw [hn3]; exact Nat.le_add_right _ _)
    have hd1 : dt < w1.next := Nat.lt_of_lt_of_le hd3 hl1.next
    have hx3 : w0.next + 2 < (MM.madeRecord id v w0).next := by rw [hn3]; exact Nat.lt_succ_self _
    have hx1 := Nat.lt_of_lt_of_le hx3 hl1.next
    have hdk : (w1.heap dt).kind = .mtree .mrr := by
      rw [hl1.kind dt hd3, hold dt hd0, hl.kind dt hd]; exact hk hkd
    have hxk : (w1.heap (w0.next + 2)).kind = .mrr := by rw [hl1.kind _ hx3, hrec]; rfl
    have hok : ∀ x ∈ q ++ n :: rest, NameOk x := by
      intro x hx
      rw [← hpath] at hx
      rcases List.mem_append.mp hx with hx | hx
      · exact (hp x hx).2
      · rw [List.mem_singleton.mp hx]; exact rootRecordName_ok
    refine d1.added had hd1 hdk hx1 hxk (fun hr => ?_) (hok n (by simp)) (fun x hx => hok x (by simp [hx]))
      (fun e => ?_) (l2.loads hl1 d1 hx3)
    · have h1 := d1.sound.typed.level hr
      rw [hxk, d1.sound.typed.node had.tree q dt hdk had.lead] at h1
      exact absurd h1 (by decide)
    · have := d1.tk
      rw [← e, hxk] at this
      cases this

theorem Desk.ownPart {t u : ObjId} {w w' : World} (hr : r ≠ []) (d : Desk C r t u w) (auto : Option Bool) (now : Str)
    {dt : ObjId} (hdt : Reach w.heap t dt) (hdk : (w.heap dt).kind.isMtree = true → (w.heap dt).kind = .mtree .mrr)
    (id : Uuid) (v : Str) {p : PPath} (hc : Canonical p) {path : List Str} (hp : ∀ n ∈ path, CompOk n ∧ NameOk n)
    {res : Except PyErr (Option ObjId)} (h : MM.ownPart C auto now u dt id v p path w = (res, w')) :
    Desk C r t u w' := by
  have hd := hdt.lt d.sound.fine.kids d.tl
  unfold MM.ownPart at h
  cases h1 : MM.listFor C auto u id w with
  | mk r1 w1 =>
    have d1 := d.listFor hr auto id h1
    obtain ⟨_, g1, _, a1, _⟩ := listFor_run d.sound auto d.ul d.uk id h1
    cases r1 with
    | error e => rw [M.bind_of_error h1] at h; cases h; exact d1
    | ok o =>
      rw [M.bind_of_ok h1] at h
      cases o with
      | none => cases h; exact d1
      | some vl =>
        simp only at h
        have hla := a1 vl rfl
        have hd1 := Nat.lt_of_lt_of_le hd g1.grown.next
        have hk1 : (w1.heap dt).kind = (w.heap dt).kind := g1.grown.kind dt hd
        have hr1 := hdt.grown g1.grown d.sound.fine d.tl
        cases h2 : MM.recordFor C auto dt path id v w1 with
        | mk r2 w2 =>
          have d2 := d1.recordFor hr auto hd1 (by rw [hk1]; exact hdk) hp id v h2
          obtain ⟨_, g2, _, a2, _⟩ := recordFor_run d1.sound auto hd1 (by rw [hk1]; exact hdk)
            (fun n hn => (hp n hn).1) id v h2
          cases r2 with
          | error e => rw [M.bind_of_error h2] at h; cases h; exact d2
          | ok o2 =>
            rw [M.bind_of_ok h2] at h
            cases o2 with
            | none => cases h; exact d2
            | some m =>
              simp only at h
              have hra := a2 m rfl
              have hla2 := hla.grown g2.grown
              cases h3 : MM.entryFor C vl v now p m w2 with
              | mk r3 w3 =>
                have d3 := d2.entryFor hr (hla2.vl_lt d2.sound.fine) (hla2.kind d2.sound d2.uk) v now hc
                  ((hr1.grown g2.grown d1.sound.fine d1.tl).trans hra.leads.reach) hra.kind h3
                cases r3 with
                | error e => rw [M.bind_of_error h3] at h; cases h; exact d3
                | ok _ => rw [M.bind_of_ok h3] at h; cases h; exact d3

theorem Desk.rootPart {t u : ObjId} {w w' : World} (hr : r ≠ []) (d : Desk C r t u w) (auto : Option Bool) (now : Str)
    (id : Uuid) (v : Str) {p : PPath} (hc : Canonical p) {res : Except PyErr (Option ObjId)}
    (h : MM.rootPart C auto now t u id v p w = (res, w')) : Desk C r t u w' := by
  unfold MM.rootPart at h
  cases h1 : MM.listFor C auto u id w with
  | mk r1 w1 =>
    have d1 := d.listFor hr auto id h1
    obtain ⟨_, g1, _, a1, _⟩ := listFor_run d.sound auto d.ul d.uk id h1
    cases r1 with
    | error e => rw [M.bind_of_error h1] at h; cases h; exact d1
    | ok o =>
      rw [M.bind_of_ok h1] at h
      cases o with
      | none => cases h; exact d1
      | some vl =>
        simp only at h
        have hla := a1 vl rfl
        cases h0 : MM.treeFor C auto now t v p w1 with
        | mk r0 w0 =>
          have d0 := d1.treeFor hr auto now v hc h0
          obtain ⟨_, g0, _, a0, _⟩ := treeFor_run d1.sound auto now d1.tl d1.tk v p h0
          cases r0 with
          | error e => rw [M.bind_of_error h0] at h; cases h; exact d0
          | ok o0 =>
            rw [M.bind_of_ok h0] at h
            cases o0 with
            | none => cases h; exact d0
            | some dt =>
              simp only at h
              have hva := a0 dt rfl
              have hd0 := hva.el_lt d0.sound.fine
              have hr0 : Reach w0.heap t dt := hva.part.elim fun _ ht =>
                Reach.step t dt dt hva.mapped (dget_sub ht) (Reach.refl _)
              cases h2 : MM.recordFor C auto dt [] id v w0 with
              | mk r2 w2 =>
                have d2 := d0.recordFor hr auto hd0 (hva.treeKind d0.sound d0.tk) (fun n hn => by cases hn) id v h2
                obtain ⟨_, g2, _, a2, _⟩ := recordFor_run d0.sound auto hd0 (hva.treeKind d0.sound d0.tk)
                  (fun n hn => by cases hn) id v h2
                cases r2 with
                | error e => rw [M.bind_of_error h2] at h; cases h; exact d2
                | ok o2 =>
                  rw [M.bind_of_ok h2] at h
                  cases o2 with
                  | none => cases h; exact d2
                  | some m =>
                    simp only at h
                    have hra := a2 m rfl
                    have hla2 := (hla.grown g0.grown).grown g2.grown
                    cases h3 : MM.entryFor C vl v now p m w2 with
                    | mk r3 w3 =>
                      have d3 := d2.entryFor hr (hla2.vl_lt d2.sound.fine) (hla2.kind d2.sound d2.uk) v now hc
                        ((hr0.grown g2.grown d0.sound.fine d0.tl).trans hra.leads.reach) hra.kind h3
                      cases r3 with
                      | error e => rw [M.bind_of_error h3] at h; cases h; exact d3
                      | ok _ => rw [M.bind_of_ok h3] at h; cases h; exact d3

/-- A call that finds or creates a root record -/
theorem Desk.rootRecord {t u : ObjId} {w w' : World} (hr : r ≠ []) (d : Desk C r t u w) (auto : Option Bool) (now : Str)
    (id : Uuid) (v : Str) {pre : PPath} (hc : Canonical pre) {path : List Str} (hp : ∀ n ∈ path, CompOk n ∧ NameOk n)
    (root : Option Uuid) (rv : Option Str) {res : Except PyErr (Option ObjId)}
    (h : MM.rootRecord C auto now t u id v pre path root rv w = (res, w')) : Desk C r t u w' := by
  unfold MM.rootRecord at h
  by_cases hpe : path = []
  · rw [if_pos hpe] at h
    cases h1 : MM.treeFor C auto now t v pre w with
    | mk r1 w1 =>
      have d1 := d.treeFor hr auto now v hc h1
      obtain ⟨_, g1, _, a1, _⟩ := treeFor_run d.sound auto now d.tl d.tk v pre h1
      cases r1 with
      | error e => rw [M.bind_of_error h1] at h; cases h; exact d1
      | ok o =>
        rw [M.bind_of_ok h1] at h
        cases o with
        | none => cases h; exact d1
        | some dt =>
          simp only at h
          have hva := a1 dt rfl
          exact d1.ownPart hr auto now (hva.part.elim fun _ ht =>
            Reach.step t dt dt hva.mapped (dget_sub ht) (Reach.refl _)) (hva.treeKind d1.sound d1.tk) id v hc hp h
  · rw [if_neg hpe] at h
    cases root with
    | none => cases h; exact d
    | some root =>
      cases rv with
      | none => cases h; exact d
      | some rv =>
        simp only at h
        cases h1 : MM.rootPart C auto now t u root rv pre w with
        | mk r1 w1 =>
          have d1 := d.rootPart hr auto now root rv hc h1
          obtain ⟨_, a1, _⟩ := rootPart_run d.sound auto now d.tl d.tk d.ul d.uk root rv pre h1
          cases r1 with
          | error e => rw [M.bind_of_error h1] at h; cases h; exact d1
          | ok o =>
            rw [M.bind_of_ok h1] at h
            cases o with
            | none => cases h; exact d1
            | some dt =>
              simp only at h
              have hva := (a1 dt rfl).1
              exact d1.ownPart hr auto now (hva.part.elim fun _ ht =>
                Reach.step t dt dt hva.mapped (dget_sub ht) (Reach.refl _)) (hva.treeKind d1.sound d1.tk) id v
                (C01_canonical _) hp h

end MM
