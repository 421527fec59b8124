/-
What a tree contains after an element was added.
-/
import Verif.TreeOps

namespace MM

variable {C : Cfg}

theorem names_injective {p q : List Str} (h : names p = names q) : p = q := by
  induction p generalizing q with
  | nil => cases q with
    | nil => rfl
    | cons b q => cases h
  | cons a p ih =>
    cases q with
    | nil => cases h
    | cons b q =>
      unfold names at h
      rw [List.map_cons, List.map_cons] at h
      injection h with h1 h2
      injection h1 with h1
      rw [h1, ih h2]

theorem names_append_eq {q : List Str} {ks ks' : List Key} (h : names q = ks ++ ks') :
    ∃ q1 q2, q = q1 ++ q2 ∧ ks = names q1 ∧ ks' = names q2 := by
  obtain ⟨q1, q2, h1, h2, h3⟩ := List.map_eq_append_iff.mp h
  exact ⟨q1, q2, h1, h2.symm, h3.symm⟩

theorem reach_unmapped {h : Heap} {i j : ObjId} (hm : (h i).mapped = false) (hr : Reach h i j) :
    j = i := by
  cases hr with
  | refl => rfl
  | step _ k _ hm' => rw [hm] at hm'; cases hm'

theorem Chain.get {h : Heap} {k : Kind} {child lo : ObjId} {rest : List Str}
    (hc : Chain h k child lo rest) : ∀ r1 x r2, rest = r1 ++ x :: r2 →
      h (lo + r1.length) = Obj.new ⟨Data.empty k, [(.name x, [], chainStart child (lo + r1.length + 1) r2)]⟩ := by
  induction hc with
  | done e => intro r1 x r2 h; cases r1 <;> cases h
  | node e n rest h1 _ ih =>
    intro r1 x r2 he
    cases r1 with
    | nil => cases he; exact h1
    | cons y r1 =>
      injection he with _ he
      have := ih r1 x r2 he
      have e1 : e + (y :: r1).length = e + 1 + r1.length := by simp only [List.length_cons]; oomega
      rw [e1]
      exact this

/-- Every new object is in the chain. -/
theorem Chain.mem {h : Heap} {k : Kind} {child lo : ObjId} {rest : List Str}
    (hc : Chain h k child lo rest) {j : ObjId} (h1 : lo ≤ j) (h2 : j < lo + rest.length) :
    ∃ r1 x r2, rest = r1 ++ x :: r2 ∧ j = lo + r1.length ∧
      h j = Obj.new ⟨Data.empty k, [(.name x, [], chainStart child (j + 1) r2)]⟩ := by
  have hlt : j - lo < rest.length := by oomega
  refine ⟨rest.take (j - lo), rest[j - lo], rest.drop (j - lo + 1), ?_, ?_, ?_⟩
  · rw [List.getElem_cons_drop]; exact (List.take_append_drop _ _).symm
  · rw [List.length_take]; oomega
  · have e : j = lo + (rest.take (j - lo)).length := by rw [List.length_take]; oomega
    have := hc.get (rest.take (j - lo)) rest[j - lo] (rest.drop (j - lo + 1))
      (by rw [List.getElem_cons_drop]; exact (List.take_append_drop _ _).symm)
    rw [← e] at this
    exact this

/-- The same part with the same content under a key -/
theorem look_key_same {L L' : Log} {h h' : Heap} {a : ObjId} {k : Key} (hm : (h a).mapped = true)
    (hm' : (h' a).mapped = true) (hd : dget (h' a).body.kids k = dget (h a).body.kids k)
    (ks : List Key) (t : Str)
    (hs : ∀ t0 c, dget (h a).body.kids k = some (t0, c) →
      SameContent C L h (.mem c) L' h' (.mem c) ∧ Full C L h (.mem c)) :
    look C L' h' (k :: ks) t (.mem a) = look C L h (k :: ks) t (.mem a) := by
  have hv := view_mapped (C := C) (L := L) hm
  have hv' := view_mapped (C := C) (L := L') hm'
  rw [look_cons hv, look_cons hv', Body.dget_map, Body.dget_map, hd]
  cases hd0 : dget (h a).body.kids k with
  | none => rfl
  | some z =>
    obtain ⟨t0, c0⟩ := z
    obtain ⟨hsame, hfull⟩ := hs t0 c0 hd0
    obtain ⟨b1, hb1⟩ := view_ok_of_look (hfull [] [])
    have h0 := hsame [] []
    rw [look_nil [] hb1] at h0
    obtain ⟨b2, hb2⟩ := view_ok_of_look (C := C) (L := L') (h := h') (n := .mem c0)
      (ks := []) (t := []) (by rw [← h0]; simp)
    rw [look_nil [] hb2] at h0
    injection h0 with _ _ h0
    simp only [Option.map_some]
    rw [hb1, hb2]
    simp only
    rw [h0, hsame ks t0]

/-- One node of a tree was changed, and objects may have been created. -/
structure NodeChanged (i : ObjId) (q : List Str) (m : ObjId) (w w' : World) : Prop where
  lead : Leads w.heap i (names q) m
  mapped : (w.heap m).mapped = true
  tree : (w.heap m).kind.isMtree = true
  old : ∀ j, j ≠ m → j < w.next → w'.heap j = w.heap j
  log : w'.repo.log = w.repo.log

namespace NodeChanged

variable {i : ObjId} {q : List Str} {m : ObjId} {w w' : World}

/-- Objects that do not contain the changed node are as before. -/
theorem kept (ha : NodeChanged i q m w w') (hf : Fine C w) {a : ObjId} (hal : a < w.next)
    (har : ¬ Reach w.heap a m) {j : ObjId} (hr : Reach w.heap a j) : w'.heap j = w.heap j := by
  refine ha.old j ?_ (Reach.lt hf.kids hal hr)
  rintro rfl
  exact har hr

theorem content (ha : NodeChanged i q m w w') (hf : Fine C w) {a : ObjId} (hal : a < w.next)
    (har : ¬ Reach w.heap a m) :
    SameContent C w.repo.log w.heap (.mem a) w'.repo.log w'.heap (.mem a) := by
  rw [ha.log]
  exact look_kept fun j hj => ha.kept hf hal har hj

/-- Where the keys leave the path before the changed node, all is as before. -/
theorem look_before (ha : NodeChanged i q m w w') (hf : Fine C w) (hi : i < w.next)
    (hform : HeapFormed w'.heap)
    (hone : OnePath w.heap i) (ks : List Key) (hks : ¬ names q <+: ks) :
    look C w'.repo.log w'.heap ks [] (.mem i) = look C w.repo.log w.heap ks [] (.mem i) := by
  have key : ∀ (q2 q1 : List Str) (a : ObjId) (ks : List Key), q = q1 ++ q2 → Leads w.heap i (names q1) a →
      Leads w.heap a (names q2) m → ¬ names q2 <+: ks →
      look C w'.repo.log w'.heap ks [] (.mem a) = look C w.repo.log w.heap ks [] (.mem a) := by
    intro q2
    induction q2 with
    | nil => intro q1 a ks _ _ _ h; exact absurd (List.nil_prefix) h
    | cons x q2 ih =>
      intro q1 a ks he hl1 hl2 hks
      have hl2' := hl2
      cases hl2 with
      | cons t c hm hd hl2 =>
        have hal : a < w.next := Reach.lt hf.kids hi hl1.reach
        have ham : a ≠ m := by
          rintro rfl
          have := hone q _ a ha.lead ha.tree hl1
          have h2 := names_injective this
          rw [he] at h2
          have := congrArg List.length h2
          simp at this
        have e := ha.old a ham hal
        have hm' : (w'.heap a).mapped = true := by rw [e]; exact hm
        cases ks with
        | nil => rw [look_self hm, look_self hm', e]
        | cons k ks =>
          by_cases hkx : k = .name x
          · subst hkx
            rw [look_name hf.plain hm hd, look_name hform hm' (by rw [e]; exact hd)]
            refine ih (q1 ++ [x]) c ks (by rw [he]; simp) ?_ hl2 ?_
            · rw [names_append]
              exact hl1.append (Leads.cons t c hm hd (Leads.nil c))
            · intro h
              apply hks
              obtain ⟨s, hs⟩ := h
              exact ⟨s, by rw [← hs]; rfl⟩
          · refine look_key_same hm hm' (by rw [e]) ks [] fun t0 c0 hdk0 => ?_
            have hc0 := hf.kids a hm c0 (dget_sub hdk0)
            refine ⟨ha.content hf hc0 ?_, hf.all c0⟩
            intro hr
            obtain ⟨ks0, hr⟩ := hr.leads hf.formed
            have h3 := hone q (names q1 ++ k :: ks0) m ha.lead ha.tree
              (hl1.append (Leads.cons t0 c0 hm hdk0 hr))
            rw [he, names_append] at h3
            have h4 := List.append_cancel_left h3
            injection h4 with h4
            exact hkx h4
  exact key q [] i ks rfl (Leads.nil i) ha.lead hks

end NodeChanged

namespace AddedAt

variable {i : ObjId} {q : List Str} {n : Str} {rest : List Str} {m child : ObjId} {w w' : World}

theorem lt (ha : AddedAt i q n rest m child w w') (hf : Fine C w) (hi : i < w.next) : m < w.next :=
  Reach.lt hf.kids hi ha.lead.reach

theorem next_le (ha : AddedAt i q n rest m child w w') : w.next ≤ w'.next := by
  rw [ha.next]; exact Nat.le_add_right _ _

theorem changed (ha : AddedAt i q n rest m child w w') : NodeChanged i q m w w' :=
  ⟨ha.lead, ha.mapped, ha.tree, ha.old, ha.log⟩

/-- Objects that do not contain the changed node are as before. -/
theorem kept (ha : AddedAt i q n rest m child w w') (hf : Fine C w) {a : ObjId} (hal : a < w.next)
    (har : ¬ Reach w.heap a m) {j : ObjId} (hr : Reach w.heap a j) : w'.heap j = w.heap j :=
  ha.changed.kept hf hal har hr

theorem content (ha : AddedAt i q n rest m child w w') (hf : Fine C w) {a : ObjId} (hal : a < w.next)
    (har : ¬ Reach w.heap a m) :
    SameContent C w.repo.log w.heap (.mem a) w'.repo.log w'.heap (.mem a) :=
  ha.changed.content hf hal har

theorem mapped' (ha : AddedAt i q n rest m child w w') : (w'.heap m).mapped = true := by
  rw [ha.node]; exact ha.mapped

theorem kid (ha : AddedAt i q n rest m child w w') :
    dget (w'.heap m).body.kids (.name n) = some ([], chainStart child w.next rest) := by
  rw [ha.node]
  simp only
  rw [dget_append, ha.free]
  simp [dget_cons]

theorem kid_ne (ha : AddedAt i q n rest m child w w') {k : Key} (hk : k ≠ .name n) :
    dget (w'.heap m).body.kids k = dget (w.heap m).body.kids k := by
  rw [ha.node]
  simp only
  rw [dget_append]
  have : dget [(Key.name n, ([] : Str), chainStart child w.next rest)] k = none := by
    rw [dget_cons, if_neg (fun h => hk h.symm)]; rfl
  rw [this]
  cases dget (w.heap m).body.kids k <;> rfl

theorem leads_keep (ha : AddedAt i q n rest m child w w') (hf : Fine C w) {a : ObjId} {ks : List Key}
    {j : ObjId} (hal : a < w.next) (hl : Leads w.heap a ks j) : Leads w'.heap a ks j := by
  induction hl with
  | nil a => exact Leads.nil a
  | cons t c hm hd _ ih =>
    rename_i a k ks j _
    have hc := hf.kids a hm c (dget_sub hd)
    by_cases ham : a = m
    · subst ham
      refine Leads.cons t c ha.mapped' ?_ (ih hc)
      rw [ha.kid_ne, hd]
      rintro rfl
      rw [ha.free] at hd; cases hd
    · have e := ha.old a ham hal
      exact Leads.cons t c (by rw [e]; exact hm) (by rw [e]; exact hd) (ih hc)

/-- The nodes of the chain -/
theorem leads_chain (ha : AddedAt i q n rest m child w w') (r1 r2 : List Str) (he : rest = r1 ++ r2)
    (hr : r2 ≠ []) : Leads w'.heap (chainStart child w.next rest) (names r1) (w.next + r1.length) := by
  have key : ∀ r0 r1, rest = r0 ++ (r1 ++ r2) →
      Leads w'.heap (w.next + r0.length) (names r1) (w.next + r0.length + r1.length) := by
    intro r0 r1
    induction r1 generalizing r0 with
    | nil => intro _; exact Leads.nil _
    | cons x r1 ih =>
      intro he
      have hg := ha.chain.get r0 x (r1 ++ r2) he
      have hne : r1 ++ r2 ≠ [] := by
        intro h; exact hr (List.append_eq_nil_iff.mp h).2
      have h1 := ih (r0 ++ [x]) (by rw [he]; simp)
      rw [List.length_append, List.length_singleton] at h1
      have e1 : w.next + r0.length + (x :: r1).length = w.next + (r0.length + 1) + r1.length := by
        simp only [List.length_cons]; oomega
      rw [e1]
      refine Leads.cons [] (w.next + (r0.length + 1)) (by rw [hg]; rfl) ?_ h1
      rw [hg]
      unfold chainStart
      rw [if_neg hne]
      simp [Obj.new, dget_cons]
      oomega
  have := key [] r1 he
  unfold chainStart
  rw [if_neg (by rw [he]; intro h; exact hr (List.append_eq_nil_iff.mp h).2)]
  simpa using this

theorem leads_child (ha : AddedAt i q n rest m child w w') :
    Leads w'.heap (chainStart child w.next rest) (names rest) child := by
  rcases List.eq_nil_or_concat rest with h | ⟨r1, x, h⟩
  · rw [h]; unfold chainStart; rw [if_pos rfl]; exact Leads.nil _
  · rw [List.concat_eq_append] at h
    have h1 := ha.leads_chain r1 [x] h (by simp)
    have hg := ha.chain.get r1 x [] h
    have h2 : Leads w'.heap (w.next + r1.length) (names [x]) child := by
      refine Leads.cons [] child (by rw [hg]; rfl) ?_ (Leads.nil _)
      rw [hg]
      simp [Obj.new, dget_cons, chainStart]
    have := h1.append h2
    rw [← names_append, ← h] at this
    exact this

/-- The added object is where it was added. -/
theorem leads_added (ha : AddedAt i q n rest m child w w') (hf : Fine C w) (hi : i < w.next) :
    Leads w'.heap i (names (q ++ n :: rest)) child := by
  rw [names_append]
  refine (ha.leads_keep hf hi ha.lead).append ?_
  exact Leads.cons [] _ ha.mapped' ha.kid ha.leads_child

theorem formed (ha : AddedAt i q n rest m child w w') (hf : Fine C w) : HeapFormed w'.heap := by
  intro j hj
  by_cases hjm : j = m
  · subst hjm
    have h0 := hf.formed j ha.mapped
    rw [ha.node]
    refine ⟨?_, ?_, ?_⟩
    · simp only
      unfold dkeys
      rw [List.map_append]
      have hn : Key.name n ∉ dkeys (w.heap j).body.kids := dget_eq_none.mp ha.free
      refine List.nodup_append.mpr ⟨h0.keys, by simp, ?_⟩
      intro a ha1 b hb
      simp at hb
      subst hb
      rintro rfl
      exact hn ha1
    · intro e he
      simp only at he
      rcases List.mem_append.mp he with he | he
      · exact h0.fits e he
      · rw [List.mem_singleton] at he
        subst he
        have := ha.tree
        show Key.fits (w.heap j).kind (Key.name n) = true
        cases hk : (w.heap j).kind <;> rw [hk] at this <;> simp_all [Kind.isMtree, Key.fits]
    · intro hk e he
      simp only at he
      rcases List.mem_append.mp he with he | he
      · exact h0.stamps hk e he
      · rw [List.mem_singleton] at he; subst he; rfl
  · by_cases h1 : j < w.next
    · rw [ha.old j hjm h1] at hj ⊢; exact hf.formed j hj
    · by_cases h2 : j < w.next + rest.length
      · obtain ⟨r1, x, r2, _, _, h3⟩ := ha.chain.mem (Nat.not_lt.mp h1) h2
        rw [h3]
        refine ⟨by simp [Obj.new, dkeys], ?_, ?_⟩
        · intro e he
          simp only [Obj.new, List.mem_singleton] at he
          subst he
          have := ha.tree
          simp only [Obj.new, Data.kind_empty]
          cases hk : (w.heap m).kind <;> rw [hk] at this <;> simp_all [Kind.isMtree, Key.fits]
        · intro _ e he
          simp only [Obj.new, List.mem_singleton] at he
          subst he; rfl
      · have h3 : w'.next ≤ j := by rw [ha.next]; exact Nat.not_lt.mp h2
        rw [ha.high j h3] at hj ⊢; exact hf.formed j hj

/-- A child of a new node -/
theorem chain_kid (ha : AddedAt i q n rest m child w w') {j : ObjId} (h1 : w.next ≤ j)
    (h2 : j < w'.next) {k : ObjId} (hk : k ∈ (w'.heap j).body.subs) :
    k = child ∨ (k = j + 1 ∧ j + 1 < w'.next) := by
  rw [ha.next] at h2 ⊢
  obtain ⟨r1, x, r2, e1, e2, h3⟩ := ha.chain.mem h1 h2
  rw [h3] at hk
  simp only [Obj.new, Body.subs, List.map_cons, List.map_nil, List.mem_singleton] at hk
  unfold chainStart at hk
  by_cases hr : r2 = []
  · rw [if_pos hr] at hk; exact Or.inl hk
  · rw [if_neg hr] at hk
    refine Or.inr ⟨hk, ?_⟩
    have : 0 < r2.length := List.length_pos_iff.mpr hr
    rw [e1]
    simp only [List.length_append, List.length_cons]
    oomega

theorem subs_m (ha : AddedAt i q n rest m child w w') {k : ObjId} (hk : k ∈ (w'.heap m).body.subs) :
    k ∈ (w.heap m).body.subs ∨ k = chainStart child w.next rest := by
  rw [ha.node] at hk
  simp only [Body.subs, List.map_append, List.map_cons, List.map_nil, List.mem_append,
    List.mem_singleton] at hk
  exact hk

theorem start_cases (ha : AddedAt i q n rest m child w w') :
    chainStart child w.next rest = child ∨
      (chainStart child w.next rest = w.next ∧ w.next < w'.next) := by
  unfold chainStart
  by_cases hr : rest = []
  · rw [if_pos hr]; exact Or.inl rfl
  · rw [if_neg hr, ha.next]
    have : 0 < rest.length := List.length_pos_iff.mpr hr
    exact Or.inr ⟨rfl, by oomega⟩

theorem fine (ha : AddedAt i q n rest m child w w') (hf : Fine C w) (hi : i < w.next)
    (hc : child < w.next) (hcm : ¬ Reach w.heap child m) : Fine C w' := by
  have hm := ha.lt hf hi
  have hle := ha.next_le
  have hform := ha.formed hf
  have hclass : ∀ j, j = m ∨ (w.next ≤ j ∧ j < w'.next) ∨
      (j ≠ m ∧ (j < w.next ∨ w'.next ≤ j) ∧ w'.heap j = w.heap j) := by
    intro j
    by_cases h0 : j = m
    · exact Or.inl h0
    · by_cases h1 : j < w.next
      · exact Or.inr (Or.inr ⟨h0, Or.inl h1, ha.old j h0 h1⟩)
      · by_cases h2 : j < w'.next
        · exact Or.inr (Or.inl ⟨Nat.not_lt.mp h1, h2⟩)
        · exact Or.inr (Or.inr ⟨h0, Or.inr (Nat.not_lt.mp h2), ha.high j (Nat.not_lt.mp h2)⟩)
  have hun : ∀ j, (w'.heap j).mapped = false → w'.heap j = w.heap j := by
    intro j hj
    rcases hclass j with rfl | ⟨h1, h2⟩ | ⟨_, _, h⟩
    · rw [ha.mapped'] at hj; cases hj
    · rw [ha.next] at h2
      obtain ⟨_, _, _, _, _, h3⟩ := ha.chain.mem h1 h2
      rw [h3] at hj; cases hj
    · exact h
  refine ⟨?_, ?_, ?_, ?_, hform⟩
  · intro p hp k hk
    rcases hclass p with rfl | ⟨h1, h2⟩ | ⟨_, _, h⟩
    · rcases ha.subs_m hk with h | h
      · exact Nat.lt_of_lt_of_le (hf.kids p ha.mapped k h) hle
      · rcases ha.start_cases with e | ⟨e, h'⟩
        · rw [h, e]; exact Nat.lt_of_lt_of_le hc hle
        · rw [h, e]; exact h'
    · rcases ha.chain_kid h1 h2 hk with rfl | ⟨rfl, h⟩
      · exact Nat.lt_of_lt_of_le hc hle
      · exact h
    · rw [h] at hp hk
      exact Nat.lt_of_lt_of_le (hf.kids p hp k hk) hle
  · obtain ⟨rank, hr⟩ := hf.ranked
    classical
    refine ⟨fun j => if w.next ≤ j ∧ j < w'.next then rank child + (w'.next - j)
      else rank j + (if Reach w.heap j m ∨ w'.next ≤ j then rank child + w'.next + 1 else 0), ?_⟩
    intro p hp k hk
    have hold : ∀ j, j < w.next → ¬ (w.next ≤ j ∧ j < w'.next) := fun j h h' => absurd h (Nat.not_lt.mpr h'.1)
    have hchild : (if w.next ≤ child ∧ child < w'.next then rank child + (w'.next - child)
      else rank child + (if Reach w.heap child m ∨ w'.next ≤ child then rank child + w'.next + 1 else 0)) = rank child := by
      rw [if_neg (hold child hc), if_neg]
      · rfl
      · rintro (h | h)
        · exact hcm h
        · oomega
    rcases hclass p with rfl | ⟨h1, h2⟩ | ⟨hpm, hpr, h⟩
    · simp only
      rw [if_neg (hold p hm), if_pos (Or.inl (Reach.refl _))]
      rcases ha.subs_m hk with h | h
      · have hk1 := hf.kids p ha.mapped k h
        have hk2 := hr p ha.mapped k h
        rw [if_neg (hold k hk1), if_neg]
        · oomega
        · rintro (h' | h')
          · rcases h'.rank hr with e | e
            · subst e; exact absurd hk2 (Nat.lt_irrefl _)
            · oomega
          · oomega
      · rcases ha.start_cases with e | ⟨e, h'⟩
        · rw [h, e, hchild]; oomega
        · rw [h, e, if_pos ⟨Nat.le_refl _, h'⟩]; oomega
    · simp only
      rw [if_pos (c := w.next ≤ p ∧ p < w'.next) ⟨h1, h2⟩]
      rcases ha.chain_kid h1 h2 hk with e | ⟨e, h⟩
      · rw [e, hchild]; oomega
      · rw [e, if_pos ⟨by oomega, h⟩]; oomega
    · rw [h] at hp hk
      have hk1 := hf.kids p hp k hk
      have hk2 := hr p hp k hk
      have hpn : ¬ (w.next ≤ p ∧ p < w'.next) := by
        rintro ⟨g1, g2⟩; rcases hpr with g | g <;> oomega
      simp only
      rw [if_neg (hold k hk1), if_neg hpn]
      by_cases hkm : Reach w.heap k m
      · rw [if_pos (Or.inl hkm), if_pos (Or.inl (Reach.step p k m hp hk hkm))]
        oomega
      · rw [if_neg]
        · oomega
        · rintro (g | g)
          · exact hkm g
          · oomega
  · intro j hj
    have e := hun j hj
    rw [e] at hj ⊢
    exact hf.away j hj
  · intro j hj
    have e := hun j hj
    rw [e] at hj
    refine Full.of_same ?_ (hf.full j hj)
    rw [ha.log]
    refine look_kept fun k hk => ?_
    rw [reach_unmapped hj hk]
    exact e

/-! ### Contents -/

/-- Under the path of the added object its content is found. -/
theorem look_added (ha : AddedAt i q n rest m child w w') (hf : Fine C w) (hi : i < w.next)
    (hc : child < w.next) (hcm : ¬ Reach w.heap child m) (ks : List Key) :
    look C w'.repo.log w'.heap (names (q ++ n :: rest) ++ ks) [] (.mem i) =
      look C w.repo.log w.heap ks [] (.mem child) := by
  rw [(ha.leads_added hf hi).look (ha.formed hf), ha.content hf hc hcm]

/-- Where the keys leave the path before the changed node, all is as before. -/
theorem look_before (ha : AddedAt i q n rest m child w w') (hf : Fine C w) (hi : i < w.next)
    (hone : OnePath w.heap i) (ks : List Key) (hks : ¬ names q <+: ks) :
    look C w'.repo.log w'.heap ks [] (.mem i) = look C w.repo.log w.heap ks [] (.mem i) :=
  ha.changed.look_before hf hi (ha.formed hf) hone ks hks

/-- What is found from the changed node, under other keys than the new one -/
theorem look_node (ha : AddedAt i q n rest m child w w') (hf : Fine C w) {k : Key} (hk : k ≠ .name n) (ks : List Key) :
    look C w'.repo.log w'.heap (k :: ks) [] (.mem m) = look C w.repo.log w.heap (k :: ks) [] (.mem m) := by
  refine look_key_same ha.mapped ha.mapped' (ha.kid_ne hk) ks [] fun t0 c0 hd => ?_
  have hc0 := hf.kids m ha.mapped c0 (dget_sub hd)
  refine ⟨ha.content hf hc0 ?_, hf.all c0⟩
  intro hr
  obtain ⟨rank, hrk⟩ := hf.ranked
  have h1 := hrk m ha.mapped c0 (dget_sub hd)
  rcases hr.rank hrk with e | e
  · subst e; exact absurd h1 (Nat.lt_irrefl _)
  · oomega

/-- Before, nothing was under the new key of the changed node. -/
theorem look_free (ha : AddedAt i q n rest m child w w') (hf : Fine C w) (ks : List Key) :
    look C w.repo.log w.heap (names (q ++ [n]) ++ ks) [] (.mem i) = .absent := by
  rw [names_append, List.append_assoc, ha.lead.look hf.plain]
  exact look_name_none ha.mapped ha.free _ _

/-- The nodes on the path of the added object are not empty afterwards. -/
theorem look_prefix (ha : AddedAt i q n rest m child w w') (hf : Fine C w) (hi : i < w.next)
    {a b : List Str} (he : q ++ n :: rest = a ++ b) (hb : b ≠ []) :
    ∃ leaf, look C w'.repo.log w'.heap (names a) [] (.mem i) = .found [] (.mtree leaf) false ∧
      ∀ d e, look C w.repo.log w.heap (names a) [] (.mem i) = .found [] d e → d = .mtree leaf := by
  obtain ⟨x, b', rfl⟩ : ∃ x b', b = x :: b' := by
    cases b with
    | nil => exact absurd rfl hb
    | cons x b' => exact ⟨x, b', rfl⟩
  have hl := ha.leads_added hf hi
  rw [he, names_append] at hl
  obtain ⟨c, h1, h2⟩ := hl.split
  cases h2 with
  | cons t c' hm hd _ =>
    have hk : (w'.heap c).kind.isMtree = true := fits_name ((ha.formed hf c hm).fits _ (mem_of_dget hd))
    have hblank : (w'.heap c).body.blank = false := by
      unfold Body.blank
      have : (w'.heap c).body.kids ≠ [] := by
        intro h0; rw [h0] at hd; cases hd
      simp [this]
    have hleaf : ∃ leaf, (w'.heap c).body.data = .mtree leaf := by
      unfold Obj.kind at hk
      cases hdd : (w'.heap c).body.data <;> rw [hdd] at hk <;> first | exact ⟨_, rfl⟩ | cases hk
    obtain ⟨leaf, hleaf⟩ := hleaf
    have hL := h1.look (C := C) (L := w'.repo.log) (ha.formed hf) []
    rw [List.append_nil] at hL
    refine ⟨leaf, by rw [hL, look_self hm, hleaf, hblank], ?_⟩
    intro d e hde
    rcases List.append_eq_append_iff.mp he with ⟨z, e1, e2⟩ | ⟨z, e1, e2⟩
    · -- a = q ++ z
      cases z with
      | nil =>
        rw [List.append_nil] at e1
        subst e1
        have h3 := h1.unique (ha.leads_keep hf hi ha.lead)
        subst h3
        have hL2 := ha.lead.look (C := C) (L := w.repo.log) hf.plain []
        rw [List.append_nil] at hL2
        rw [hL2, look_self ha.mapped] at hde
        injection hde with _ h4
        rw [← h4, ← hleaf, ha.node]
      | cons y z =>
        injection e2 with e2 e3
        subst e2
        have := ha.look_free (C := C) hf (names z)
        rw [e1] at hde
        have e4 : names (q ++ n :: z) = names (q ++ [n]) ++ names z := by
          rw [← names_append]; simp
        rw [e4, this] at hde
        cases hde
    · -- q = a ++ z
      subst e1
      have hlead := ha.lead
      rw [names_append] at hlead
      obtain ⟨c2, g1, g2⟩ := hlead.split
      have h3 := h1.unique (ha.leads_keep hf hi g1)
      subst h3
      have hL2 := g1.look (C := C) (L := w.repo.log) hf.plain []
      rw [List.append_nil] at hL2
      have hcl : c < w.next := Reach.lt hf.kids hi g1.reach
      cases z with
      | nil =>
        cases g2
        rw [hL2, look_self ha.mapped] at hde
        injection hde with _ h4
        rw [← h4, ← hleaf, ha.node]
      | cons y z =>
        cases g2 with
        | cons t2 c3 hm2 _ _ =>
          rw [hL2, look_self hm2] at hde
          injection hde with _ h4
          by_cases hcm : c = m
          · subst hcm; rw [← h4, ← hleaf, ha.node]
          · rw [← h4, ← hleaf, ha.old c hcm hcl]

/-- All other contents of the tree are as before. -/
theorem look_other (ha : AddedAt i q n rest m child w w') (hf : Fine C w) (hi : i < w.next)
    (hone : OnePath w.heap i) (ks : List Key) (h1 : ¬ names (q ++ n :: rest) <+: ks)
    (h2 : ∀ a, a <+: q ++ n :: rest → ks ≠ names a) :
    look C w'.repo.log w'.heap ks [] (.mem i) = look C w.repo.log w.heap ks [] (.mem i) := by
  by_cases hq : names q <+: ks
  · obtain ⟨ks1, rfl⟩ := hq
    rw [(ha.leads_keep hf hi ha.lead).look (ha.formed hf), ha.lead.look hf.plain]
    cases ks1 with
    | nil => exact absurd (List.append_nil _) (h2 q ⟨_, rfl⟩)
    | cons k ks1 =>
      by_cases hk : k = .name n
      · subst hk
        rw [look_name (ha.formed hf) ha.mapped' ha.kid, look_name_none ha.mapped ha.free]
        have key : ∀ r2 r1 ks2, rest = r1 ++ r2 → r2 ≠ [] → ¬ names r2 <+: ks2 →
            (∀ a, a <+: r2 → ks2 ≠ names a) →
            look C w'.repo.log w'.heap ks2 [] (.mem (w.next + r1.length)) = .absent := by
          intro r2
          induction r2 with
          | nil => intro _ _ _ h; exact absurd rfl h
          | cons x r2 ih =>
            intro r1 ks2 he _ hp hne
            have hg := ha.chain.get r1 x r2 he
            have hm : (w'.heap (w.next + r1.length)).mapped = true := by rw [hg]; rfl
            cases ks2 with
            | nil => exact absurd rfl (hne [] List.nil_prefix)
            | cons k2 ks2 =>
              by_cases hk2 : k2 = .name x
              · subst hk2
                have hd : dget (w'.heap (w.next + r1.length)).body.kids (.name x) =
                    some ([], chainStart child (w.next + r1.length + 1) r2) := by
                  rw [hg]; simp [Obj.new, dget_cons]
                rw [look_name (ha.formed hf) hm hd]
                by_cases hr2 : r2 = []
                · subst hr2
                  exact absurd ⟨ks2, rfl⟩ hp
                · have := ih (r1 ++ [x]) ks2 (by rw [he]; simp) hr2
                    (by rintro ⟨s, rfl⟩; exact hp ⟨s, rfl⟩)
                    (by
                      rintro a ⟨s, hs⟩ rfl
                      exact hne (x :: a) ⟨s, by rw [← hs]; rfl⟩ rfl)
                  unfold chainStart
                  rw [if_neg hr2]
                  rw [List.length_append, List.length_singleton, ← Nat.add_assoc] at this
                  exact this
              · refine look_name_none hm ?_ _ _
                rw [hg]
                simp only [Obj.new]
                rw [dget_cons, if_neg (fun h => hk2 h.symm)]
                rfl
        by_cases hr : rest = []
        · subst hr
          exact absurd ⟨ks1, by rw [names_append]; simp [names]⟩ h1
        · have := key rest [] ks1 rfl hr
            (by
              rintro ⟨s, rfl⟩
              exact h1 ⟨s, by rw [names_append]; simp [names]⟩)
            (by
              rintro a ⟨s, hs⟩ rfl
              exact h2 (q ++ n :: a) ⟨s, by rw [← hs]; simp⟩ (by rw [names_append]; rfl))
          unfold chainStart
          rw [if_neg hr]
          exact this
      · exact ha.look_node hf hk ks1
  · exact ha.look_before hf hi hone ks hq

/-! ### Sharing -/

/-- What is reached after an addition -/
theorem leads_cases (ha : AddedAt i q n rest m child w w') (hf : Fine C w)
    (hc : child < w.next) (hcm : ¬ Reach w.heap child m) {ks : List Key} :
    ∀ {a j : ObjId}, a < w.next → Leads w'.heap a ks j → (j < w.next ∧ Leads w.heap a ks j) ∨
      (∃ ks1 r1 r2, rest = r1 ++ r2 ∧ r2 ≠ [] ∧ ks = ks1 ++ names (n :: r1) ∧ Leads w.heap a ks1 m ∧
        j = w.next + r1.length) ∨
      (∃ ks1 ks3, ks = ks1 ++ (names (n :: rest) ++ ks3) ∧ Leads w.heap a ks1 m ∧
        Leads w.heap child ks3 j) := by
  have hback : ∀ {ks : List Key} {a j : ObjId}, a < w.next → ¬ Reach w.heap a m → Leads w'.heap a ks j →
      Leads w.heap a ks j := by
    intro ks
    induction ks with
    | nil => intro a j _ _ h; cases h; exact Leads.nil a
    | cons k ks ih =>
      intro a j hal har h
      cases h with
      | cons t c hm hd h =>
        have e := ha.kept hf hal har (Reach.refl a)
        rw [e] at hm hd
        refine Leads.cons t c hm hd (ih (hf.kids a hm c (dget_sub hd)) ?_ h)
        intro hr; exact har (Reach.step a c m hm (dget_sub hd) hr)
  have hchain : ∀ {r2 r1 : List Str} {ks : List Key} {j : ObjId}, rest = r1 ++ r2 → r2 ≠ [] →
      Leads w'.heap (w.next + r1.length) ks j →
      (∃ a b, r2 = a ++ b ∧ b ≠ [] ∧ ks = names a ∧ j = w.next + r1.length + a.length) ∨
      (∃ ks3, ks = names r2 ++ ks3 ∧ Leads w.heap child ks3 j) := by
    intro r2
    induction r2 with
    | nil => intro _ _ _ _ h; exact absurd rfl h
    | cons x r2 ih =>
      intro r1 ks j he _ h
      have hg := ha.chain.get r1 x r2 he
      cases h with
      | nil => exact Or.inl ⟨[], x :: r2, rfl, by simp, rfl, rfl⟩
      | cons t c hm hd h =>
        rename_i k ks
        rw [hg] at hd
        simp only [Obj.new] at hd
        rw [dget_cons] at hd
        split at hd
        · rename_i hkx
          subst hkx
          cases hd
          by_cases hr2 : r2 = []
          · subst hr2
            unfold chainStart at h
            rw [if_pos rfl] at h
            exact Or.inr ⟨ks, rfl, hback hc hcm h⟩
          · unfold chainStart at h
            rw [if_neg hr2] at h
            have h' : Leads w'.heap (w.next + (r1 ++ [x]).length) ks j := by
              rw [List.length_append, List.length_singleton, ← Nat.add_assoc]; exact h
            rcases ih (by rw [he]; simp) hr2 h' with ⟨a, b, e1, e2, e3, e4⟩ | ⟨ks3, e1, e2⟩
            · refine Or.inl ⟨x :: a, b, by rw [e1]; rfl, e2, by rw [e3]; rfl, ?_⟩
              rw [e4, List.length_append, List.length_singleton, List.length_cons]
              oomega
            · exact Or.inr ⟨ks3, by rw [e1]; rfl, e2⟩
        · cases hd
  induction ks with
  | nil => intro a j hal h; cases h; exact Or.inl ⟨hal, Leads.nil a⟩
  | cons k ks ih =>
    intro a j hal h
    cases h with
    | cons t c hm hd h =>
      by_cases hnew : a = m ∧ k = .name n
      · obtain ⟨rfl, rfl⟩ := hnew
        rw [ha.kid] at hd
        cases hd
        by_cases hr : rest = []
        · subst hr
          right; right
          unfold chainStart at h
          rw [if_pos rfl] at h
          exact ⟨[], ks, rfl, Leads.nil a, hback hc hcm h⟩
        · unfold chainStart at h
          rw [if_neg hr] at h
          rcases hchain (r1 := []) rfl hr h with ⟨a1, b1, e1, e2, e3, e4⟩ | ⟨ks3, e1, e2⟩
          · exact Or.inr (Or.inl ⟨[], a1, b1, e1, e2, by rw [e3]; rfl, Leads.nil a, by simpa using e4⟩)
          · exact Or.inr (Or.inr ⟨[], ks3, by rw [e1]; rfl, Leads.nil a, e2⟩)
      · have hold : (w.heap a).mapped = true ∧ dget (w.heap a).body.kids k = some (t, c) := by
          by_cases ham : a = m
          · subst ham
            rw [ha.kid_ne (fun h => hnew ⟨rfl, h⟩)] at hd
            exact ⟨ha.mapped, hd⟩
          · rw [ha.old a ham hal] at hm hd; exact ⟨hm, hd⟩
        obtain ⟨hm0, hd0⟩ := hold
        rcases ih (hf.kids a hm0 c (dget_sub hd0)) h with ⟨h1, h2⟩ | ⟨ks1, r1, r2, e1, e2, e3, e4, e5⟩ |
          ⟨ks1, ks3, e1, e2, e3⟩
        · exact Or.inl ⟨h1, Leads.cons t c hm0 hd0 h2⟩
        · exact Or.inr (Or.inl ⟨k :: ks1, r1, r2, e1, e2, by rw [e3]; rfl, Leads.cons t c hm0 hd0 e4, e5⟩)
        · exact Or.inr (Or.inr ⟨k :: ks1, ks3, by rw [e1]; rfl, Leads.cons t c hm0 hd0 e2, e3⟩)

theorem onePath (ha : AddedAt i q n rest m child w w') (hf : Fine C w) (hi : i < w.next)
    (hc : child < w.next) (hone : OnePath w.heap i) (honec : OnePath w.heap child)
    (h1 : Apart w.heap child i) (h2 : Apart w.heap i child) : OnePath w'.heap i := by
  have hcm : ¬ Reach w.heap child m := h1 q m ha.lead ha.tree
  have hm := ha.lt hf hi
  have hkold : ∀ j, j < w.next → (w'.heap j).kind = (w.heap j).kind := by
    intro j hj
    by_cases hjm : j = m
    · subst hjm; rw [ha.node]; rfl
    · rw [ha.old j hjm hj]
  intro qq ks j hl hk hl'
  rcases ha.leads_cases hf hc hcm hi hl with ⟨a1, a2⟩ | ⟨k1, r1, r2, e1, e2, e3, e4, e5⟩ | ⟨k1, k3, e1, e2, e3⟩
  · rw [hkold j a1] at hk
    rcases ha.leads_cases hf hc hcm hi hl' with ⟨_, b2⟩ | ⟨_, _, _, _, _, _, _, f5⟩ | ⟨_, _, _, _, f3⟩
    · exact hone qq ks j a2 hk b2
    · oomega
    · exact absurd f3.reach (h1 qq j a2 hk)
  · rcases ha.leads_cases hf hc hcm hi hl' with ⟨b1, _⟩ | ⟨l1, s1, s2, f1, f2, f3, f4, f5⟩ | ⟨_, _, _, _, f3⟩
    · oomega
    · have g1 := hone q k1 m ha.lead ha.tree e4
      have g2 := hone q l1 m ha.lead ha.tree f4
      have hlen : r1.length = s1.length := by oomega
      have : r1 = s1 := (List.append_inj (e1.symm.trans f1) hlen).1
      rw [e3, f3, g1, g2, this]
    · have := Reach.lt hf.kids hc f3.reach
      oomega
  · have hjl : j < w.next := Reach.lt hf.kids hc e3.reach
    rw [hkold j hjl] at hk
    obtain ⟨q1, q23, e4, e5, e6⟩ := names_append_eq e1
    obtain ⟨q2, q3, e7, e8, e9⟩ := names_append_eq e6.symm
    rw [e9] at e3
    rcases ha.leads_cases hf hc hcm hi hl' with ⟨_, b2⟩ | ⟨_, _, _, _, _, _, _, f5⟩ | ⟨l1, l3, f1, f2, f3⟩
    · exact absurd b2.reach (h2 q3 j e3 hk)
    · oomega
    · have g1 := hone q k1 m ha.lead ha.tree e2
      have g2 := hone q l1 m ha.lead ha.tree f2
      have g3 := honec q3 l3 j e3 hk f3
      rw [e1, f1, g1, g2, g3, e9]

/-- Objects apart from the tree and from the added object stay apart from the tree. -/
theorem apart (ha : AddedAt i q n rest m child w w') (hf : Fine C w) (hi : i < w.next)
    (hc : child < w.next) (h1 : Apart w.heap child i) {a : ObjId} (hal : a < w.next)
    (h2 : Apart w.heap a i) (h3 : Apart w.heap a child) : Apart w'.heap a i := by
  have hcm : ¬ Reach w.heap child m := h1 q m ha.lead ha.tree
  have ham : ¬ Reach w.heap a m := h2 q m ha.lead ha.tree
  have hkold : ∀ j, j < w.next → (w'.heap j).kind = (w.heap j).kind := by
    intro j hj
    by_cases hjm : j = m
    · subst hjm; rw [ha.node]; rfl
    · rw [ha.old j hjm hj]
  intro qq j hl hk hr
  obtain ⟨ks, hr⟩ := hr.leads (ha.formed hf)
  rcases ha.leads_cases hf hc hcm hal hr with ⟨a1, a2⟩ | ⟨_, _, _, _, _, _, e4, _⟩ | ⟨_, _, _, e2, _⟩
  · rw [hkold j a1] at hk
    rcases ha.leads_cases hf hc hcm hi hl with ⟨_, b2⟩ | ⟨_, _, _, _, _, _, _, f5⟩ | ⟨k1, k3, f1, f2, f3⟩
    · exact h2 qq j b2 hk a2.reach
    · oomega
    · obtain ⟨q1, q23, e4, e5, e6⟩ := names_append_eq f1
      obtain ⟨q2, q3, e7, e8, e9⟩ := names_append_eq e6.symm
      rw [e9] at f3
      exact h3 q3 j f3 hk a2.reach
  · exact ham e4.reach
  · exact ham e2.reach

end AddedAt

end MM
