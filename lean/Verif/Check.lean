/-
Checks for concrete examples: objects that can be stored.
-/
import Verif.Example

namespace MM

/-- What `SlotOk` asks for, as a check that is enough for examples -/
def slotCheck : Kind → Key → Str → Kind → Bool
  | .mtree leaf, .name n, t, k => t.isEmpty && !n.isEmpty && !n.contains '/' && !n.contains '\x00' && !n.contains '\n' &&
      (decide (k = .mtree leaf) || decide (k = leaf.kind))
  | .mrr, .dlm, t, k => t.isEmpty && decide (k = .metadata)
  | .mrr, .ft, t, k => t.isEmpty && decide (k = .mtree .metadata)
  | .vlist, .ver _ p, _, k => decide (p = ⟨[], []⟩) && (decide (k = .mtree .mrr) || decide (k = .mrr))
  | .tvl, .ver _ p, _, k => decide (p = ⟨[], []⟩) && (decide (k = .mtree .mrr) || decide (k = .mrr))
  | .uuidset, .uuid _, t, k => t.isEmpty && decide (k = .vlist)
  | _, _, _, _ => false

theorem slotCheck_ok {k k' : Kind} {key : Key} {t : Str} (h : slotCheck k key t k' = true) : SlotOk k key t k' := by
  have hcan : Canonical ⟨[], []⟩ := by constructor <;> simp
  cases k <;> cases key <;> simp only [slotCheck, Bool.false_eq_true] at h
  · simp only [Bool.and_eq_true, Bool.or_eq_true, Bool.not_eq_true', decide_eq_true_eq, List.isEmpty_iff,
      List.contains_eq_mem, decide_eq_false_iff_not] at h
    obtain ⟨⟨⟨⟨⟨h1, h2⟩, h3⟩, h4⟩, h5⟩, h6⟩ := h
    exact ⟨h1, ⟨(by rintro rfl; cases h2), h3, h4, h5⟩, h6⟩
  · simpa [SlotOk] using h
  · simpa [SlotOk] using h
  · simp only [Bool.and_eq_true, Bool.or_eq_true, decide_eq_true_eq] at h
    exact ⟨by rw [h.1]; exact hcan, h.2⟩
  · simp only [Bool.and_eq_true, Bool.or_eq_true, decide_eq_true_eq] at h
    exact ⟨by rw [h.1]; exact hcan, h.2⟩
  · simpa [SlotOk] using h

/-- Data that can be stored, as a check that is enough for examples -/
def dataCheck : Data → Bool
  | .metadata m => decide ((dkeys m).Nodup) && m.all fun e => e.2.params.isEmpty && e.2.instances.isEmpty
  | .mrr (some _) (some _) => true
  | .mtree _ | .vlist | .tvl | .uuidset => true
  | _ => false

theorem dataCheck_ok {d : Data} (h : dataCheck d = true) : DataOk d := by
  cases d with
  | metadata m =>
    simp only [dataCheck, Bool.and_eq_true, decide_eq_true_eq, List.all_eq_true, List.isEmpty_iff] at h
    refine ⟨h.1, fun p hp => ?_⟩
    obtain ⟨h1, h2⟩ := h.2 p hp
    simp [InstanceSet.WF, h1, h2, dkeys]
  | mrr a b => cases a <;> cases b <;> first | exact ⟨⟨_, rfl⟩, _, rfl⟩ | cases h
  | text s => cases h
  | mtree => trivial
  | vlist => trivial
  | tvl => trivial
  | uuidset => trivial

/-- The first `n` objects of a process contain only each other and can be stored. -/
def worldCheck (w : World) (n : Nat) : Bool :=
  (List.range n).all fun j => dataCheck (w.heap j).body.data && decide ((dkeys (w.heap j).body.kids).Nodup) &&
    (w.heap j).body.kids.all fun e => decide (e.2.2 < n) &&
      slotCheck (w.heap j).body.data.kind e.1 e.2.1 (w.heap e.2.2).kind

theorem storable_of_check {w : World} {n : Nat} (h : worldCheck w n = true) {i : ObjId} (hi : i < n) :
    Storable w.heap i := by
  simp only [worldCheck, List.all_eq_true, List.mem_range, Bool.and_eq_true, decide_eq_true_eq] at h
  intro j hr _
  have hj : j < n := by
    refine reach_closed (S := fun p => p < n) ?_ hr hi
    intro p hp _ k hk
    obtain ⟨e, he, rfl⟩ := List.mem_map.mp hk
    exact ((h p hp).2 e he).1
  obtain ⟨⟨h1, h2⟩, h3⟩ := h j hj
  exact ⟨dataCheck_ok h1, h2, fun e he => slotCheck_ok (h3 e he).2⟩

end MM
