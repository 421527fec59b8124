/-
C58: writing and the other objects of a process.
-/
import Verif.Neat
import Verif.Example

namespace MM

/-- C58: writing an object, to any destination or to the repository it belongs to, with success or
not, unloads and changes no object, and leaves the objects alone that it does not contain: their
references, repositories and saved marks stay as they are. -/
theorem C58 {C : Cfg} {via : Via} {n : Nat} {dest : Option Realm} {force : Bool} {i : ObjId} {w w' : World} {o : Except PyErr Ref}
    (h : writeAs C via n dest force i w = (o, w')) :
    (∀ j, (w'.heap j).mapped = (w.heap j).mapped ∧ (w'.heap j).body = (w.heap j).body) ∧
    ∀ j, ¬ Reach w.heap i j → w'.heap j = w.heap j := by
  have h1 := writeAs_within (C := C) via n dest force i w w
  have h2 := fun j hj => writeAs_frame (C := C) via n dest force i w j hj
  rw [h] at h1 h2
  exact ⟨fun j => ⟨h1.mapped j, h1.body j⟩, h2⟩

/-- Writing the tree version list of the examples leaves the UUID set and its version list alone,
although they share the root record. -/
example : sampleWrite.2.heap 7 = sampleWorld.heap 7 ∧ sampleWrite.2.heap 8 = sampleWorld.heap 8 ∧
    (sampleWrite.2.heap 4).savedOn ≠ (sampleWorld.heap 4).savedOn := by
  have hno : ∀ j, Reach sampleWorld.heap 6 j → j < 7 := by
    intro j hj
    refine reach_closed (S := fun p => p < 7) ?_ hj (by decide)
    have : ∀ p, p < 7 → ∀ k ∈ (sampleWorld.heap p).body.subs, k < 7 := by decide
    exact fun p hp _ => this p hp
  exact ⟨(C58 sampleWrite_ok).2 7 fun h => absurd (hno 7 h) (by decide), (C58 sampleWrite_ok).2 8 fun h => absurd (hno 8 h) (by decide), by decide +kernel⟩

end MM
