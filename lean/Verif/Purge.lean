/-
What purging does, without assumptions about the objects.
-/
import Verif.Session

namespace MM

/-- Purging leaves objects without any mark as saved alone, and changes only what
is loaded. -/
structure Purged (w w' : World) : Prop where
  unsaved : ∀ j, (w.heap j).savedOn = [] → w'.heap j = w.heap j
  saved : ∀ j, (w'.heap j).savedOn = (w.heap j).savedOn
  mapped : ∀ j, (w'.heap j).mapped = true → w'.heap j = w.heap j
  realm : ∀ j, (w'.heap j).realm = (w.heap j).realm
  ref : ∀ j, (w'.heap j).ref = (w.heap j).ref
  kind : ∀ j, (w'.heap j).kind = (w.heap j).kind
  repo : w'.repo = w.repo
  caches : w'.caches = w.caches
  refs : w'.refs = w.refs
  next : w'.next = w.next

theorem Purged.refl (w : World) : Purged w w :=
  ⟨fun _ _ => rfl, fun _ => rfl, fun _ _ => rfl, fun _ => rfl, fun _ => rfl, fun _ => rfl, rfl, rfl, rfl, rfl⟩

theorem Purged.trans {a b c : World} (h : Purged a b) (h' : Purged b c) : Purged a c := by
  refine ⟨fun j hj => ?_, fun j => (h'.saved j).trans (h.saved j), fun j hj => ?_,
    fun j => (h'.realm j).trans (h.realm j), fun j => (h'.ref j).trans (h.ref j),
    fun j => (h'.kind j).trans (h.kind j),
    h'.repo.trans h.repo, h'.caches.trans h.caches, h'.refs.trans h.refs, h'.next.trans h.next⟩
  · rw [h'.unsaved j (by rw [h.saved]; exact hj), h.unsaved j hj]
  · have e := h'.mapped j hj
    rw [e] at hj
    rw [e, h.mapped j hj]

theorem purged_unload {w : World} {i : ObjId}
    (hs : (w.heap i).savedOn ≠ []) : Purged w (unload i w) := by
  unfold unload
  refine ⟨fun j hj => ?_, fun j => ?_, fun j hj => ?_, fun j => ?_, fun j => ?_, fun j => ?_,
    rfl, rfl, rfl, rfl⟩ <;>
    by_cases h : j = i
  · subst h; exact absurd hj hs
  · exact Heap.set_ne h
  · subst h; simp
  · simp [Heap.set_ne h]
  · subst h; simp at hj
  · exact Heap.set_ne h
  · subst h; simp
  · simp [Heap.set_ne h]
  · subst h; simp
  · simp [Heap.set_ne h]
  · subst h; simp [Obj.kind, Body.purged]
  · simp [Heap.set_ne h]

theorem purge_purged (n : Nat) : ∀ (i : ObjId), M.Keeps (purge n i) Purged := by
  induction n with
  | zero => intro i w; exact Purged.refl w
  | succ n ih =>
    intro i w
    show Purged w (purge (n + 1) i w).2
    unfold purge
    rw [M.bind_of_ok (getObj_run i w)]
    by_cases hm : (w.heap i).mapped = true
    · rw [if_pos hm]
      by_cases hs : (w.heap i).savedOn = []
      · rw [if_pos hs]; exact Purged.refl w
      · rw [if_neg hs]
        split
        · exact Purged.refl w
        · have hk := M.Keeps.forEach (R := Purged) Purged.refl (fun _ _ _ => Purged.trans)
            (f := purge n) (l := (w.heap i).body.subs) (fun k _ => ih k) w
          cases hf : M.forEach (purge n) (w.heap i).body.subs w with
          | mk res w1 =>
            rw [hf] at hk
            cases res with
            | error e => rw [M.bind_of_error hf]; exact hk
            | ok l =>
              rw [M.bind_of_ok hf, updObj_run]
              exact hk.trans (purged_unload (by rw [hk.saved]; exact hs))
    · rw [if_neg hm]; exact Purged.refl w

/-- All loaded objects below `i` are marked as saved somewhere. -/
def Marked (h : Heap) (i : ObjId) : Prop :=
  ∀ j, Reach h i j → (h j).mapped = true → (h j).savedOn ≠ []

theorem marked_of_subs {h : Heap} {i : ObjId} (hs : (h i).savedOn ≠ [])
    (hk : ∀ k ∈ (h i).body.subs, Marked h k) : Marked h i := by
  intro j hr hm
  cases hr with
  | refl => exact hs
  | step _ k _ _ hk' hr => exact hk k hk' j hr hm

/-- If purging succeeds, all loaded parts were marked as saved; this holds with
respect to an earlier state `w0`, after which only such objects were purged. -/
theorem purge_marked_aux (w0 : World) (n : Nat) : ∀ (i : ObjId) (w w' : World), Purged w0 w →
    (∀ j, (w0.heap j).mapped = true → (w.heap j).mapped = false → Marked w0.heap j) →
    purge n i w = (.ok (), w') →
    Marked w0.heap i ∧
      ∀ j, (w0.heap j).mapped = true → (w'.heap j).mapped = false → Marked w0.heap j := by
  induction n with
  | zero => intro i w w' _ _ h; cases h
  | succ n ih =>
    intro i w w' hp hinv h
    unfold purge at h
    rw [M.bind_of_ok (getObj_run i w)] at h
    by_cases hm : (w.heap i).mapped = true
    · rw [if_pos hm] at h
      have e := hp.mapped i hm
      by_cases hs : (w.heap i).savedOn = []
      · rw [if_pos hs] at h; cases h
      · rw [if_neg hs] at h
        split at h
        · cases h
        · obtain ⟨l, w1, h1, h2⟩ := M.bind_ok h
          cases h2
          have key : ∀ (ks : List ObjId) (w w1 : World) (l : List Unit), Purged w0 w →
              (∀ j, (w0.heap j).mapped = true → (w.heap j).mapped = false → Marked w0.heap j) →
              M.forEach (purge n) ks w = (.ok l, w1) → (∀ k ∈ ks, Marked w0.heap k) ∧
              ∀ j, (w0.heap j).mapped = true → (w1.heap j).mapped = false → Marked w0.heap j := by
            intro ks
            induction ks with
            | nil => intro w w1 l hp hinv h; cases h; exact ⟨by simp, hinv⟩
            | cons k ks ih' =>
              intro w w1 l hp hinv h
              rw [M.forEach_cons] at h
              obtain ⟨_, w2, h2, h⟩ := M.bind_ok h
              obtain ⟨l2, w3, h3, h⟩ := M.bind_ok h
              cases h
              obtain ⟨g1, g2⟩ := ih k w w2 hp hinv h2
              have hp2 := purge_purged n k w
              rw [h2] at hp2
              obtain ⟨g3, g4⟩ := ih' w2 _ l2 (hp.trans hp2) g2 h3
              refine ⟨?_, g4⟩
              intro x hx
              rcases List.mem_cons.mp hx with rfl | hx
              · exact g1
              · exact g3 x hx
          obtain ⟨g1, g2⟩ := key _ w w1 l hp hinv h1
          rw [e] at g1 hs
          have gi := marked_of_subs hs g1
          refine ⟨gi, fun j hj hj' => ?_⟩
          by_cases hji : j = i
          · subst hji; exact gi
          · refine g2 j hj ?_
            simpa [Heap.set_ne hji] using hj'
    · rw [if_neg hm] at h
      cases h
      refine ⟨?_, hinv⟩
      by_cases hm0 : (w0.heap i).mapped = true
      · exact hinv i hm0 (by simpa using hm)
      · intro j hr hj
        cases hr with
        | refl => exact absurd hj hm0
        | step _ k _ hm' _ _ => exact absurd hm' hm0

theorem purge_marked {n : Nat} {i : ObjId} {w w' : World} (h : purge n i w = (.ok (), w')) :
    Marked w.heap i :=
  (purge_marked_aux w n i w w' (Purged.refl w) (fun j h1 h2 => by rw [h1] at h2; cases h2) h).1

theorem purge_unmaps {n : Nat} {i : ObjId} {w w' : World} (h : purge n i w = (.ok (), w')) :
    (w'.heap i).mapped = false := by
  cases n with
  | zero => cases h
  | succ n =>
    unfold purge at h
    rw [M.bind_of_ok (getObj_run i w)] at h
    by_cases hm : (w.heap i).mapped = true
    · rw [if_pos hm] at h
      split at h
      · cases h
      · split at h
        · cases h
        · obtain ⟨l, w1, _, h⟩ := M.bind_ok h
          cases h
          simp
    · rw [if_neg hm] at h
      cases h
      simpa using hm

end MM
