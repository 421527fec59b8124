/-
Objects stay as their classes build them, in all steps of a session; examples.
-/
import Verif.Walk
import Verif.Example

namespace MM

variable {C : Cfg} {r : Realm}

theorem AllFormed.create {w : World} (h : AllFormed w) {o : Obj} (ho : o.mapped = true → Formed o.body) :
    AllFormed (create o w) := by
  intro j hm
  by_cases hj : j = w.next
  · subst hj; rw [create_self] at hm ⊢; exact ho hm
  · rw [create_ne _ _ hj] at hm ⊢; exact h j hm

theorem AllFormed.populate (bs : List (Body ObjId)) : ∀ {w : World}, AllFormed w →
    (∀ b ∈ bs, Formed b) → AllFormed (populate w bs) := by
  induction bs with
  | nil => intro w h _; exact h
  | cons b bs ih =>
    intro w h hb
    exact ih (h.create (o := Obj.new b) fun _ => hb b (List.mem_cons_self ..))
      fun b' h' => hb b' (List.mem_cons_of_mem _ h')

theorem AllFormed.start (s : Repo) : AllFormed (start s) := fun _ _ =>
  ⟨List.nodup_nil, (fun e he => by cases he), (fun _ e he => by cases he)⟩

theorem AllFormed.same {w w' : World} (h : AllFormed w) (hs : ∀ j, SameObj (w.heap j) (w'.heap j)) :
    AllFormed w' := by
  intro j hm
  rw [(hs j).body]
  exact h j ((hs j).mapped ▸ hm)

theorem AllFormed.purge {w : World} (h : AllFormed w) (hs : Sane C r w) (n : Nat) (i : ObjId)
    (ho : ∀ j, Reach w.heap i j → OwnName w.heap j) : AllFormed (MM.purge n i w).2 := by
  intro j hm
  obtain ⟨h1, h2⟩ := (hs.purge n i w ho).1.unloads.mapped j hm
  rw [h2]; exact h j h1

/-- An object as its class builds it, checked. -/
def formedB (b : Body ObjId) : Bool :=
  decide (dkeys b.kids).Nodup && b.kids.all (fun e => Key.fits b.data.kind e.1) &&
    (b.data.kind.stamped || b.kids.all fun e => decide (e.2.1 = []))

theorem formed_of_check {b : Body ObjId} (h : formedB b = true) : Formed b := by
  simp only [formedB, Bool.and_eq_true, decide_eq_true_eq, List.all_eq_true, Bool.or_eq_true] at h
  refine ⟨h.1.1, h.1.2, fun hm e he => ?_⟩
  rcases h.2 with h2 | h2
  · rw [hm] at h2; cases h2
  · exact h2 e he

theorem sampleBodies_formed : ∀ b ∈ sampleBodies, Formed b := by
  have : ∀ b ∈ sampleBodies, formedB b = true := by decide +kernel
  exact fun b hb => formed_of_check (this b hb)

/-- A process with the example objects and a new file tree, object 9. -/
def treeWorld : World := populate (start ⟨[], []⟩) (sampleBodies ++ [⟨.mtree .metadata, []⟩])

theorem treeWorld_fine : Fine sampleCfg treeWorld := by
  refine Sane.fine (r := sampleRealm) (by decide) ?_ ?_
  · exact (session_populate _ (session_start _) (fun _ => rfl) (by decide)).1.sane (by decide)
  · refine AllFormed.populate _ (AllFormed.start _) fun b hb => ?_
    rcases List.mem_append.mp hb with hb | hb
    · exact sampleBodies_formed b hb
    · cases List.mem_singleton.mp hb
      exact formed_of_check (by decide)

/-- A process that has written the example objects and forgotten the dataset tree,
object 5, with everything in it. -/
def awayWorld : World := (purge 20 5 sampleWrite.2).2

theorem sampleWrite_ownName (j : ObjId) (hr : Reach sampleWrite.2.heap 5 j) : OwnName sampleWrite.2.heap j := by
  have hj : j < 6 := by
    refine reach_closed (S := fun p => p < 6) ?_ hr (by decide)
    have : ∀ p, p < 6 → ∀ k ∈ (sampleWrite.2.heap p).body.subs, k < 6 := by decide +kernel
    exact fun p hp _ k hk => this p hp k hk
  have : ∀ p, p < 6 → (sampleWrite.2.heap p).kind ≠ .tvl := by decide +kernel
  intro ref _
  unfold normRef
  rw [if_neg (this j hj)]

theorem awayWorld_session : Session sampleCfg sampleRealm awayWorld :=
  Session.purge _ _ _ sampleWrite_session sampleWrite_ownName

theorem AllFormed.write {w w' : World} (h : AllFormed w) (hr : r ≠ []) {via : Via} {n : Nat} {force : Bool}
    {i : ObjId} {x : Except PyErr Ref} (hw : writeAs C via n (some r) force i w = (x, w')) : AllFormed w' := by
  have := writeAs_any (C := C) (r := r) hr via n force i w
  rw [hw] at this
  exact h.same this.same

theorem sampleWorld_formed : AllFormed sampleWorld :=
  AllFormed.populate _ (AllFormed.start _) sampleBodies_formed

theorem sampleWrite_formed : AllFormed sampleWrite.2 :=
  AllFormed.write sampleWorld_formed (by decide) sampleWrite_ok

theorem awayWorld_fine : Fine sampleCfg awayWorld :=
  Sane.fine (r := sampleRealm) (by decide) (awayWorld_session.sane (by decide))
    (AllFormed.purge sampleWrite_formed (sampleWrite_session.sane (by decide)) _ _ sampleWrite_ownName)

end MM
