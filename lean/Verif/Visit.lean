/-
Loading objects for a while and purging them afterwards: what `with ensure_mapped(...)`
does to the objects of a process.
-/
import Verif.TreeOps

namespace MM

variable {C : Cfg}

/-- Objects were loaded, and some of them were purged again.  What was loaded is as it is
stored, and holds objects that were created for this purpose. -/
structure Tour (C : Cfg) (w w' : World) : Prop where
  loads : Peeks C w w'
  fresh : ∀ j, j < w'.next → (w'.heap j).mapped = true → (w.next ≤ j ∨ (w.heap j).mapped = false) →
    Pristine C w' j ∧ ∀ k ∈ (w'.heap j).body.subs, w.next ≤ k

theorem Tour.refl {w : World} (hs : Fine C w) : Tour C w w := by
  refine ⟨Peeks.refl hs, ?_⟩
  intro j hj hm h
  rcases h with h | h
  · exact absurd hj (Nat.not_lt.mpr h)
  · rw [hm] at h; cases h

theorem Pristine.kept {w w' : World} {j : ObjId} (h : Pristine C w j)
    (h1 : (w'.heap j).realm = (w.heap j).realm) (h2 : (w'.heap j).ref = (w.heap j).ref)
    (h3 : (w'.heap j).savedOn = (w.heap j).savedOn) (h4 : (w'.heap j).kind = (w.heap j).kind)
    (h5 : w'.repo.log = w.repo.log)
    (hc : SameContent C w.repo.log w.heap (.mem j) w'.repo.log w'.heap (.mem j)) : Pristine C w' j := by
  obtain ⟨r, ref, g1, g2, g3, g4, g5⟩ := h
  refine ⟨r, ref, g1, h1.trans g2, h2.trans g3, by rw [h3]; exact g4, ?_⟩
  rw [h4]
  refine hc.symm.trans (g5.trans ?_)
  rw [h5]
  exact look_sto_heap _ _

theorem Tour.trans {a b c : World} (h : Tour C a b) (h' : Tour C b c) : Tour C a c := by
  refine ⟨h.loads.trans h'.loads, ?_⟩
  intro j hj hm hn
  by_cases hold : j < b.next ∧ (b.heap j).mapped = true
  · obtain ⟨g1, g2⟩ := h.fresh j hold.1 hold.2 hn
    have e := h'.loads.loaded j hold.1 hold.2
    refine ⟨g1.kept (by rw [e]) (by rw [e]) (by rw [e]) (by rw [e]) h'.loads.log
      (h'.loads.content j hold.1), ?_⟩
    rw [e]; exact g2
  · have : b.next ≤ j ∨ (b.heap j).mapped = false := by
      by_cases hlt : j < b.next
      · right
        cases hb : (b.heap j).mapped with
        | false => rfl
        | true => exact absurd ⟨hlt, hb⟩ hold
      · exact Or.inl (Nat.not_lt.mp hlt)
    obtain ⟨g1, g2⟩ := h'.fresh j hj hm this
    exact ⟨g1, fun k hk => Nat.le_trans h.loads.next (g2 k hk)⟩

theorem Opened.visits {x : ObjId} {w w' : World} (h : Opened C x w w') (hf : Fine C w)
    (hx : x < w.next) : Tour C w w' := by
  refine ⟨(h.loads hf hx).toPeeks, ?_⟩
  intro j hj hm hn
  by_cases hjx : j = x
  · subst hjx; exact ⟨h.stored, fun k hk => (h.new k hk).1⟩
  · exfalso
    rcases hn with hn | hn
    · rw [h.fresh j hn hj] at hm; cases hm
    · by_cases hlt : j < w.next
      · rw [h.old j hjx hlt, hn] at hm; cases hm
      · rw [h.fresh j (Nat.not_lt.mp hlt) hj] at hm; cases hm

/-- Loading an object, with any outcome -/
theorem Fine.visitsStep {w : World} (hs : Fine C w) {i : ObjId} (hi : i < w.next) :
    Tour C w (ensureMapped C i w).2 := by
  rcases hs.ensure hi with ⟨_, h⟩ | ⟨e, w', h, h1, h2, h3, h4⟩ | ⟨w', h, ho⟩
  · rw [h]; exact Tour.refl hs
  · rw [h]
    refine ⟨Peeks.of_same hs h1 h2 h3 h4, ?_⟩
    intro j hj hm hn
    rw [h2] at hj
    rw [h1] at hm
    rcases hn with hn | hn
    · exact absurd hj (Nat.not_lt.mpr hn)
    · rw [hm] at hn; cases hn
  · rw [h]; exact ho.visits hs hi

theorem Unloads.leads {w w' : World} (h : Unloads w w') {a : ObjId} {ks : List Key} {j : ObjId}
    (hl : Leads w'.heap a ks j) : Leads w.heap a ks j := by
  induction hl with
  | nil i => exact Leads.nil i
  | cons t c hm hd _ ih =>
    obtain ⟨g1, g2⟩ := h.mapped _ hm
    exact Leads.cons t c g1 (by rw [← g2]; exact hd) ih

theorem unload_unloads (i : ObjId) (w : World) : Unloads w (unload i w) := by
  have hi' : (MM.unload i w).heap i = { w.heap i with mapped := false, body := (w.heap i).body.purged } := by
    unfold MM.unload; simp
  have hold : ∀ j, j ≠ i → (MM.unload i w).heap j = w.heap j := fun j hj => by
    unfold MM.unload; simp [Heap.set_ne hj]
  have hkind : ((MM.unload i w).heap i).kind = (w.heap i).kind := by
    rw [hi']; unfold Obj.kind Body.purged; exact Data.kind_purged _
  refine ⟨rfl, rfl, ?_, ?_, ?_, ?_, ?_⟩ <;> intro j <;> by_cases hj : j = i
  · subst hj; rw [hi']
  · rw [hold j hj]
  · subst hj; rw [hi']
  · rw [hold j hj]
  · subst hj; rw [hi']
  · rw [hold j hj]
  · subst hj; exact hkind
  · rw [hold j hj]
  · subst hj; intro h; rw [hi'] at h; cases h
  · rw [hold j hj]; exact fun h => ⟨h, rfl⟩

/-- What purging objects that were loaded in between does. -/
structure Leaves (C : Cfg) (w c d : World) : Prop where
  visits : Tour C w d
  unloads : Unloads c d
  caches : d.caches = c.caches
  look : ∀ j, SameContent C c.repo.log c.heap (.mem j) c.repo.log d.heap (.mem j)

theorem Leaves.refl {w c : World} (h : Tour C w c) : Leaves C w c c :=
  ⟨h, Unloads.refl c, rfl, fun _ => SameContent.refl _ _ _ _⟩

theorem Leaves.trans {w a b c : World} (h : Leaves C w a b) (h' : Leaves C w b c) : Leaves C w a c := by
  refine ⟨h'.visits, h.unloads.trans h'.unloads, h'.caches.trans h.caches, fun j => (h.look j).trans ?_⟩
  have := h'.look j
  rw [h.unloads.repo] at this
  exact this

/-- Forgetting the content of an object that was loaded in between -/
theorem Tour.unload {w c : World} (hv : Tour C w c) {i : ObjId} (hi : i < c.next)
    (ht : w.next ≤ i ∨ (w.heap i).mapped = false) : Leaves C w c (unload i c) := by
  have hun := unload_unloads i c
  have hi' : (MM.unload i c).heap i = { c.heap i with mapped := false, body := (c.heap i).body.purged } := by
    unfold MM.unload; simp
  have hold : ∀ j, j ≠ i → (MM.unload i c).heap j = c.heap j := fun j hj => by
    unfold MM.unload; simp [Heap.set_ne hj]
  have hpr : Pristine C c i := by
    cases hm : (c.heap i).mapped with
    | true => exact (hv.fresh i hi hm ht).1
    | false =>
      obtain ⟨r, ref, g1, g2, g3, g4⟩ := hv.loads.fine.away i hm
      exact ⟨r, ref, g1, g2, g3, g4, look_unloaded hm g2 g3⟩
  obtain ⟨r, ref, g1, g2, g3, g4, g5⟩ := hpr
  have hcont : SameContent C c.repo.log c.heap (.mem i) c.repo.log (MM.unload i c).heap (.mem i) := by
    have h2 : SameContent C c.repo.log (MM.unload i c).heap (.mem i) c.repo.log c.heap
        (.sto r ⟨((MM.unload i c).heap i).kind, ref⟩) :=
      look_unloaded (by rw [hi']) (by rw [hi']; exact g2) (by rw [hi']; exact g3)
    rw [hun.kind] at h2
    exact g5.trans h2.symm
  have hlook : ∀ j, SameContent C c.repo.log c.heap (.mem j) c.repo.log (MM.unload i c).heap (.mem j) :=
    fun j => look_frame (A := fun _ => False) (fun k _ hk => hold k hk) (fun _ _ _ _ h => h) hcont j (fun h => h)
  have hl := hv.loads
  have hrepo : (MM.unload i c).repo = c.repo := rfl
  have hfine : Fine C (MM.unload i c) := by
    have hf := hl.fine
    refine ⟨?_, ?_, ?_, ?_, ?_⟩
    · intro p hp k hk
      obtain ⟨e1, e2⟩ := hun.mapped p hp
      rw [e2] at hk
      exact hf.kids p e1 k hk
    · obtain ⟨rank, hrk⟩ := hf.ranked
      refine ⟨rank, fun p hp k hk => ?_⟩
      obtain ⟨e1, e2⟩ := hun.mapped p hp
      rw [e2] at hk
      exact hrk p e1 k hk
    · intro j hj
      by_cases hji : j = i
      · subst hji
        rw [hi']
        exact ⟨r, ref, g1, g2, g3, g4⟩
      · rw [hold j hji] at hj ⊢
        exact hf.away j hj
    · intro j _
      exact Full.of_same (hlook j) (hf.all j)
    · intro j hj
      obtain ⟨e1, e2⟩ := hun.mapped j hj
      rw [e2]; exact hf.formed j e1
  refine ⟨⟨⟨hl.log, hl.caches, hl.next, ?_, ?_, ?_, ?_, hfine, ?_, ?_, ?_, ?_, ?_, ?_⟩, ?_⟩, hun, rfl, hlook⟩
  · intro j hj hmj
    have hji : j ≠ i := by
      rintro rfl
      rcases ht with h | h
      · exact absurd hj (Nat.not_lt.mpr h)
      · rw [hmj] at h; cases h
    rw [hold j hji]; exact hl.loaded j hj hmj
  · intro j hj; rw [hun.kind]; exact hl.kind j hj
  · intro j hj hk; rw [hun.saved]; exact hl.saved j hj hk
  · intro j hj; exact (hl.content j hj).trans (hlook j)
  · intro x ks j hx hj h; exact hl.back x ks j hx hj (hun.leads h)
  · intro x hx hone q ks j h1 hk h2
    exact hl.onePath x hx hone q ks j (hun.leads h1) (by rw [← hun.kind]; exact hk) (hun.leads h2)
  · intro x y hx hy hap q j h1 hk h2
    exact hl.apart x y hx hy hap q j (hun.leads h1) (by rw [← hun.kind]; exact hk) (hun.reach h2)
  · intro p hp hm hn k hk
    obtain ⟨e1, e2⟩ := hun.mapped p hm
    rw [e2] at hk
    exact hl.newKids p hp e1 hn k hk
  · intro p p' k k' t t' j hj hp hp' hm hm' hd hd'
    obtain ⟨e1, e2⟩ := hun.mapped p hm
    obtain ⟨e1', e2'⟩ := hun.mapped p' hm'
    rw [e2] at hd
    rw [e2'] at hd'
    exact hl.single p p' k k' t t' j hj hp hp' e1 e1' hd hd'
  · intro ht q hq e he
    obtain ⟨e1, e2⟩ := hun.mapped q hq
    rw [e2] at he
    rw [hun.kind, hun.kind]
    exact hl.typed ht q e1 e he
  · intro j hj hmj hn
    obtain ⟨e1, e2⟩ := hun.mapped j hmj
    obtain ⟨p1, p2⟩ := hv.fresh j hj e1 hn
    exact ⟨p1.kept (hun.realm j) (hun.ref j) (hun.saved j) (hun.kind j) rfl (hlook j), by rw [e2]; exact p2⟩

/-- Purging an object that was loaded in between, with any outcome -/
theorem Tour.purge (n : Nat) : ∀ {w : World} (i : ObjId) (c : World), Tour C w c → i < c.next →
    (w.next ≤ i ∨ (w.heap i).mapped = false) →
    Leaves C w c (MM.purge n i c).2 ∧
      ((MM.purge n i c).1 = .ok () → ((MM.purge n i c).2.heap i).mapped = false) := by
  induction n with
  | zero => intro w i c hv _ _; exact ⟨Leaves.refl hv, by simp [MM.purge]⟩
  | succ n ih =>
    intro w i c hv hi ht
    unfold MM.purge
    rw [M.bind_of_ok (getObj_run i c)]
    by_cases hm : (c.heap i).mapped = true
    · rw [if_pos hm]
      by_cases hsv : (c.heap i).savedOn = []
      · rw [if_pos hsv]; exact ⟨Leaves.refl hv, by simp⟩
      · rw [if_neg hsv]
        split
        · exact ⟨Leaves.refl hv, by simp⟩
        · have hlist : ∀ (l : List ObjId) (w1 : World), Tour C w w1 →
              (∀ k ∈ l, w.next ≤ k ∧ k < w1.next) →
              Leaves C w w1 (M.forEach (MM.purge n) l w1).2 := by
            intro l
            induction l with
            | nil => intro w1 hv1 _; exact Leaves.refl hv1
            | cons a l ihl =>
              intro w1 hv1 hl1
              rw [M.forEach_cons]
              obtain ⟨h1, _⟩ := ih a w1 hv1 (hl1 a (List.mem_cons_self ..)).2
                (Or.inl (hl1 a (List.mem_cons_self ..)).1)
              cases hp : MM.purge n a w1 with
              | mk res w2 =>
                rw [hp] at h1
                cases res with
                | error e => rw [M.bind_of_error hp]; exact h1
                | ok u =>
                  rw [M.bind_of_ok hp]
                  have h3 := ihl w2 h1.visits (fun k hk => by
                    rw [h1.unloads.next]; exact hl1 k (List.mem_cons_of_mem _ hk))
                  cases hq : M.forEach (MM.purge n) l w2 with
                  | mk res3 w3 =>
                    rw [hq] at h3
                    cases res3 with
                    | error e => rw [M.bind_of_error hq]; exact h1.trans h3
                    | ok us => rw [M.bind_of_ok hq]; exact h1.trans h3
          have hsub := (hv.fresh i hi hm ht).2
          have h1 := hlist (c.heap i).body.subs c hv
            (fun k hk => ⟨hsub k hk, hv.loads.fine.kids i hm k hk⟩)
          cases hp : M.forEach (MM.purge n) (c.heap i).body.subs c with
          | mk res w2 =>
            rw [hp] at h1
            cases res with
            | error e => rw [M.bind_of_error hp]; exact ⟨h1, by simp⟩
            | ok us =>
              rw [M.bind_of_ok hp, updObj_run]
              refine ⟨?_, fun _ => by simp⟩
              exact h1.trans (h1.visits.unload (by rw [h1.unloads.next]; exact hi) ht)
    · rw [if_neg hm]
      exact ⟨Leaves.refl hv, fun _ => by simpa using hm⟩

end MM
