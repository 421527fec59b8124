/-
C17, C18, C19, C22, C23, C57 and C62 for processes that work with several repositories.
-/
import Verif.Repos
import Verif.Props.Saved
import Verif.Props.Success
import Verif.Props.Copy
import Verif.Props.Maps

namespace MM

variable {C : Cfg} {r : Realm} {own : ObjId → Realm}

theorem Side.noBlanks {A : ObjId → Prop} {w v : World} (hs : Side A w v) {i : ObjId} (hi : A i) (h : NoBlanks r w.heap i) :
    NoBlanks r v.heap i := by
  intro j hj
  obtain ⟨h1, h2⟩ := hs.reach' hi hj
  rw [hs.heap j h1]
  exact h j h2

theorem Side.noHole {A : ObjId → Prop} {w v : World} (hs : Side A w v) {i : ObjId} (hi : A i) (h : NoHole C w i) :
    NoHole C v i := by
  have e := hs.content (C := C) hi
  refine ⟨fun ks k t d b t' d' b' h1 h2 h3 => ?_, fun ks t b h1 => ?_⟩
  · rw [← e] at h1 h3
    exact h.inner ks k t d b t' d' b' h1 h2 h3
  · rw [← e] at h1
    obtain ⟨k, hk⟩ := h.sets ks t b h1
    exact ⟨k, by rw [← e]; exact hk⟩

/-! ### C17 -/

/-- C17 for processes that work with any number of repositories: after an object was written to its
repository, this holds, under the returned reference and completely, the content that the object had.
The hypotheses are those of `C17_read_back_partial`. -/
theorem C17_repos_partial {w w' : World} (hs : Repos C own w) {via : Via} {n : Nat} {force : Bool} {i : ObjId}
    (hr : own i ≠ []) {ref : Ref} (h : writeAs C via n (some (own i)) force i w = (.ok ref, w'))
    (hc : CollisionFree C w'.repo.log) (hsto : Storable w.heap i)
    (hal : Alone (own i) w.heap i) (ht : Trusted C (own i) w i) (ho : Owned (own i) w.heap i) (h0 : Heap) :
    SameContent C w.repo.log w.heap (.mem i) w'.repo.log h0
        (.sto (own i) ⟨(w.heap i).kind, normRef (w.heap i).kind ref⟩) ∧
      Full C w'.repo.log h0 (.sto (own i) ⟨(w.heap i).kind, normRef (w.heap i).kind ref⟩) := by
  have hO := hs.owners
  have hsd := hO.side hr
  have hA : OfRepo own w.next (own i) i := Or.inl rfl
  obtain ⟨t1, t2, _, _⟩ := twin_writeAs (C := C) (via := via) (n := n) (dest := some (own i)) (force := force) hA _ _ hsd
  rw [h] at t1 t2
  have h' : writeAs C via n (some (own i)) force i (w.share own (own i)) =
      (.ok ref, (writeAs C via n (some (own i)) force i (w.share own (own i))).2) := Prod.ext t1 rfl
  have := C17_read_back_partial hr (hO.history _ hr) h' (by rw [t2.repo]; exact hc) (hsd.storable hA hsto)
    (hal.share rfl) (hsd.trusted hA ht) (hsd.owned hA ho) h0
  rw [share_own rfl, t2.repo] at this
  exact ⟨(hsd.content hA).trans this.1, this.2⟩

/-! ### C18 and C19 -/

theorem Owners.carry {own' : ObjId → Realm} {w w' : World} (h : Owners C own w) (h' : Owners C own' w') {j : ObjId}
    {s : Realm} (hs : s ≠ []) (e : own j = s) (e' : own' j = s)
    (hx : SameContent C (w.share own s).repo.log (w.share own s).heap (.mem j)
      (w'.share own' s).repo.log (w'.share own' s).heap (.mem j)) :
    SameContent C w.repo.log w.heap (.mem j) w'.repo.log w'.heap (.mem j) :=
  (((h.side hs).content (Or.inl e)).trans hx).trans ((h'.side hs).content (Or.inl e')).symm

/-- A step for one repository keeps all content, if it does so in this repository. -/
theorem Stepped.keeps {α : Type} {f : W α} {w : World} (st : Stepped C own r f w) (h : Owners C own w)
    (hx : ∀ j, j < w.next → SameContent C (w.share own r).repo.log (w.share own r).heap (.mem j)
      (f (w.share own r)).2.repo.log (f (w.share own r)).2.heap (.mem j)) {j : ObjId} (hj : j < w.next) (ho : own j ≠ []) :
    SameContent C w.repo.log w.heap (.mem j) (f w).2.repo.log (f w).2.heap (.mem j) := by
  have e : grown own w.next r j = own j := if_pos hj
  refine h.carry st.owners ho rfl e ?_
  by_cases hjr : own j = r
  · rw [hjr, ← st.state]; exact hx j hj
  · exact ((h.history _ ho).intact ho).around_look (st.others _ ho hjr) j

/-- C18: reading an object of any repository, whether it works or fails, changes no content of any object
of any repository. -/
theorem C18_repos_read {w : World} (hs : Repos C own w) {i : ObjId} (hi : i < w.next) (ho : own i ≠ []) {j : ObjId}
    (hj : j < w.next) (hoj : own j ≠ []) :
    SameContent C w.repo.log w.heap (.mem j) (ensureMapped C i w).2.repo.log (ensureMapped C i w).2.heap (.mem j) :=
  (hs.owners.read ho rfl hi).keeps hs.owners
    (fun _ hk => C18_read ho (hs.owners.history _ ho) (w := w.share own (own i)) hi hk) hj hoj

/-- C18 and C19: purging an object of any repository, whether it works or fails, changes no content of any
object of any repository, and all of it can be read.  `Purgeable`: as in C18. -/
theorem C19_repos_partial {w : World} (hs : Repos C own w) (n : Nat) {i : ObjId} (ho : own i ≠ [])
    (hp : Purgeable C (own i) w i) {j : ObjId} (hj : j < w.next) (hoj : own j ≠ []) :
    SameContent C w.repo.log w.heap (.mem j) (purge n i w).2.repo.log (purge n i w).2.heap (.mem j) ∧
      Full C (purge n i w).2.repo.log (purge n i w).2.heap (.mem j) := by
  have h1 := (hs.owners.purge n ho rfl hp).keeps hs.owners
    (fun k _ => C18_purge_partial ho (hs.owners.history _ ho) (w := w.share own (own i)) n i
      ((hs.owners.side ho).purgeable (Or.inl rfl) hp) k) hj hoj
  have h2 : Full C w.repo.log w.heap (.mem j) :=
    Full.of_same ((hs.owners.side hoj).content (Or.inl rfl)).symm (((hs.owners.history _ hoj).intact hoj).full j)
  exact ⟨h1, Full.of_same h1 h2⟩

/-- C18: everything that belongs to a repository can be loaded, if git works. -/
theorem C18_repos_loads {w : World} (hs : Repos C own w) (hf : w.repo.faults = []) {i : ObjId} (ho : own i ≠ [])
    (hi : i < w.next) (hm : (w.heap i).mapped = false) :
    (ensureMapped C i w).1 = .ok true ∧ ((ensureMapped C i w).2.heap i).mapped = true := by
  have hO := hs.owners
  have st := hO.read ho rfl hi
  obtain ⟨h1, h2⟩ := C18_loads ho (hO.history _ ho) (w := w.share own (own i)) hf (i := i) (by rw [share_own rfl]; exact hm)
  rw [st.result] at h1
  rw [st.state, share_own (show grown own w.next (own i) i = own i from if_pos hi)] at h2
  exact ⟨h1, h2⟩

/-- Any sequence of loading and purging objects of any repositories, each with any outcome -/
inductive Roams (C : Cfg) : (ObjId → Realm) → World → (ObjId → Realm) → World → Prop
  | refl (own : ObjId → Realm) (w : World) : Roams C own w own w
  | read {own own1 : ObjId → Realm} {w w1 : World} (i : ObjId) : Roams C own w own1 w1 → i < w1.next → own1 i ≠ [] →
      Roams C own w (grown own1 w1.next (own1 i)) (ensureMapped C i w1).2
  | purge {own own1 : ObjId → Realm} {w w1 : World} (n : Nat) (i : ObjId) : Roams C own w own1 w1 → own1 i ≠ [] →
      Purgeable C (own1 i) w1 i → Roams C own w (grown own1 w1.next (own1 i)) (purge n i w1).2

/-- C18: any sequence of loading and purging objects of any repositories, in any order, with any failures,
keeps the content of all objects that existed before. -/
theorem C18_repos_partial {own' : ObjId → Realm} {w w' : World} (hs : Repos C own w) (hv : Roams C own w own' w') :
    Repos C own' w' ∧ w.next ≤ w'.next ∧ ∀ j, j < w.next → own' j = own j ∧ (own j ≠ [] →
      SameContent C w.repo.log w.heap (.mem j) w'.repo.log w'.heap (.mem j)) := by
  induction hv with
  | refl => exact ⟨hs, Nat.le_refl _, fun _ _ => ⟨rfl, fun _ => SameContent.refl _ _ _ _⟩⟩
  | @read own1 _ w1 i _ hi ho ih =>
    obtain ⟨h1, h2, h3⟩ := ih hs
    refine ⟨.read _ _ i h1 ho hi, Nat.le_trans h2 (ensureMapped_next ..), fun j hj => ⟨?_, fun hoj => ?_⟩⟩
    · exact (if_pos (Nat.lt_of_lt_of_le hj h2)).trans (h3 j hj).1
    · exact ((h3 j hj).2 hoj).trans (C18_repos_read h1 hi ho (Nat.lt_of_lt_of_le hj h2) (by rw [(h3 j hj).1]; exact hoj))
  | @purge own1 _ w1 n i _ ho hp ih =>
    obtain ⟨h1, h2, h3⟩ := ih hs
    refine ⟨.purge _ _ n i h1 ho hp, by rw [(purge_purged n i _).next]; exact h2, fun j hj => ⟨?_, fun hoj => ?_⟩⟩
    · exact (if_pos (Nat.lt_of_lt_of_le hj h2)).trans (h3 j hj).1
    · exact ((h3 j hj).2 hoj).trans
        (C19_repos_partial h1 n ho hp (Nat.lt_of_lt_of_le hj h2) (by rw [(h3 j hj).1]; exact hoj)).1

/-! ### C22 and C23 -/

/-- C23: writing an object to its repository, with any outcome, changes no content of any object of any
repository. -/
theorem C23_repos {w w' : World} (hs : Repos C own w) {via : Via} {n : Nat} {force : Bool} {i : ObjId} (hi : i < w.next)
    (ho : own i ≠ []) {res : Except PyErr Ref} (h : writeAs C via n (some (own i)) force i w = (res, w'))
    (hca : w'.caches = []) (hc : CollisionFree C w'.repo.log) (hsto : Storable w.heap i)
    (hal : Alone (own i) w.heap i) {j : ObjId} (hj : j < w.next) (hoj : own j ≠ []) :
    SameContent C w.repo.log w.heap (.mem j) w'.repo.log w'.heap (.mem j) := by
  have hO := hs.owners
  have st := hO.write (via := via) (n := n) (force := force) ho rfl hi (by rw [h]; exact hca) (by rw [h]; exact hc) hsto hal
  have := st.keeps hO (fun k _ => by
    have hst := (hO.side ho).storable (Or.inl rfl) hsto
    have t := writeAs_tried (C := C) ho via n force i (w.share own (own i)) hst
    refine ((hO.history _ ho).intact ho).write_look t ?_ ?_ (hal.share rfl) k
    · rw [st.state, h]; exact hca
    · rw [st.state, h]; exact hc) hj hoj
  rw [h] at this
  exact this

/-- Two processes are equal if they are equal in what is in `A` and elsewhere. -/
theorem World.ext' {v w : World} (h1 : ∀ j, v.heap j = w.heap j) (h2 : v.next = w.next) (h3 : v.repo = w.repo)
    (h4 : v.caches = w.caches) (h5 : v.refs = w.refs) : v = w := by
  cases v; cases w
  simp only at h1 h2 h3 h4 h5
  subst h2 h3 h4 h5
  rw [funext h1]

/-- C22: in a process with any number of repositories, writing an object again returns the same reference
and changes nothing. -/
theorem C22_repos_partial {w w' : World} (hs : Repos C own w) {n m : Nat} {force : Bool} {i : ObjId} (hr : own i ≠ [])
    {ref : Ref} (h : writeOut C n (some (own i)) force i w = (.ok ref, w')) (hc : CollisionFree C w'.repo.log)
    (hm : (w.heap i).mapped = true) (hsto : Storable w.heap i) (hal : Alone (own i) w.heap i)
    (ht : Trusted C (own i) w i) (ho : Owned (own i) w.heap i) (hnm : n ≤ m) :
    writeOut C m (some (own i)) false i w' = (.ok ref, w') := by
  have hO := hs.owners
  have hsd := hO.side hr
  have hA : OfRepo own w.next (own i) i := Or.inl rfl
  obtain ⟨t1, t2, _, _⟩ := twin_writeOut (C := C) (dest := some (own i)) (force := force) n hA _ _ hsd
  rw [h] at t1 t2
  have h' : writeOut C n (some (own i)) force i (w.share own (own i)) =
      (.ok ref, (writeOut C n (some (own i)) force i (w.share own (own i))).2) := Prod.ext t1 rfl
  have h22 := C22_write_twice_partial hr (hO.history _ hr) h' (by rw [t2.repo]; exact hc)
    (by rw [share_own rfl]; exact hm) (hsd.storable hA hsto) (hal.share rfl) (hsd.trusted hA ht) (hsd.owned hA ho) hnm
  generalize (writeOut C n (some (own i)) force i (w.share own (own i))).2 = v at t2 h22
  obtain ⟨u1, u2, u3, _⟩ := twin_writeOut (C := C) (dest := some (own i)) (force := false) m hA _ _ t2
  rw [h22] at u1 u2 u3
  refine Prod.ext u1.symm (World.ext' (fun j => ?_) (by rw [← u2.next, t2.next]) (by rw [← u2.repo, t2.repo])
    (by rw [← u2.caches, t2.caches]) (by rw [← u2.refs, t2.refs]))
  by_cases hj : OfRepo own w.next (own i) j
  · rw [← u2.heap j hj, t2.heap j hj]
  · exact (u3 j hj).1

/-! ### C57 -/

/-- C57: in a process with any number of repositories, while git works, an object is written to its
repository for every recursion limit that is large enough, and the repository then holds its content.  The
hypotheses are those of `C57_history_partial`. -/
theorem C57_repos_partial {w : World} (hs : Repos C own w) {via : Via} {force : Bool} {i : ObjId} (hr : own i ≠ [])
    (hrem : Ref.isRemote (own i) = false) (hvia : via = .file → (w.heap i).kind = .mtree .metadata)
    (hsto : Storable w.heap i) (hal : Alone (own i) w.heap i) (ht : Trusted C (own i) w i) (ho : Owned (own i) w.heap i)
    (hb : NoBlanks (own i) w.heap i) (hh : NoHole C w i) (hf : w.repo.faults = []) :
    ∃ N, ∀ n, N ≤ n → CollisionFree C (writeAs C via n (some (own i)) force i w).2.eff →
      ∃ ref w', writeAs C via n (some (own i)) force i w = (.ok ref, w') ∧
        ∀ h0, SameContent C w.repo.log w.heap (.mem i) w'.repo.log h0
          (.sto (own i) ⟨(w.heap i).kind, normRef (w.heap i).kind ref⟩) := by
  have hO := hs.owners
  have hsd := hO.side hr
  have hA : OfRepo own w.next (own i) i := Or.inl rfl
  obtain ⟨N, h⟩ := C57_history_partial (via := via) (force := force) hr hrem (hO.history _ hr) (i := i)
    (by rw [share_own rfl]; exact hvia) (hsd.storable hA hsto) (hal.share rfl) (hsd.trusted hA ht) (hsd.owned hA ho)
    (hsd.noBlanks hA hb) (hsd.noHole hA hh) hf
  refine ⟨N, fun n hn hc => ?_⟩
  obtain ⟨t1, t2, _, _⟩ := twin_writeAs (C := C) (via := via) (n := n) (dest := some (own i)) (force := force) hA _ _ hsd
  have heff : (writeAs C via n (some (own i)) force i (w.share own (own i))).2.eff =
      (writeAs C via n (some (own i)) force i w).2.eff := by unfold World.eff; rw [t2.repo, t2.caches]
  obtain ⟨ref, v, e, h'⟩ := h n hn (by rw [heff]; exact hc)
  rw [e] at t1 t2
  refine ⟨ref, (writeAs C via n (some (own i)) force i w).2, Prod.ext t1.symm rfl, fun h0 => ?_⟩
  have := h' h0
  rw [share_own rfl, t2.repo] at this
  exact (hsd.content hA).trans this

/-! ### C62 -/

/-- Adding an element of the same repository to a list is reading the list and changing it. -/
theorem Repos.set {w w' : World} (hs : Repos C own w) (hf : Fine C w) {i x : ObjId} (ho : own i ≠ []) (hi : i < w.next)
    (hx : x < w.next) (hox : own x = own i) (hxi : ¬ Reach w.heap x i) {v t : Str} {p : PPath}
    (h : setVersioned C i v t p x w = (.ok (), w')) : ∃ own', Repos C own' w' ∧ ∀ j, j < w.next → own' j = own j := by
  unfold setVersioned at h
  obtain ⟨b, w1, h1, h2⟩ := M.bind_ok h
  obtain ⟨hl, hm⟩ := hf.loaded hi h1
  rw [M.bind_of_ok (getObj_run i w1), change_run] at h2
  cases h2
  have hr1 := Repos.read own w i hs ho hi
  rw [h1] at hr1
  have e : ∀ j, j < w.next → grown own w.next (own i) j = own j := fun j hj => if_pos hj
  have hsub : ∀ k ∈ (Body.mk (w1.heap i).body.data (vset (w1.heap i).body.kids v p (t, x))).subs,
      k = x ∨ k ∈ (w1.heap i).body.subs := by
    intro k hk
    obtain ⟨y, hy, rfl⟩ := List.mem_map.mp hk
    rcases mem_vset hy with rfl | hy
    · exact Or.inl rfl
    · exact Or.inr (List.mem_map.mpr ⟨y, hy, rfl⟩)
  refine ⟨_, Repos.edit _ w1 i _ hr1 (by rw [e i hi]; exact ho) (Nat.lt_of_lt_of_le hi hl.next) hm ?_ ?_, ?_⟩
  · intro k hk
    rcases hsub k hk with rfl | hk
    · exact ⟨Nat.lt_of_lt_of_le hx hl.next, by rw [e _ hx, e i hi]; exact hox⟩
    · have := hr1.owners.subs i (by rw [e i hi]; exact ho) hm k hk
      exact ⟨this.2, this.1⟩
  · intro k hk hre
    have hre1 := reach_of_edit hre
    rcases hsub k hk with e' | hk
    · rw [e'] at hre1; exact hl.unreach hx hi hxi hre1
    · exact hl.fine.irrefl hm hk hre1
  · intro j hj
    unfold grown
    rw [if_pos (Nat.lt_of_lt_of_le hj hl.next), if_pos hj]

theorem Pass.reach_before {nm : Option Str} {w w' : World} (hp : Pass C r nm w.next w w') (hf : Fine C w) {a b : ObjId}
    (h : Reach w'.heap a b) : a < w.next → Reach w.heap a b := by
  induction h with
  | refl a => intro _; exact Reach.refl a
  | step a k b hm hk _ ih =>
    intro ha
    have hm0 := hp.mapped ha hm
    rw [hp.loaded a ha hm0] at hk
    exact Reach.step a k b hm0 hk (ih (hf.kids a hm0 k hk))

/-- C62: metadata is taken over from one repository into a list of another one.  An object is copied to the
repository of a list, the copy is added to the list for a version and a path, and the list is written.  Then
the repository of the list holds, under the returned reference, the content of the original object for this
version and path, with the given time stamp, and everything else that the list held.  No other object
changes, except those that the list is a part of.  This holds in processes that work with any number of
repositories, for all object graphs in all load states, and for all patterns of failures of git commands.

`hc`, `hp`: as in C24.  The conditions on the list before it is written are those of C17. -/
theorem C62_partial {w w1 w2 w3 : World} (hs : Repos C own w) {i l c : ObjId} (hl : l < w.next) (ho : own l ≠ [])
    (hk : IsList w l) (hc : Copyable C (own l) w i) (hp : (w.heap i).kind ≠ .tvl) {m : Nat}
    (h1 : deepcopy C m (some (own l)) (metadataPath [[]]) i w = (.ok c, w1)) {v t : Str} {p : PPath}
    (h2 : setVersioned C l v t p c w1 = (.ok (), w2)) {via : Via} {n : Nat} {force : Bool} {ref : Ref}
    (h3 : writeAs C via n (some (own l)) force l w2 = (.ok ref, w3)) (hcf : CollisionFree C w3.repo.log)
    (hsto : Storable w2.heap l) (hal : Alone (own l) w2.heap l) (ht : Trusted C (own l) w2 l) (how : Owned (own l) w2.heap l)
    (h0 : Heap) :
    let node := Node.sto (own l) ⟨(w.heap l).kind, normRef (w.heap l).kind ref⟩
    (∀ ks, look C w3.repo.log h0 (.ver v p :: ks) [] node = look C w.repo.log w.heap ks t (.mem i)) ∧
    (∀ v' p' ks, (v', p') ≠ (v, p) →
      look C w3.repo.log h0 (.ver v' p' :: ks) [] node = look C w.repo.log w.heap (.ver v' p' :: ks) [] (.mem l)) ∧
    (∀ j, j < w.next → own j ≠ [] → ¬ Reach w.heap j l →
      SameContent C w.repo.log w.heap (.mem j) w3.repo.log w3.heap (.mem j)) := by
  intro node
  have any3 := writeAs_any (C := C) ho via n force l w2
  rw [h3] at any3
  simp only at any3
  have hg2 : Grows w2.repo.log w3.repo.log := by
    obtain ⟨ops, e, _⟩ := any3.log
    rw [e]; exact fun _ _ h => List.mem_append_right _ h
  have hg1 : Grows w1.repo.log w2.repo.log := by
    have := logged_setVersioned (C := C) (r := own l) l v t p c w1
    rw [h2] at this
    obtain ⟨ops, e, _⟩ := this
    rw [e]; exact fun _ _ h => List.mem_append_right _ h
  have hcf2 := hcf.mono hg2
  have hcf1 := hcf2.mono hg1
  have hm := deepcopy_ok ho m (C01_canonical [[]]) hc hp h1 hcf1
  obtain ⟨g1, _, _, g4⟩ := C24_copy_partial ho hc hp h1 hcf1
  have hs1 := Repos.copy own w (own l) m i c w1 hs ho hc hp h1 hcf1
  have e1 : ∀ j, j < w.next → copiedTo own w.next c (own l) j = own j := fun j hj => if_pos hj
  have ec : copiedTo own w.next c (own l) c = own l := by
    unfold copiedTo; rw [if_neg (Nat.not_lt.mpr hm.new), if_pos rfl]
  have hl1 : l < w1.next := Nat.lt_of_lt_of_le hl hm.pass.next
  have hxi : ¬ Reach w1.heap c l := by
    intro hre
    cases hre with
    | refl => exact Nat.not_lt.mpr hm.new hl
    | step _ _ _ hmm _ _ => rw [hm.stub.away] at hmm; cases hmm
  have hkind : ∀ j, j < w.next → (w1.heap j).kind = (w.heap j).kind := by
    intro j hj
    cases hmj : (w.heap j).mapped with
    | true => rw [hm.pass.loaded j hj hmj]
    | false => exact (hm.pass.away j hj hmj).kind
  have hk1 : IsList w1 l := by unfold IsList; rw [hkind l hl]; exact hk
  have hps := setVersioned_ok hm.pass.fine hl1 hk1 hm.lt hxi h2
  obtain ⟨own2, hs2, e2⟩ := hs1.set hm.pass.fine (by rw [e1 l hl]; exact ho) hl1 hm.lt (by rw [ec, e1 l hl]) hxi h2
  have hl2 : l < w2.next := Nat.lt_of_lt_of_le hl1 hps.next
  have el : own2 l = own l := by rw [e2 l hl1, e1 l hl]
  have h3' := h3
  rw [← el] at h3' ho hal ht how
  have h17 := (C17_repos_partial hs2 ho h3' hcf hsto hal ht how h0).1
  rw [hps.kind l hl1, hkind l hl, el] at h17
  refine ⟨fun ks => ?_, fun v' p' ks hne => ?_, fun j hj hoj hre => ?_⟩
  · exact (h17 (.ver v p :: ks) []).symm.trans ((hps.set (by simp) ks []).trans (g1 ks t).symm)
  · refine (h17 (.ver v' p' :: ks) []).symm.trans ((hps.kept _ ?_ ks []).trans ((g4 l hl).2.2 _ []).symm)
    intro e
    injection e with e1 e2
    exact hne (by rw [e1, e2])
  · have hj1 := Nat.lt_of_lt_of_le hj hm.pass.next
    have hre1 : ¬ Reach w1.heap j l := fun g => hre (hm.pass.reach_before hc.fine g hj)
    have a1 := (g4 j hj).2.2
    have a2 := (hps.others j hj1 hre1).1
    have hca : w3.caches = [] := caches_writeAs h3' hs2.owners.caches
    have a3 := C23_repos hs2 hl2 ho h3' hca hcf hsto hal (Nat.lt_of_lt_of_le hj1 hps.next) (j := j)
      (by rw [e2 j hj1, e1 j hj]; exact hoj)
    exact (a1.trans a2).trans a3

/-! ### An example with two repositories -/

/-- Objects that are created with their parts first all belong to one repository. -/
theorem repos_populate {r : Realm} (hr : r ≠ []) (bs : List (Body ObjId)) : ∀ {own : ObjId → Realm} {w : World},
    Repos C own w → (∀ j, j < w.next → own j = r) → partsFirst w.next bs = true →
    ∃ own', Repos C own' (populate w bs) ∧ ∀ j, j < (populate w bs).next → own' j = r := by
  induction bs with
  | nil => intro own w hs ho _; exact ⟨own, hs, ho⟩
  | cons b bs ih =>
    intro own w hs ho hp
    simp only [partsFirst, Bool.and_eq_true, List.all_eq_true, decide_eq_true_eq] at hp
    refine ih (own := grown own w.next r) (w := create (Obj.new b) w)
      (Repos.new own w r b hs hr fun k hk => ⟨hp.1 k hk, ho k (hp.1 k hk)⟩) (fun j _ => ?_) hp.2
    unfold grown
    by_cases h : j < w.next
    · rw [if_pos h]; exact ho j h
    · rw [if_neg h]

/-- The second repository -/
def otherRealm : Realm := c!"/copy"

/-- The objects of the examples, and an empty version list for the second repository -/
def twoRepos : World := create (Obj.new ⟨.vlist, []⟩) sampleWorld

/-- The root record of the examples is copied to the second repository. -/
def takenOver : Except PyErr ObjId × World := deepcopy sampleCfg 20 (some otherRealm) (metadataPath [[]]) 4 twoRepos

/-- The copy is added to the list. -/
def listed : Except PyErr Unit × World := setVersioned sampleCfg 9 c!"v7" c!"0.7" ⟨[], [c!"sub"]⟩ 14 takenOver.2

/-- The list is written. -/
def aggregated : Except PyErr Ref × World := writeAs sampleCfg .own 20 (some otherRealm) false 9 listed.2

theorem twoRepos_repos : ∃ own, Repos sampleCfg own twoRepos ∧ own 4 = sampleRealm ∧ own 9 = otherRealm ∧
    own 8 = sampleRealm := by
  obtain ⟨own, h1, h2⟩ := repos_populate (C := sampleCfg) (r := sampleRealm) (by decide) sampleBodies
    (Repos.start (start ⟨[], []⟩) rfl rfl fun _ => rfl) (fun j hj => absurd hj (Nat.not_lt_zero j)) (by decide)
  refine ⟨_, Repos.new own sampleWorld otherRealm ⟨.vlist, []⟩ h1 (by decide) (fun k hk => by cases hk), ?_, ?_, ?_⟩
  · exact (if_pos (by decide)).trans (h2 4 (by decide))
  · exact if_neg (by decide)
  · exact (if_pos (by decide)).trans (h2 8 (by decide))

theorem twoRepos_copyable : Copyable sampleCfg otherRealm twoRepos 4 := by
  have h := sample_copyable (i := 4) (by decide)
  have hn : ∀ j, (twoRepos.heap j).realm = none ∧ (twoRepos.heap j).savedOn = [] := by
    intro j
    by_cases hj : j = sampleWorld.next
    · subst hj; unfold twoRepos; rw [create_self]; exact ⟨rfl, rfl⟩
    · unfold twoRepos; rw [create_ne _ _ hj]; exact (sample_new j).2
  refine ⟨sample_fine.create rfl ⟨List.nodup_nil, (fun e he => by cases he), (fun _ e he => by cases he)⟩
    (fun k hk => by cases hk), rfl, ?_, h.keep.of_same (content_create sample_fine _ (by decide)), by decide, ?_⟩
  · intro p _ hk t c hd
    have hp : p < 9 := by
      by_cases hp : p < 9
      · exact hp
      · have : (twoRepos.heap p).kind ≠ .mrr := by
          by_cases hpn : p = sampleWorld.next
          · subst hpn; unfold twoRepos; rw [create_self]; intro g; cases g
          · unfold twoRepos; rw [create_ne _ _ hpn, sample_beyond (Nat.not_lt.mp hp)]; intro g; cases g
        exact absurd hk this
    have : ∀ p, p < 9 → (twoRepos.heap p).kind = .mrr → p = 4 := by decide +kernel
    cases this p hp hk
    have : dget (twoRepos.heap 4).body.kids .ft = some ([], 3) := by decide +kernel
    rw [this] at hd
    cases hd
    decide +kernel
  · intro nm _ x ref _ _
    rw [(hn x).1, (hn x).2]
    exact ⟨by simp, by simp⟩

theorem listed_reach {j : ObjId} (h : Reach listed.2.heap 9 j) : j = 9 ∨ j = 14 := by
  have : ∀ p, p = 9 ∨ p = 14 → (listed.2.heap p).mapped = true → ∀ k ∈ (listed.2.heap p).body.subs, k = 9 ∨ k = 14 := by
    have h1 : ∀ k ∈ (listed.2.heap 9).body.subs, k = 9 ∨ k = 14 := by decide +kernel
    have h2 : (listed.2.heap 14).mapped = false := by decide +kernel
    rintro p (rfl | rfl) hm k hk
    · exact h1 k hk
    · rw [h2] at hm; cases hm
  exact reach_closed (S := fun p => p = 9 ∨ p = 14) this h (Or.inl rfl)

theorem takenOver_ok : deepcopy sampleCfg 20 (some otherRealm) (metadataPath [[]]) 4 twoRepos = (.ok 14, takenOver.2) :=
  of_okVal (by decide +kernel)

theorem listed_ok : setVersioned sampleCfg 9 c!"v7" c!"0.7" ⟨[], [c!"sub"]⟩ 14 takenOver.2 = (.ok (), listed.2) :=
  of_isOk_unit (by decide +kernel)

theorem aggregated_ok : writeAs sampleCfg .own 20 (some otherRealm) false 9 listed.2 = (.ok (okRef aggregated), aggregated.2) :=
  of_isOk (by decide +kernel)

theorem aggregated_distinct : CollisionFree sampleCfg aggregated.2.repo.log := collisionFree_of_check (by decide +kernel)

theorem listed_storable : Storable listed.2.heap 9 := by
  have haway : (listed.2.heap 14).mapped = false := by decide +kernel
  intro j hj hm
  rcases listed_reach hj with rfl | rfl
  · have e : (listed.2.heap 9).body.kids = [(.ver c!"v7" ⟨[], [c!"sub"]⟩, c!"0.7", 14)] := by decide +kernel
    have e' : (listed.2.heap 14).kind = .mrr := by decide +kernel
    have ed : (listed.2.heap 9).body.data.kind = .vlist := by decide +kernel
    refine ⟨?_, by rw [e]; decide, fun x hx => ?_⟩
    · cases hd : (listed.2.heap 9).body.data <;> rw [hd] at ed <;> first | cases ed; done | trivial
    · rw [e] at hx
      rw [List.mem_singleton.mp hx, ed, e']
      exact ⟨C01_canonical [c!"sub"], Or.inr rfl⟩
  · rw [haway] at hm; cases hm

theorem listed_alone : Alone otherRealm listed.2.heap 9 := by
  intro nm hnm
  have : pubName (listed.2.heap 9).kind = none := by decide +kernel
  rw [this] at hnm; cases hnm

/-- The process after the copy was added to the list -/
theorem listed_repos : ∃ own, Repos sampleCfg own listed.2 ∧ own 4 = sampleRealm ∧ own 9 = otherRealm ∧ own 14 = otherRealm := by
  obtain ⟨own, h1, h2, h3, _⟩ := twoRepos_repos
  have ho : otherRealm ≠ [] := by decide
  have hp : (twoRepos.heap 4).kind ≠ .tvl := by decide +kernel
  have hcf1 : CollisionFree sampleCfg takenOver.2.repo.log := collisionFree_of_check (by decide +kernel)
  have hm := deepcopy_ok ho 20 (C01_canonical [[]]) twoRepos_copyable hp takenOver_ok hcf1
  have hxi : ¬ Reach takenOver.2.heap 14 9 := by
    intro g
    cases g with
    | step _ _ _ hmm _ _ => rw [hm.stub.away] at hmm; cases hmm
  have b1 : copiedTo own twoRepos.next 14 otherRealm 9 = otherRealm := (if_pos (by decide)).trans h3
  have b2 : copiedTo own twoRepos.next 14 otherRealm 14 = otherRealm := by
    unfold copiedTo; rw [if_neg (by decide), if_pos rfl]
  have b3 : copiedTo own twoRepos.next 14 otherRealm 4 = sampleRealm := (if_pos (by decide)).trans h2
  have hn : ∀ j, j < 10 → j < takenOver.2.next := fun j hj => Nat.lt_of_lt_of_le hj hm.pass.next
  obtain ⟨own2, hs2, he⟩ := (Repos.copy own twoRepos otherRealm 20 4 14 takenOver.2 h1 ho twoRepos_copyable hp takenOver_ok
    hcf1).set hm.pass.fine (i := 9) (by rw [b1]; exact ho) (hn 9 (by decide)) hm.lt (b2.trans b1.symm) hxi listed_ok
  exact ⟨own2, hs2, (he 4 (hn 4 (by decide))).trans b3, (he 9 (hn 9 (by decide))).trans b1, (he 14 hm.lt).trans b2⟩

theorem listed_trusted : Trusted sampleCfg otherRealm listed.2 9 := by
  intro j hj
  rcases listed_reach hj with rfl | rfl
  · intro hcl
    have := hcl.flag
    have hsav : (listed.2.heap 9).savedOn = [] := by decide +kernel
    rw [hsav] at this; cases this
  · obtain ⟨own, hs, _, _, h14⟩ := listed_repos
    have ho : otherRealm ≠ [] := by decide
    refine (hs.owners.side ho).truth' (Or.inl h14) (((hs.owners.history _ ho).intact ho).truth 14 ?_)
    rw [share_own h14]; decide +kernel

theorem listed_owned : Owned otherRealm listed.2.heap 9 := by
  intro p hp hs
  rcases listed_reach hp with rfl | rfl
  · have hsav : (listed.2.heap 9).savedOn = [] := by decide +kernel
    rw [hsav] at hs; cases hs
  · intro hm
    have haway : (listed.2.heap 14).mapped = false := by decide +kernel
    rw [haway] at hm; cases hm

/-- The hypotheses of C62 hold when the root record of the examples, with its dataset-level metadata and
its file tree, is taken over into a version list of another repository. -/
example : ∃ own, Repos sampleCfg own twoRepos ∧ own 4 = sampleRealm ∧ own 9 = otherRealm ∧ ∀ h0 ks,
    look sampleCfg aggregated.2.repo.log h0 (.ver c!"v7" ⟨[], [c!"sub"]⟩ :: ks) []
        (.sto otherRealm ⟨.vlist, normRef .vlist (okRef aggregated)⟩) =
      look sampleCfg twoRepos.repo.log twoRepos.heap ks c!"0.7" (.mem 4) := by
  obtain ⟨own, h1, h2, h3, _⟩ := twoRepos_repos
  refine ⟨own, h1, h2, h3, fun h0 => ?_⟩
  have hk : (twoRepos.heap 9).kind = .vlist := by decide +kernel
  have hp : (twoRepos.heap 4).kind ≠ .tvl := by decide +kernel
  have hl : 9 < twoRepos.next := by decide
  have := (C62_partial (own := own) (l := 9) h1 hl (by rw [h3]; decide) (Or.inl hk) (by rw [h3]; exact twoRepos_copyable) hp
    (by rw [h3]; exact takenOver_ok) listed_ok (by rw [h3]; exact aggregated_ok) aggregated_distinct listed_storable
    (by rw [h3]; exact listed_alone) (by rw [h3]; exact listed_trusted) (by rw [h3]; exact listed_owned) h0).1
  rw [hk, h3] at this
  exact this

/-- The hypotheses of C17, C18, C22 and C23 for several repositories hold for the list of the second
repository, and for the copied root record in it, which is not loaded. -/
example : ∃ own, Repos sampleCfg own listed.2 ∧ own 4 = sampleRealm ∧ own 9 = otherRealm ∧
    (∀ h0, SameContent sampleCfg listed.2.repo.log listed.2.heap (.mem 9) aggregated.2.repo.log h0
      (.sto otherRealm ⟨.vlist, normRef .vlist (okRef aggregated)⟩)) ∧
    writeOut sampleCfg 20 (some otherRealm) false 9 aggregated.2 = (.ok (okRef aggregated), aggregated.2) ∧
    SameContent sampleCfg listed.2.repo.log listed.2.heap (.mem 4) aggregated.2.repo.log aggregated.2.heap (.mem 4) ∧
    (listed.2.heap 14).mapped = false ∧ (ensureMapped sampleCfg 14 listed.2).1 = .ok true := by
  obtain ⟨own, hs, h4, h9, h14⟩ := listed_repos
  have hk : (listed.2.heap 9).kind = .vlist := by decide +kernel
  have hr : own 9 ≠ [] := by rw [h9]; decide
  have haway : (listed.2.heap 14).mapped = false := by decide +kernel
  have e3 : writeAs sampleCfg .own 20 (some (own 9)) false 9 listed.2 = (.ok (okRef aggregated), aggregated.2) := by
    rw [h9]; exact aggregated_ok
  have hlt : 9 < listed.2.next := by decide +kernel
  have hlt4 : 4 < listed.2.next := by decide +kernel
  have hca : aggregated.2.caches = [] := caches_writeAs aggregated_ok hs.owners.caches
  refine ⟨own, hs, h4, h9, fun h0 => ?_, ?_, ?_, haway, ?_⟩
  · have := (C17_repos_partial hs hr e3 aggregated_distinct listed_storable (by rw [h9]; exact listed_alone)
      (by rw [h9]; exact listed_trusted) (by rw [h9]; exact listed_owned) h0).1
    rw [hk, h9] at this
    exact this
  · have := C22_repos_partial hs hr (n := 20) (m := 20) (force := false) e3 aggregated_distinct (by decide +kernel)
      listed_storable (by rw [h9]; exact listed_alone) (by rw [h9]; exact listed_trusted) (by rw [h9]; exact listed_owned)
      (Nat.le_refl _)
    rw [h9] at this
    exact this
  · exact C23_repos hs hlt hr e3 hca aggregated_distinct listed_storable (by rw [h9]; exact listed_alone) hlt4
      (by rw [h4]; decide)
  · have hlt14 : 14 < listed.2.next := by decide +kernel
    have hf : listed.2.repo.faults = [] := by decide +kernel
    exact (C18_repos_loads hs hf (by rw [h14]; decide) hlt14 haway).1

theorem twoRepos_reach {j : ObjId} (h : Reach twoRepos.heap 8 j) : j < 9 := by
  refine reach_closed (S := fun p => p < 9) ?_ h (by decide)
  have : ∀ p, p < 9 → ∀ k ∈ (twoRepos.heap p).body.subs, k < 9 := by decide +kernel
  exact fun p hp _ k hk => this p hp k hk

theorem twoRepos_heap {j : ObjId} (h : j < 9) : twoRepos.heap j = sampleWorld.heap j :=
  create_ne _ _ (Nat.ne_of_lt h)

/-- The hypotheses of C57 for several repositories hold for the UUID set of the first repository. -/
example : ∃ own, Repos sampleCfg own twoRepos ∧ own 8 = sampleRealm ∧ own 9 = otherRealm ∧
    ∃ N, ∀ n, N ≤ n → CollisionFree sampleCfg (writeAs sampleCfg .own n (some (own 8)) false 8 twoRepos).2.eff →
      ∃ ref w', writeAs sampleCfg .own n (some (own 8)) false 8 twoRepos = (.ok ref, w') := by
  obtain ⟨own, hs, _, h9, h8⟩ := twoRepos_repos
  have hnew : ∀ {j}, Reach twoRepos.heap 8 j → (twoRepos.heap j).mapped = true ∧ (twoRepos.heap j).savedOn = [] := by
    intro j hj
    rw [twoRepos_heap (twoRepos_reach hj)]
    exact ⟨(sample_new j).1, (sample_new j).2.2⟩
  have hsto : Storable twoRepos.heap 8 := by
    intro j hj hm
    have hj9 := twoRepos_reach hj
    rw [twoRepos_heap hj9]
    have hb := sample_storable hj9 j (Reach.refl j) (sample_new j).1
    refine ⟨hb.data, hb.keys, fun e he => ?_⟩
    have : ∀ p, p < 9 → ∀ k ∈ (sampleWorld.heap p).body.subs, k < 9 := by decide +kernel
    rw [twoRepos_heap (this j hj9 e.2.2 (List.mem_map.mpr ⟨e, he, rfl⟩))]
    exact hb.slots e he
  have hal : Alone (own 8) twoRepos.heap 8 := by
    intro nm _ j _ ref _ _
    have : (twoRepos.heap j).savedOn = [] ∧ (twoRepos.heap j).mapped = true := by
      by_cases hj : j = sampleWorld.next
      · subst hj; unfold twoRepos; rw [create_self]; exact ⟨rfl, rfl⟩
      · unfold twoRepos; rw [create_ne _ _ hj]; exact ⟨(sample_new j).2.2, (sample_new j).1⟩
    rw [this.1, this.2]
    exact ⟨by simp, Or.inl rfl⟩
  have ht : Trusted sampleCfg (own 8) twoRepos 8 := by
    intro j hj hcl
    have := hcl.flag
    rw [(hnew hj).2] at this; cases this
  have ho : Owned (own 8) twoRepos.heap 8 := by
    intro p hp hx
    rw [(hnew hp).2] at hx; cases hx
  have hb : NoBlanks (own 8) twoRepos.heap 8 := by
    intro j hj hm
    rw [(hnew hj).1] at hm; cases hm
  obtain ⟨N, h⟩ := C57_repos_partial hs (via := .own) (force := false) (i := 8) (by rw [h8]; decide) (by rw [h8]; decide)
    (fun g => by cases g) hsto hal ht ho hb (noHole_of_check (n := 9) (by decide +kernel)) rfl
  exact ⟨own, hs, h8, h9, N, fun n hn hc => by obtain ⟨ref, w', e, _⟩ := h n hn hc; exact ⟨ref, w', e⟩⟩

end MM
