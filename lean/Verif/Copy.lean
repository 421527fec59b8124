/-
What copying an object to a repository does: the objects of the process stay, and the
copies are unloaded objects with the same content.
-/
import Verif.Visit
import Verif.Parts
import Verif.Purge
import Verif.WriteFrame
import Verif.WriteOk

namespace MM

variable {C : Cfg} {r : Realm}

/-! ### Steps -/

/-- A new object -/
theorem Fine.create {w : World} (hs : Fine C w) {o : Obj} (hm : o.mapped = true) (hf : Formed o.body)
    (hk : ∀ k ∈ o.body.subs, k < w.next) : Fine C (MM.create o w) := by
  have hun : ∀ j, ((MM.create o w).heap j).mapped = false → (MM.create o w).heap j = w.heap j := by
    intro j hj
    refine create_ne o w ?_
    rintro rfl
    rw [create_self, hm] at hj; cases hj
  refine ⟨?_, ?_, ?_, ?_, ?_⟩
  · intro p hp k hk'
    by_cases hpi : p = w.next
    · subst hpi; rw [create_self] at hk'; exact Nat.lt_succ_of_lt (hk k hk')
    · rw [create_ne o w hpi] at hp hk'
      exact Nat.lt_succ_of_lt (hs.kids p hp k hk')
  · obtain ⟨rank, hrk⟩ := hs.ranked
    refine ⟨fun j => if j = w.next then rankSum rank o.body.subs + 1 else rank j, ?_⟩
    intro p hp k hk'
    by_cases hpi : p = w.next
    · subst hpi
      rw [create_self] at hk'
      have h1 := hk k hk'
      simp only [if_true]
      rw [if_neg (by oomega)]
      have := le_rankSum (rank := rank) hk'
      oomega
    · rw [create_ne o w hpi] at hp hk'
      have h1 := hs.kids p hp k hk'
      simp only
      rw [if_neg hpi, if_neg (by oomega)]
      exact hrk p hp k hk'
  · intro j hj
    have e := hun j hj
    rw [e] at hj ⊢
    exact hs.away j hj
  · intro j hj
    have e := hun j hj
    rw [e] at hj
    refine Full.of_same ?_ (hs.full j hj)
    refine look_kept fun k hk => ?_
    rw [reach_unmapped hj hk]
    exact e
  · intro j hj
    by_cases hji : j = w.next
    · subst hji; rw [create_self]; exact hf
    · rw [create_ne o w hji] at hj ⊢; exact hs.formed j hj

theorem content_create {w : World} (hs : Fine C w) (o : Obj) {j : ObjId} (hj : j < w.next) :
    SameContent C w.repo.log w.heap (.mem j) (create o w).repo.log (create o w).heap (.mem j) := by
  refine look_kept fun k hk => create_ne o w ?_
  have := Reach.lt hs.kids hj hk
  oomega

/-- Forgetting the content of an object that is stored -/
theorem Fine.unload {c : World} (hf : Fine C c) {i : ObjId} (hp : Pristine C c i) :
    Fine C (MM.unload i c) ∧
      ∀ j, SameContent C c.repo.log c.heap (.mem j) (MM.unload i c).repo.log (MM.unload i c).heap (.mem j) := by
  have hun := unload_unloads i c
  have hi' : (MM.unload i c).heap i = { c.heap i with mapped := false, body := (c.heap i).body.purged } := by
    unfold MM.unload; simp
  have hold : ∀ j, j ≠ i → (MM.unload i c).heap j = c.heap j := fun j hj => by
    unfold MM.unload; simp [Heap.set_ne hj]
  obtain ⟨r, ref, g1, g2, g3, g4, g5⟩ := hp
  have hcont : SameContent C c.repo.log c.heap (.mem i) c.repo.log (MM.unload i c).heap (.mem i) := by
    have h2 : SameContent C c.repo.log (MM.unload i c).heap (.mem i) c.repo.log c.heap
        (.sto r ⟨((MM.unload i c).heap i).kind, ref⟩) :=
      look_unloaded (by rw [hi']) (by rw [hi']; exact g2) (by rw [hi']; exact g3)
    rw [hun.kind] at h2
    exact g5.trans h2.symm
  have hlook : ∀ j, SameContent C c.repo.log c.heap (.mem j) c.repo.log (MM.unload i c).heap (.mem j) :=
    fun j => look_frame (A := fun _ => False) (fun k _ hk => hold k hk) (fun _ _ _ _ h => h) hcont j (fun h => h)
  refine ⟨⟨?_, ?_, ?_, ?_, ?_⟩, hlook⟩
  · intro p hp k hk
    obtain ⟨e1, e2⟩ := hun.mapped p hp
    rw [e2] at hk
    exact hf.kids p e1 k hk
  · obtain ⟨rank, hrk⟩ := hf.ranked
    refine ⟨rank, fun p hp k hk => ?_⟩
    obtain ⟨e1, e2⟩ := hun.mapped p hp
    rw [e2] at hk
    exact hrk p e1 k hk
  · intro j hj
    by_cases hji : j = i
    · subst hji
      rw [hi']
      exact ⟨r, ref, g1, g2, g3, g4⟩
    · rw [hold j hji] at hj ⊢
      exact hf.away j hj
  · intro j _
    exact Full.of_same (hlook j) (hf.all j)
  · intro j hj
    obtain ⟨e1, e2⟩ := hun.mapped j hj
    rw [e2]; exact hf.formed j e1

/-- Purging an object whose parts are not loaded -/
theorem purge_shallow {n : Nat} {i : ObjId} {c c' : World} (hm : (c.heap i).mapped = true)
    (hk : ∀ k ∈ (c.heap i).body.subs, (c.heap k).mapped = false) (h : purge n i c = (.ok (), c')) :
    c' = unload i c := by
  cases n with
  | zero => cases h
  | succ n =>
    unfold purge at h
    rw [M.bind_of_ok (getObj_run i c), if_pos hm] at h
    by_cases hsv : (c.heap i).savedOn = []
    · rw [if_pos hsv] at h; cases h
    · rw [if_neg hsv] at h
      by_cases hmr : (c.heap i).kind = .mrr ∧ dget (c.heap i).body.kids .dlm = none
      · rw [if_pos hmr] at h; cases h
      · rw [if_neg hmr] at h
        obtain ⟨l, c1, h1, h2⟩ := M.bind_ok h
        have key : ∀ (l : List ObjId) (us : List Unit) (c1 : World), (∀ k ∈ l, (c.heap k).mapped = false) →
            M.forEach (purge n) l c = (.ok us, c1) → c1 = c := by
          intro l
          induction l with
          | nil => intro us c1 _ h; cases h; rfl
          | cons a l ih =>
            intro us c1 hl h
            rw [M.forEach_cons] at h
            obtain ⟨u, c2, h3, h4⟩ := M.bind_ok h
            obtain ⟨us', c3, h5, h6⟩ := M.bind_ok h4
            cases h6
            have : c2 = c := by
              cases n with
              | zero => cases h3
              | succ n =>
                unfold purge at h3
                rw [M.bind_of_ok (getObj_run a c), if_neg (by rw [hl a (List.mem_cons_self ..)]; simp)] at h3
                cases h3; rfl
            subst this
            exact ih us' _ (fun k hk => hl k (List.mem_cons_of_mem _ hk)) h5
        have := key _ l c1 hk h1
        subst this
        rw [updObj_run] at h2
        cases h2
        rfl

/-! ### What stays while copies are made -/

/-- The file trees of root records are file trees. -/
def FtTyped (h : Heap) : Prop :=
  ∀ p, (h p).mapped = true → (h p).kind = .mrr → ∀ t c, dget (h p).body.kids .ft = some (t, c) →
    (h c).kind = .mtree .metadata

/-- Steps of a copy to `r` that may set the name `nm`, as the first `b` objects see it. -/
structure Pass (C : Cfg) (r : Realm) (nm : Option Str) (b : ObjId) (w w' : World) : Prop where
  next : w.next ≤ w'.next
  caches : w.caches = [] → w'.caches = []
  grows : Grows w.repo.log w'.repo.log
  refs : ∀ x n, (x = r ∧ nm = some n) ∨ refOf w'.repo.log x n = refOf w.repo.log x n
  loaded : ∀ j, j < b → (w.heap j).mapped = true → w'.heap j = w.heap j
  away : ∀ j, j < b → (w.heap j).mapped = false → AwayKept (w.heap j) (w'.heap j)
  content : ∀ j, j < b → SameContent C w.repo.log w.heap (.mem j) w'.repo.log w'.heap (.mem j)
  fine : Fine C w'
  reader : ∀ n, (isHash n || n == noneLocation) = false → nm ≠ some n → NoReader r w.heap n → NoReader r w'.heap n
  typed : FtTyped w.heap → FtTyped w'.heap
  beyond : ∀ j, w'.next ≤ j → w'.heap j = w.heap j

theorem Pass.trans {nm : Option Str} {b : ObjId} {x y z : World} (h : Pass C r nm b x y)
    (h' : Pass C r nm b y z) : Pass C r nm b x z := by
  refine ⟨Nat.le_trans h.next h'.next, fun e => h'.caches (h.caches e), h.grows.trans h'.grows, ?_, ?_, ?_, ?_,
    h'.fine, fun n hn hx e => h'.reader n hn hx (h.reader n hn hx e), fun e => h'.typed (h.typed e),
    fun j hj => (h'.beyond j hj).trans (h.beyond j (Nat.le_trans h'.next hj))⟩
  · intro a n
    rcases h'.refs a n with e | e
    · exact Or.inl e
    · rcases h.refs a n with e' | e'
      · exact Or.inl e'
      · exact Or.inr (e.trans e')
  · intro j hj hm
    have e := h.loaded j hj hm
    rw [h'.loaded j hj (by rw [e]; exact hm), e]
  · intro j hj hm
    have e := h.away j hj hm
    exact e.trans (h'.away j hj e.mapped)
  · intro j hj; exact (h.content j hj).trans (h'.content j hj)

theorem Pass.mono {nm : Option Str} {b b' : ObjId} {x y : World} (h : Pass C r nm b x y) (hb : b' ≤ b) :
    Pass C r nm b' x y :=
  ⟨h.next, h.caches, h.grows, h.refs, fun j hj => h.loaded j (Nat.lt_of_lt_of_le hj hb),
   fun j hj => h.away j (Nat.lt_of_lt_of_le hj hb), fun j hj => h.content j (Nat.lt_of_lt_of_le hj hb),
   h.fine, h.reader, h.typed, h.beyond⟩

theorem Pass.weaken {nm : Option Str} {b : ObjId} {x y : World} (h : Pass C r none b x y) : Pass C r nm b x y :=
  ⟨h.next, h.caches, h.grows, fun a n => (h.refs a n).elim (fun e => by simp at e) Or.inr, h.loaded, h.away,
   h.content, h.fine, fun n hn _ => h.reader n hn (by simp), h.typed, h.beyond⟩

theorem Pass.mapped {nm : Option Str} {b : ObjId} {x y : World} (h : Pass C r nm b x y) {j : ObjId} (hj : j < b)
    (hm : (y.heap j).mapped = true) : (x.heap j).mapped = true := by
  cases hx : (x.heap j).mapped with
  | true => rfl
  | false => rw [(h.away j hj hx).mapped] at hm; cases hm

theorem Pass.kind {nm : Option Str} {b : ObjId} {x y : World} (h : Pass C r nm b x y) {j : ObjId} (hj : j < b) :
    (y.heap j).kind = (x.heap j).kind := by
  cases hx : (x.heap j).mapped with
  | true => rw [h.loaded j hj hx]
  | false => exact (h.away j hj hx).kind

/-- The objects that were there hold only objects that were there. -/
theorem Pass.reach {nm : Option Str} {x y : World} (h : Pass C r nm x.next x y) (hf : Fine C x) {j k : ObjId}
    (hr : Reach y.heap j k) : j < x.next → k < x.next := by
  induction hr with
  | refl => exact id
  | step j k _ hm hk _ ih =>
    intro hj
    have hmx := h.mapped hj hm
    rw [h.loaded j hj hmx] at hk
    exact ih (hf.kids j hmx k hk)

theorem Pass.refl {nm : Option Str} {b : ObjId} {w : World} (hf : Fine C w) : Pass C r nm b w w := by
  refine ⟨Nat.le_refl _, id, Grows.refl _, fun _ _ => Or.inr rfl, fun _ _ _ => rfl, ?_,
    fun _ _ => SameContent.refl _ _ _ _, hf, fun _ _ _ => id, id, fun _ _ => rfl⟩
  intro j _ hm
  obtain ⟨_, ref, _, _, e, _⟩ := hf.away j hm
  exact ⟨hm, rfl, rfl, ⟨ref, e, Or.inl e⟩, fun _ _ h => h, fun _ h => h⟩

theorem Pass.create {nm : Option Str} {b : ObjId} {w : World} (hf : Fine C w) (hb : b ≤ w.next) {bd : Body ObjId}
    (hbd : Formed bd) (hk : ∀ k ∈ bd.subs, k < w.next)
    (ht : bd.data.kind = .mrr → ∀ t c, dget bd.kids .ft = some (t, c) → (w.heap c).kind = .mtree .metadata) :
    Pass C r nm b w (MM.create (Obj.new bd) w) := by
  have hold : ∀ j, j < w.next → (MM.create (Obj.new bd) w).heap j = w.heap j :=
    fun j hj => create_ne _ _ (by oomega)
  have p0 := Pass.refl (r := r) (nm := nm) (b := b) hf
  refine ⟨Nat.le_succ _, id, Grows.refl _, fun _ _ => Or.inr rfl, fun j hj _ => hold j (by oomega), ?_,
    fun j hj => content_create hf _ (by oomega), hf.create rfl hbd hk, ?_, ?_,
    fun j hj => create_ne _ _ (Nat.ne_of_gt hj)⟩
  · intro j hj hm
    rw [hold j (by oomega)]
    exact p0.away j hj hm
  · intro n _ _ h x ref hx hl
    by_cases hxn : x = w.next
    · subst hxn; rw [create_self] at hx; cases hx
    · rw [create_ne _ _ hxn] at hx ⊢
      exact h x ref hx hl
  · intro h p hm hkd t c hd
    by_cases hpn : p = w.next
    · subst hpn
      rw [create_self] at hkd hd
      rw [hold c (hk c (dget_sub hd))]
      exact ht hkd t c hd
    · rw [create_ne _ _ hpn] at hm hkd hd
      rw [hold c (hf.kids p hm c (dget_sub hd))]
      exact h p hm hkd t c hd

theorem Pass.edit {nm : Option Str} {b j : ObjId} {w : World} (hf : Fine C w) (hj : b ≤ j) (hjn : j < w.next)
    {bd : Body ObjId}
    (hm : (w.heap j).mapped = true) (hbd : Formed bd) (hk : ∀ k ∈ bd.subs, k < w.next)
    (hac : ∀ k ∈ bd.subs, ¬ Reach w.heap k j) (hout : ∀ x, x < b → ¬ Reach w.heap x j)
    (hkd : bd.data.kind = (w.heap j).kind) (hne : bd.data.kind ≠ .mrr) :
    Pass C r nm b w (MM.edit j bd w) := by
  have hkind : ∀ x, ((MM.edit j bd w).heap x).kind = (w.heap x).kind := by
    intro x
    by_cases hx : x = j
    · subst hx; rw [edit_self]; exact hkd
    · rw [edit_ne _ _ hx]
  have p0 := Pass.refl (r := r) (nm := nm) (b := b) hf
  refine ⟨Nat.le_refl _, id, Grows.refl _, fun _ _ => Or.inr rfl, fun x hx _ => edit_ne _ _ (by oomega), ?_,
    fun x hx => content_edit (hout x hx), hf.edit hm hbd hk hac, ?_, ?_,
    fun x hx => edit_ne _ _ (Nat.ne_of_gt (Nat.lt_of_lt_of_le hjn hx))⟩
  · intro x hx hmx
    rw [edit_ne _ _ (by oomega)]
    exact p0.away x hx hmx
  · intro n _ _ h x ref hx hl
    by_cases hxn : x = j
    · subst hxn; rw [edit_self] at hx ⊢
      obtain ⟨h1, h2⟩ := h x ref hx hl
      exact ⟨by simp, h2⟩
    · rw [edit_ne _ _ hxn] at hx ⊢
      exact h x ref hx hl
  · intro h p hmp hkp t c hd
    rw [hkind]
    have hpn : p ≠ j := by
      rintro rfl
      rw [hkind, ← hkd] at hkp
      exact hne hkp
    rw [edit_ne _ _ hpn] at hmp hkp hd
    exact h p hmp hkp t c hd

theorem Pass.unload {nm : Option Str} {b : ObjId} {w c : World} (hp : Pass C r nm b w c) {j : ObjId} (hj : b ≤ j)
    (hjn : j < c.next) (hpr : Pristine C c j) : Pass C r nm b w (MM.unload j c) := by
  obtain ⟨hf, hc⟩ := hp.fine.unload hpr
  have hun := unload_unloads j c
  have hold : ∀ x, x ≠ j → (MM.unload j c).heap x = c.heap x := fun x hx => by
    unfold MM.unload; simp [Heap.set_ne hx]
  refine ⟨hp.next, hp.caches, hp.grows, hp.refs, ?_, ?_, ?_, hf, ?_, ?_,
    fun x hx => (hold x (Nat.ne_of_gt (Nat.lt_of_lt_of_le hjn hx))).trans (hp.beyond x hx)⟩
  · intro x hx hm; rw [hold x (by oomega)]; exact hp.loaded x hx hm
  · intro x hx hm; rw [hold x (by oomega)]; exact hp.away x hx hm
  · intro x hx; exact (hp.content x hx).trans (hc x)
  · intro n hn hne' h x ref hx hl
    rw [hun.ref] at hx
    rw [hun.saved, hun.realm]
    exact hp.reader n hn hne' h x ref hx hl
  · intro h p hm hk t c' hd
    obtain ⟨e1, e2⟩ := hun.mapped p hm
    rw [e2] at hd
    rw [hun.kind] at hk ⊢
    exact hp.typed h p e1 hk t c' hd

/-- Reading an object gives no other object that stands for a name. -/
theorem Opened.reader {i : ObjId} {w w1 : World} (ho : Opened C i w w1) {m : Str}
    (hm : (isHash m || m == noneLocation) = false) (h : NoReader r w.heap m) : NoReader r w1.heap m := by
  obtain ⟨ref, f1, f2⟩ := ho.ref
  intro y ref2 hy hl2
  by_cases hyi : y = i
  · subst hyi
    have hloc : ref.loc = some m := by
      rcases f2 with f2 | f2 <;> rw [hy] at f2 <;> injection f2 with f2 <;> rw [f2] at hl2 <;> exact hl2
    obtain ⟨g1, g2⟩ := h y ref f1 hloc
    refine ⟨fun hr => ?_, by rw [ho.realm]; exact g2⟩
    exact g1 (ho.marked r hr)
  · by_cases hy1 : y < w.next
    · rw [ho.old y hyi hy1] at hy ⊢; exact h y ref2 hy hl2
    · by_cases hy2 : y < w1.next
      · obtain ⟨ref3, g1, g2⟩ := ho.direct y (Nat.not_lt.mp hy1) hy2
        rw [hy] at g1
        injection g1 with g1
        subst g1
        unfold Ref.direct at g2
        rw [hl2] at g2
        simp only [hm] at g2
        cases g2
      · rw [ho.beyond y (Nat.not_lt.mp hy2)] at hy ⊢; exact h y ref2 hy hl2

theorem Opened.typedHeap {i : ObjId} {w w1 : World} (ho : Opened C i w w1) (hf : Fine C w) (h : FtTyped w.heap) :
    FtTyped w1.heap := by
  have hkind1 : ∀ x, x < w.next → (w1.heap x).kind = (w.heap x).kind := by
    intro x hx
    by_cases hxi : x = i
    · subst hxi; exact ho.kind
    · rw [ho.old x hxi hx]
  intro q hq hqk t' c2 hd2
  by_cases hqi : q = i
  · subst hqi; rw [ho.kind] at hqk; have := ho.typed _ (mem_of_dget hd2); rw [hqk] at this; exact this
  · have eq : w1.heap q = w.heap q := by
      by_cases hq1 : q < w.next
      · exact ho.old q hqi hq1
      · by_cases hq2 : q < w1.next
        · rw [ho.fresh q (Nat.not_lt.mp hq1) hq2] at hq; cases hq
        · exact ho.beyond q (Nat.not_lt.mp hq2)
    rw [eq] at hq hqk hd2
    rw [hkind1 c2 (hf.kids q hq c2 (dget_sub hd2))]
    exact h q hq hqk t' c2 hd2

/-- Opening an object for a while, when the steps in between keep it -/
theorem Pass.visit {nm : Option Str} {n : Nat} {i : ObjId} {w w1 w2 w3 : World} (hf : Fine C w) (hi : i < w.next)
    (ho : Opened C i w w1) (hp : Pass C r nm w1.next w1 w2) (hc : CollisionFree C w2.repo.log)
    (hn : ∀ x, nm = some x → NoReader r w.heap x) (hx : purge n i w2 = (.ok (), w3)) :
    Pass C r nm w.next w w3 ∧ w3 = MM.unload i w2 ∧ Pristine C w2 i := by
  have hi1 : i < w1.next := Nat.lt_of_lt_of_le hi ho.next
  have e := hp.loaded i hi1 ho.mapped
  have hsh := purge_shallow (by rw [e]; exact ho.mapped) (by
    rw [e]
    intro k hk
    obtain ⟨g1, g2⟩ := ho.new k hk
    exact (hp.away k g2 (ho.fresh k g1 g2)).mapped) hx
  obtain ⟨ref, f1, f2⟩ := ho.ref
  have hpr : Pristine C w2 i := by
    obtain ⟨r0, ref0, g1, g2, g3, g4, g5⟩ := ho.stored
    refine ⟨r0, ref0, g1, by rw [e]; exact g2, by rw [e]; exact g3, by rw [e]; exact g4, ?_⟩
    rw [e]
    refine (hp.content i hi1).symm.trans (g5.trans fun ks t => ?_)
    refine (look_sto_mono hp.grows hc ks t r0 _ ?_ (Full.of_same g5 (ho.fine.all i) ks t)).symm
    intro loc hl _
    rcases hp.refs r0 loc with ⟨h1, h2⟩ | h1
    · exfalso
      refine (hn loc h2 i ref f1 ?_).2 (by rw [← ho.realm, g2, h1])
      rcases f2 with f2 | f2 <;> rw [g3] at f2 <;> injection f2 with f2 <;> rw [f2] at hl <;> exact hl
    · exact Or.inr h1
  obtain ⟨hf3, hc3⟩ := hp.fine.unload hpr
  have hun := unload_unloads i w2
  have hself : (MM.unload i w2).heap i = { w2.heap i with mapped := false, body := (w2.heap i).body.purged } := by
    unfold MM.unload; simp
  have hold : ∀ x, x ≠ i → (MM.unload i w2).heap x = w2.heap x := fun x hx => by
    unfold MM.unload; simp [Heap.set_ne hx]
  subst hsh
  refine ⟨?_, rfl, hpr⟩
  refine ⟨Nat.le_trans ho.next hp.next, fun h => hp.caches (ho.caches.trans h), ?_, ?_, ?_, ?_, ?_, hf3, ?_, ?_, ?_⟩
  · have := hp.grows; rw [ho.log] at this; exact this
  · intro x m; have := hp.refs x m; rw [ho.log] at this; exact this
  · intro j hj hm
    have hji : j ≠ i := by rintro rfl; rw [ho.was] at hm; cases hm
    have e1 := ho.old j hji hj
    rw [hold j hji, hp.loaded j (Nat.lt_of_lt_of_le hj ho.next) (by rw [e1]; exact hm), e1]
  · intro j hj hm
    by_cases hji : j = i
    · subst hji
      refine ⟨by rw [hself], ?_, ?_, ⟨ref, f1, ?_⟩, ?_, ?_⟩
      · rw [hun.realm, e, ho.realm]
      · rw [hun.kind, e, ho.kind]
      · rw [hun.ref, e]; exact f2
      · intro x h1 h2; rw [hun.saved, e]; exact ho.marks x h1 h2
      · intro x hx; rw [hun.saved, e] at hx; exact ho.marked x hx
    · have e1 := ho.old j hji hj
      rw [hold j hji, ← e1]
      exact hp.away j (Nat.lt_of_lt_of_le hj ho.next) (by rw [e1]; exact hm)
  · intro j hj
    exact (ho.content j hj).trans ((hp.content j (Nat.lt_of_lt_of_le hj ho.next)).trans (hc3 j))
  · intro m hm hmn h x ref' hx' hl
    rw [hun.ref] at hx'
    rw [hun.saved, hun.realm]
    exact hp.reader m hm hmn (ho.reader hm h) x ref' hx' hl
  · intro h p hm hk t c' hd
    obtain ⟨e1, e2⟩ := hun.mapped p hm
    rw [e2] at hd
    rw [hun.kind] at hk ⊢
    exact hp.typed (ho.typedHeap hf h) p e1 hk t c' hd
  · intro j hj
    have hj2 : w2.next ≤ j := hj
    have hj1 := Nat.le_trans hp.next hj2
    rw [hold j (Nat.ne_of_gt (Nat.lt_of_lt_of_le hi1 hj1)), hp.beyond j hj2, ho.beyond j hj1]

/-! ### Writing a copy and forgetting its content -/

/-- An unloaded object that stands for content in the repository -/
structure Stub (r : Realm) (w : World) (c : ObjId) : Prop where
  away : (w.heap c).mapped = false
  realm : (w.heap c).realm = some r
  saved : r ∈ (w.heap c).savedOn
  ref : ∃ ref, (w.heap c).ref = some ref ∧ RefOk (w.heap c).kind ref
  plain : (w.heap c).kind ≠ .tvl
  only : ∀ x ∈ (w.heap c).savedOn, x = r

theorem World.eff_of {w : World} (h : w.caches = []) : w.eff = w.repo.log := by
  unfold World.eff; rw [h]; rfl

/-- A stub is what it should be. -/
theorem Stub.good {w : World} (hs : Fine C w) {c : ObjId} (h : Stub r w c) :
    ∃ ref, (w.heap c).ref = some ref ∧ Good C r w.repo.log w.heap c ref := by
  obtain ⟨ref, h1, h2⟩ := h.ref
  refine ⟨ref, h1, h2, hs.full c h.away, ?_⟩
  rw [normRef_ne h.plain]
  exact look_unloaded h.away h.realm h1

/-- A new object was written whose parts are not loaded. -/
structure WrittenNew (C : Cfg) (r : Realm) (b : ObjId) (bd : Body ObjId) (j : ObjId) (ref : Ref) (w w1 : World) : Prop where
  any : Any r w w1
  pass : Pass C r (pubName bd.data.kind) b w w1
  good : Good C r w1.repo.log w1.heap j ref
  hasRef : (w1.heap j).ref = some ref
  saved : r ∈ (w1.heap j).savedOn
  realm : (w1.heap j).realm = some r
  mapped : (w1.heap j).mapped = true
  kind : (w1.heap j).kind = bd.data.kind
  content : ∀ x, SameContent C w.repo.log w.heap (.mem x) w1.repo.log w1.heap (.mem x)

theorem written_new {n : Nat} {b j : ObjId} {bd : Body ObjId} {ref : Ref} {w w1 : World} (hr : r ≠ []) (hs : Fine C w)
    (hca : w.caches = []) (hobj : w.heap j = Obj.new bd) (hb : b ≤ j) (hjn : j < w.next) (hbd : BodyOk w.heap bd)
    (hst : ∀ k ∈ bd.subs, k ≠ j ∧ Stub r w k)
    (hnr : ∀ nm, pubName bd.data.kind = some nm → NoReader r w.heap nm)
    (hcf : CollisionFree C w1.repo.log) (h1 : writeOut C n (some r) false j w = (.ok ref, w1)) :
    WrittenNew C r b bd j ref w w1 := by
  have any := writeOut_any (C := C) hr n false j w
  rw [h1] at any
  simp only at any
  have hca1 : w1.caches = [] := caches_writeOut h1 hca
  have hm : (w.heap j).mapped = true := by rw [hobj]; rfl
  have hbody : (w.heap j).body = bd := by rw [hobj]; rfl
  have hkj : (w.heap j).kind = bd.data.kind := by rw [hobj]; rfl
  have hsubs : ∀ k ∈ (w.heap j).body.subs, k ≠ j ∧ Stub r w k := by rw [hbody]; exact hst
  have hreach : ∀ x, Reach w.heap j x → x = j ∨ x ∈ bd.subs := by
    intro x hx
    cases hx with
    | refl => exact Or.inl rfl
    | step _ k _ _ hk hx =>
      obtain ⟨_, g⟩ := hsubs k hk
      rw [reach_unmapped g.away hx]
      rw [hbody] at hk
      exact Or.inr hk
  obtain ⟨rank, hrk⟩ := hs.ranked
  classical
  let rank' : ObjId → Nat := fun p => if p = j then 1 else if p ∈ bd.subs then 0 else rank p + 2
  have hout : ∀ p, ¬ (p ≠ j ∧ p ∉ bd.subs) → r ∈ (w.heap p).savedOn → (w.heap p).mapped = true → False := by
    intro p hp h5 h6
    by_cases hpj : p = j
    · subst hpj; rw [hobj] at h5; cases h5
    · by_cases hps : p ∈ bd.subs
      · rw [(hst p hps).2.away] at h6; cases h6
      · exact hp ⟨hpj, hps⟩
  have post := writeSpec C hr rank' n ⟨fun x => x ≠ j ∧ x ∉ bd.subs, fun _ => True⟩ false j w w1 ref h1
    (by rw [World.eff_of hca1]; exact hcf) (by rw [hca]; exact List.nodup_nil)
    (by
      intro p hp k hk
      by_cases hpj : p = j
      · subst hpj
        obtain ⟨g, _⟩ := hsubs k hk
        rw [hbody] at hk
        simp only [rank', if_true, if_neg g, if_pos hk]
        exact Nat.one_pos
      · by_cases hps : p ∈ bd.subs
        · rw [(hst p hps).2.away] at hp; cases hp
        · have := hrk p hp k hk
          simp only [rank', if_neg hpj, if_neg hps]
          by_cases hkj' : k = j
          · rw [if_pos hkj']; exact Nat.le_add_left _ _
          · rw [if_neg hkj']
            by_cases hks : k ∈ bd.subs
            · rw [if_pos hks]; exact Nat.succ_pos _
            · rw [if_neg hks]; exact Nat.add_lt_add_right this 2)
    (by
      intro x hx hmx
      rcases hreach x hx with rfl | hx
      · rw [hbody]; exact hbd
      · rw [(hst x hx).2.away] at hmx; cases hmx)
    ⟨fun _ _ _ _ _ => trivial, fun p hp h5 h6 => (hout p hp h5 h6).elim, fun p hp h5 h6 => (hout p hp h5 h6).elim⟩
    (by
      intro p hp hcl
      by_cases hpj : p = j
      · subst hpj
        have := hcl.flag
        rw [hobj] at this; cases this
      · by_cases hps : p ∈ bd.subs
        · rw [World.eff_of hca]; exact (hst p hps).2.good hs
        · exact absurd ⟨hpj, hps⟩ hp)
    ⟨trivial, fun s hs' => by
        simp only [rank', if_true, if_neg hs'.1, if_neg hs'.2]
        exact Nat.le_add_left _ _,
      fun p hp h5 h6 => (hout p hp h5 h6).elim⟩
    (by
      intro nm hnm x _ ref' hx hl
      obtain ⟨g1, g2⟩ := hnr nm (by rw [← hkj]; exact hnm) x ref' hx hl
      exact ⟨g1, Or.inr g2⟩)
  have hm1 : (w1.heap j).mapped = true := (any.same j).mapped.trans hm
  have hk1 : (w1.heap j).kind = bd.data.kind := by unfold Obj.kind; rw [(any.same j).body, hbody]
  have hsv1 : r ∈ (w1.heap j).savedOn := by
    have := post.saved
    cases n with
    | zero => cases this
    | succ n => exact (isSavedOn_true.mp this).1
  have hre1 : (w1.heap j).realm = some r := by
    rcases any.home j hsv1 with g | g
    · rw [hobj] at g; cases g
    · exact g
  have hgood := post.good
  rw [World.eff_of hca1] at hgood
  have hgrow : Grows w.repo.log w1.repo.log := by
    have := post.step.grows
    rwa [World.eff_of hca, World.eff_of hca1] at this
  have hrefs := post.step.refs
  rw [hkj] at hrefs
  have hkept : HeapKept w.repo.log w1.repo.log w.heap := by
    intro x rx ref' loc _ h5 h6 h7 _
    rcases hrefs rx loc with ⟨g1, g2⟩ | g
    · exact absurd (by rw [h5, g1]) (hnr loc g2 x ref' h6 h7).2
    · exact Or.inr g
  have hcont : ∀ x, SameContent C w.repo.log w.heap (.mem x) w1.repo.log w1.heap (.mem x) := fun x ks t =>
    (look_mem_mono hgrow hcf hkept any.same ks t x (hs.all x ks t)).symm
  have hfr : ∀ x, x ≠ j → x ∉ bd.subs → w1.heap x = w.heap x := by
    intro x hx hxs
    have := writeOut_frame (C := C) n (some r) false j w x (fun hrx => by
      rcases hreach x hrx with g | g
      · exact hx g
      · exact hxs g)
    rw [h1] at this
    exact this
  have hkinds : ∀ x, (w1.heap x).kind = (w.heap x).kind := by
    intro x; unfold Obj.kind; rw [(any.same x).body]
  have hfine1 : Fine C w1 := by
    refine ⟨?_, ⟨rank, hrk.mono any.same⟩, ?_, ?_, ?_⟩
    · intro p hp k hk
      rw [(any.same p).mapped] at hp
      rw [(any.same p).body] at hk
      rw [any.next]
      exact hs.kids p hp k hk
    · intro x hx
      rw [(any.same x).mapped] at hx
      obtain ⟨r0, ref0, g1, g2, g3, g4⟩ := hs.away x hx
      obtain ⟨e1, e2⟩ := (any.same x).away hx
      exact ⟨r0, ref0, g1, e1.trans g2, e2.trans g3, g4.imp id (any.saved x r0)⟩
    · intro x _
      exact Full.of_same (hcont x) (hs.all x)
    · intro x hx
      rw [(any.same x).mapped] at hx
      rw [(any.same x).body]
      exact hs.formed x hx
  have hpass : Pass C r (pubName bd.data.kind) b w w1 := by
    refine ⟨by rw [any.next]; exact Nat.le_refl _, fun _ => hca1, hgrow, hrefs, ?_, ?_, fun x _ => hcont x, hfine1,
      ?_, ?_, ?_⟩
    · intro x hx hmx
      refine hfr x (by oomega) fun hxs => ?_
      rw [(hst x hxs).2.away] at hmx; cases hmx
    · intro x hx hmx
      obtain ⟨e1, e2⟩ := (any.same x).away hmx
      obtain ⟨_, ref0, _, _, g3, _⟩ := hs.away x hmx
      exact ⟨(any.same x).mapped.trans hmx, e1, hkinds x, ⟨ref0, g3, Or.inl (e2.trans g3)⟩,
        fun y _ hy => any.saved x y hy, fun y hy => by
          by_cases hyr : y = r
          · subst hyr
            by_cases hxs : x ∈ bd.subs
            · exact (hst x hxs).2.saved
            · rwa [hfr x (by oomega) hxs] at hy
          · exact any.other x y hyr hy⟩
    · intro m hmn hpn hno x ref' hx hl
      by_cases hxj : x = j
      · subst hxj
        obtain ⟨l, g1, g2⟩ := hgood.ok.loc
        rw [post.hasRef] at hx
        injection hx with hx
        rw [← hx, g1] at hl
        injection hl with hl
        subst hl
        rcases g2 with g2 | ⟨g2, _⟩ | g2
        · rw [g2] at hmn; cases hmn
        · subst g2; cases hmn
        · exact absurd (by rw [← hk1]; exact g2) hpn
      · by_cases hxs : x ∈ bd.subs
        · obtain ⟨e1, e2⟩ := (any.same x).away (hst x hxs).2.away
          rw [e2] at hx
          exact absurd (hst x hxs).2.realm (hno x ref' hx hl).2
        · rw [hfr x hxj hxs] at hx ⊢
          exact hno x ref' hx hl
    · intro ht p hp hk t c hd
      rw [(any.same p).mapped] at hp
      rw [(any.same p).body] at hd
      rw [hkinds] at hk ⊢
      exact ht p hp hk t c hd
    · intro x hx
      rw [any.next] at hx
      exact hfr x (Nat.ne_of_gt (Nat.lt_of_lt_of_le hjn hx)) fun hxs =>
        Nat.not_lt.mpr hx (hs.kids j hm x (by rw [hbody]; exact hxs))
  exact ⟨any, hpass, hgood, post.hasRef, hsv1, hre1, hm1, hk1, hcont⟩

theorem settle_ok {n : Nat} {b j c : ObjId} {bd : Body ObjId} {w w' : World} (hr : r ≠ []) (hs : Fine C w)
    (hca : w.caches = []) (hobj : w.heap j = Obj.new bd) (hb : b ≤ j) (hjn : j < w.next) (hbd : BodyOk w.heap bd)
    (hkind : bd.data.kind ≠ .tvl) (hst : ∀ k ∈ bd.subs, k ≠ j ∧ Stub r w k)
    (hnr : ∀ nm, pubName bd.data.kind = some nm → NoReader r w.heap nm)
    (hcf : CollisionFree C w'.repo.log) (h : settle C n (some r) j w = (.ok c, w')) :
    c = j ∧ w'.next = w.next ∧ Pass C r (pubName bd.data.kind) b w w' ∧ Stub r w' j ∧
      (w'.heap j).kind = bd.data.kind ∧
      SameContent C w.repo.log w.heap (.mem j) w'.repo.log w'.heap (.mem j) := by
  unfold settle at h
  obtain ⟨ref, w1, h1, h2⟩ := M.bind_ok h
  obtain ⟨u, w2, h3, h4⟩ := M.bind_ok h2
  injection h4 with h4 h5
  injection h4 with h4
  subst h4
  subst h5
  have hpg := purge_purged n j w1
  rw [h3] at hpg
  simp only at hpg
  rw [hpg.repo] at hcf
  have hw := written_new hr hs hca hobj hb hjn hbd hst hnr hcf h1
  have hpr : Pristine C w1 j := by
    refine ⟨r, ref, hr, hw.realm, hw.hasRef, Or.inr hw.saved, ?_⟩
    have := hw.good.same
    rwa [normRef_ne (by rw [hw.kind]; exact hkind)] at this
  have hsh := purge_shallow hw.mapped (by
    intro k hk
    rw [(hw.any.same j).body, hobj] at hk
    exact (hw.any.same k).mapped.trans (hst k hk).2.away) h3
  subst hsh
  have hun := unload_unloads j w1
  refine ⟨rfl, hun.next.trans hw.any.next, hw.pass.unload hb (by rw [hw.any.next]; exact hjn) hpr, ?_, ?_,
    (hw.content j).trans ((hw.pass.fine.unload hpr).2 j)⟩
  · refine ⟨?_, ?_, ?_, ⟨ref, ?_, ?_⟩, ?_, ?_⟩
    · unfold MM.unload; simp
    · rw [hun.realm]; exact hw.realm
    · rw [hun.saved]; exact hw.saved
    · rw [hun.ref]; exact hw.hasRef
    · rw [hun.kind]; exact hw.good.ok
    · rw [hun.kind, hw.kind]; exact hkind
    · intro x hx
      rw [hun.saved] at hx
      by_cases hxr : x = r
      · exact hxr
      · have := hw.any.other j x hxr hx
        rw [hobj] at this; cases this
  · rw [hun.kind]; exact hw.kind

end MM
