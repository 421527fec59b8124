/-
Copying an object to a repository: the copies of the parts, and the object that holds
them.
-/
import Verif.Copy
import Verif.Listing

namespace MM

variable {C : Cfg} {r : Realm}

/-! ### Which repository is written, whatever the outcome -/

/-- Only the repository `r` was changed, by adding to it. -/
def Logged (r : Realm) (w w' : World) : Prop :=
  ∃ ops, w'.repo.log = ops ++ w.repo.log ∧ ∀ op ∈ ops, op.realm = r

theorem Logged.same {w w' : World} (h : w'.repo.log = w.repo.log) : Logged r w w' :=
  ⟨[], h, fun _ h => by cases h⟩

theorem Logged.refl (w : World) : Logged r w w := Logged.same rfl

theorem Logged.trans {a b c : World} (h : Logged r a b) (h' : Logged r b c) : Logged r a c := by
  obtain ⟨o1, e1, r1⟩ := h
  obtain ⟨o2, e2, r2⟩ := h'
  refine ⟨o2 ++ o1, by rw [e2, e1, List.append_assoc], fun op hop => ?_⟩
  rcases List.mem_append.mp hop with h | h
  · exact r2 op h
  · exact r1 op h

theorem Logged.grows {w w' : World} (h : Logged r w w') : Grows w.repo.log w'.repo.log := by
  obtain ⟨ops, e, _⟩ := h
  rw [e]; exact grows_append _ _

theorem logged_bind {α β : Type} {x : W α} {f : α → W β} (hx : M.Keeps x (Logged r))
    (hf : ∀ a, M.Keeps (f a) (Logged r)) : M.Keeps (x >>= f) (Logged r) :=
  M.Keeps.bind (R := Logged r) (fun _ _ _ => Logged.trans) hx hf

theorem logged_still {α : Type} {x : W α} (h : ∀ w, (x w).2.repo.log = w.repo.log) : M.Keeps x (Logged r) :=
  fun w => Logged.same (h w)

theorem ensureMapped_log (i : ObjId) (w : World) : (ensureMapped C i w).2.repo.log = w.repo.log := by
  by_cases hm : (w.heap i).mapped = true
  · rw [ensureMapped_mapped hm]
  · have hc := ensureMapped_cases C i w (by simpa using hm)
    cases hx : ensureMapped C i w with
    | mk res w' =>
      rw [hx] at hc
      simp only at hc
      cases hc <;> assumption

theorem logged_ensure (i : ObjId) : M.Keeps (ensureMapped C i) (Logged r) := logged_still (ensureMapped_log i)

theorem logged_get (i : ObjId) : M.Keeps (getObj i) (Logged r) := logged_still fun _ => rfl

theorem logged_change (i : ObjId) (b : Body ObjId) : M.Keeps (change i b) (Logged r) :=
  logged_still fun w => by rw [change_run]; rfl

theorem logged_purge (n : Nat) (i : ObjId) : M.Keeps (purge n i) (Logged r) :=
  logged_still fun w => by rw [(purge_purged n i w).repo]

theorem logged_addChild (i : ObjId) (n : Str) (c : ObjId) : M.Keeps (addChild C i n c) (Logged r) := by
  unfold addChild
  refine logged_bind (M.Keeps.assert Logged.refl _) fun _ => ?_
  refine logged_bind (M.Keeps.assert Logged.refl _) fun _ => ?_
  refine logged_bind (logged_ensure i) fun _ => ?_
  refine logged_bind (logged_get i) fun o => ?_
  cases dget o.body.kids (.name n) with
  | some _ => exact M.Keeps.raise Logged.refl _
  | none => exact logged_change _ _

theorem logged_setVersioned (i : ObjId) (v t : Str) (p : PPath) (x : ObjId) :
    M.Keeps (setVersioned C i v t p x) (Logged r) := by
  unfold setVersioned
  refine logged_bind (logged_ensure i) fun _ => ?_
  exact logged_bind (logged_get i) fun o => logged_change _ _

theorem logged_write (hr : r ≠ []) (n : Nat) (force : Bool) (i : ObjId) :
    M.Keeps (writeOut C n (some r) force i) (Logged r) := fun w => (writeOut_any hr n force i w).log

theorem logged_settle (hr : r ≠ []) (n : Nat) (c : ObjId) : M.Keeps (settle C n (some r) c) (Logged r) := by
  unfold settle
  refine logged_bind (logged_write hr n false c) fun _ => ?_
  exact logged_bind (logged_purge n c) fun _ => M.Keeps.pure Logged.refl _

theorem logged_alloc (o : Obj) : M.Keeps (alloc o) (Logged r) := logged_still fun _ => rfl

theorem logged_copyRecord {cp : ObjId → W ObjId} (hcp : ∀ k, M.Keeps (cp k) (Logged r)) (pre : PPath) (c : ObjId)
    (e : Key × (Str × ObjId)) : M.Keeps (copyImpl.copyRecord C cp pre c e) (Logged r) := by
  unfold copyImpl.copyRecord
  refine logged_bind (hcp _) fun k => ?_
  cases e.1 <;> first | exact logged_setVersioned _ _ _ _ _ | exact M.Keeps.pure Logged.refl _

theorem logged_copyOpt {cp : ObjId → W ObjId} (hcp : ∀ k, M.Keeps (cp k) (Logged r)) (e : Option (Str × ObjId)) :
    M.Keeps (copyOpt cp e) (Logged r) := by
  cases e with
  | none => exact M.Keeps.pure Logged.refl _
  | some e => exact logged_bind (hcp _) fun k => M.Keeps.pure Logged.refl _

theorem logged_forEach {α β : Type} {f : α → W β} {l : List α} (hf : ∀ a ∈ l, M.Keeps (f a) (Logged r)) :
    M.Keeps (M.forEach f l) (Logged r) := M.Keeps.forEach (R := Logged r) Logged.refl (fun _ _ _ => Logged.trans) hf

theorem logged_copyImpl {cp : ObjId → W ObjId} (hr : r ≠ []) (hcp : ∀ k, M.Keeps (cp k) (Logged r)) (n : Nat)
    (pre : PPath) (b : Body ObjId) : M.Keeps (copyImpl C cp n (some r) pre b) (Logged r) := by
  unfold copyImpl
  cases b.data with
  | text s =>
    refine logged_bind (logged_alloc _) fun c => ?_
    exact logged_bind (logged_write hr n false c) fun _ => M.Keeps.pure Logged.refl _
  | metadata m => exact logged_bind (logged_alloc _) fun c => logged_settle hr n c
  | mtree leaf =>
    refine logged_bind (logged_alloc _) fun c => ?_
    refine logged_bind (logged_forEach fun e _ => ?_) fun _ => logged_settle hr n c
    exact logged_bind (hcp _) fun k => logged_addChild _ _ _
  | mrr id v =>
    refine logged_bind (logged_copyOpt hcp _) fun dlm => ?_
    refine logged_bind (logged_copyOpt hcp _) fun ft => ?_
    exact logged_bind (logged_alloc _) fun c => logged_settle hr n c
  | vlist =>
    refine logged_bind (logged_alloc _) fun c => ?_
    exact logged_bind (logged_forEach fun e _ => logged_copyRecord hcp pre c e) fun _ => logged_settle hr n c
  | tvl =>
    refine logged_bind (logged_alloc _) fun c => ?_
    exact logged_bind (logged_forEach fun e _ => logged_copyRecord hcp pre c e) fun _ => logged_settle hr n c
  | uuidset =>
    refine logged_bind (logged_alloc _) fun c => ?_
    refine logged_bind (logged_forEach fun e _ => ?_) fun _ => logged_settle hr n c
    exact logged_bind (hcp _) fun k => logged_still fun _ => rfl

theorem logged_deepcopy (hr : r ≠ []) (n : Nat) : ∀ (pre : PPath) (i : ObjId),
    M.Keeps (deepcopy C n (some r) pre i) (Logged r) := by
  induction n with
  | zero => intro pre i; exact M.Keeps.raise Logged.refl _
  | succ n ih =>
    intro pre i
    unfold deepcopy withMapped
    refine logged_bind (logged_ensure i) fun b => ?_
    have hx : M.Keeps (getObj i >>= fun o => copyImpl C (deepcopy C n (some r) (metadataPath [[]])) n (some r) pre o.body)
        (Logged r) := logged_bind (logged_get i) fun o => logged_copyImpl hr (ih _) n pre _
    cases b with
    | false => exact hx
    | true =>
      intro w
      have h1 := hx w
      simp only [if_true]
      unfold M.finally_
      cases hy : (getObj i >>= fun o => copyImpl C (deepcopy C n (some r) (metadataPath [[]])) n (some r) pre o.body) w with
      | mk res w1 =>
        rw [hy] at h1
        have h2 := logged_purge (r := r) n i w1
        simp only
        cases hz : purge n i w1 with
        | mk res2 w2 =>
          rw [hz] at h2
          cases res2 <;> exact h1.trans h2

/-! ### What can be copied -/

/-- Everything below an object can be stored: this is what `write_out` needs of what it
writes.  Texts are excluded, because a copied text is empty. -/
structure Keepable (C : Cfg) (L : Log) (h : Heap) (n : Node) : Prop where
  data : ∀ ks t t' d bl, look C L h ks t n = .found t' d bl → DataOk d ∧ d.kind ≠ .text
  slots : ∀ ks k t t' d bl t2 d2 bl2, look C L h ks t n = .found t' d bl →
    look C L h (ks ++ [k]) t n = .found t2 d2 bl2 → SlotOk d.kind k t2 d2.kind

theorem Keepable.of_same {L L' : Log} {h h' : Heap} {n m : Node} (hk : Keepable C L h n)
    (hs : SameContent C L h n L' h' m) : Keepable C L' h' m := by
  refine ⟨fun ks t t' d bl h => hk.data ks t t' d bl (by rw [hs]; exact h), ?_⟩
  intro ks k t t' d bl t2 d2 bl2 h1 h2
  exact hk.slots ks k t t' d bl t2 d2 bl2 (by rw [hs]; exact h1) (by rw [hs]; exact h2)

theorem look_keys {L : Log} {h : Heap} {n : Node} {ks : List Key} {t : Str} (hne : ks ≠ []) (t' : Str) :
    look C L h ks t n = look C L h ks t' n := by
  cases ks with
  | nil => exact absurd rfl hne
  | cons k ks => rfl

/-- A tree node without children has no parts. -/
theorem view_blank_kids {L : Log} {h : Heap} {n : Node} {b : Body Node} (hv : view C L h n = .ok b) (hb : b.blank = true)
    (k : Key) (ks : List Key) (t : Str) : look C L h (k :: ks) t n = .absent := by
  unfold Body.blank at hb
  rw [Bool.and_eq_true] at hb
  refine look_cons_none hv ?_
  rw [List.isEmpty_iff.mp hb.2]
  rfl

theorem blank_kind {κ : Type} {b : Body κ} (hb : b.blank = true) : b.data.kind.isMtree = true := by
  unfold Body.blank at hb
  rw [Bool.and_eq_true] at hb
  exact hb.1

theorem kind_tree_ok {d : Data} (h : d.kind.isMtree = true) : DataOk d ∧ d.kind ≠ .text := by
  cases d <;> first | exact ⟨trivial, by intro h; cases h⟩ | cases h

/-- The parts of what can be stored -/
theorem Keepable.kid {L : Log} {h : Heap} {i : ObjId} (hk : Keepable C L h (.mem i)) (hm : (h i).mapped = true)
    {k : Key} {t : Str} {c : ObjId} (hd : dget (h i).body.kids k = some (t, c)) :
    Keepable C L h (.mem c) := by
  have hv := view_mapped (C := C) (L := L) hm
  have hd' : dget ((h i).body.map Node.mem).kids k = some (t, .mem c) := by rw [Body.dget_map, hd]; rfl
  by_cases hft : k = .ft ∧ ∃ b', view C L h (.mem c) = .ok b' ∧ b'.blank = true
  · obtain ⟨_, b', hb, hbl⟩ := hft
    refine ⟨?_, ?_⟩
    · intro ks t1 t2 d bl hl
      cases ks with
      | nil => rw [look_nil _ hb] at hl; cases hl; exact kind_tree_ok (blank_kind hbl)
      | cons k' ks => rw [view_blank_kids hb hbl] at hl; cases hl
    · intro ks k' t1 t2 d bl t3 d2 bl2 _ h2
      cases ks with
      | nil => rw [List.nil_append, view_blank_kids hb hbl] at h2; cases h2
      | cons k2 ks => rw [List.cons_append, view_blank_kids hb hbl] at h2; cases h2
  · have hlook : ∀ ks t0, look C L h (k :: ks) t0 (.mem i) = look C L h ks t (.mem c) := by
      intro ks t0
      rw [look_cons hv, hd']
      simp only
      cases hc : view C L h (.mem c) with
      | error e => simp only; rw [look_missing_of_view hc]
      | ok b' =>
        simp only
        rw [if_neg (fun hh => hft ⟨hh.1, b', hc, hh.2⟩)]
    refine ⟨?_, ?_⟩
    · intro ks t1 t2 d bl hl
      cases ks with
      | nil =>
        have := hlook [] []
        obtain ⟨b', hb⟩ := view_ok_of_look (show look C L h [] t1 (.mem c) ≠ .missing by rw [hl]; simp)
        rw [look_nil _ hb] at hl this
        cases hl
        exact hk.data _ _ _ _ _ this
      | cons k' ks =>
        rw [look_keys (by simp) t, ← hlook _ []] at hl
        exact hk.data _ _ _ _ _ hl
    · intro ks k' t1 t2 d bl t3 d2 bl2 h1 h2
      have e2 := hlook (ks ++ [k']) []
      rw [look_keys (by simp) t, ← e2] at h2
      rw [← List.cons_append] at h2
      cases ks with
      | nil =>
        have := hlook [] []
        obtain ⟨b', hb⟩ := view_ok_of_look (show look C L h [] t1 (.mem c) ≠ .missing by rw [h1]; simp)
        rw [look_nil _ hb] at h1 this
        cases h1
        exact hk.slots _ _ _ _ _ _ _ _ _ this h2
      | cons k2 ks =>
        rw [look_keys (by simp) t, ← hlook _ []] at h1
        exact hk.slots _ _ _ _ _ _ _ _ _ h1 h2

/-- The slots of what can be stored -/
theorem Keepable.slot {w : World} (hs : Fine C w) {i : ObjId} (hk : Keepable C w.repo.log w.heap (.mem i))
    (hm : (w.heap i).mapped = true) (hft : FtTyped w.heap) {k : Key} {t : Str} {c : ObjId}
    (hd : dget (w.heap i).body.kids k = some (t, c)) : SlotOk (w.heap i).kind k t (w.heap c).kind := by
  have hv := view_mapped (C := C) (L := w.repo.log) hm
  have hd' : dget ((w.heap i).body.map Node.mem).kids k = some (t, .mem c) := by rw [Body.dget_map, hd]; rfl
  obtain ⟨b', hb⟩ := view_ok_of_look (hs.all c [] [])
  have hcls := view_class hb
  by_cases hbl : k = .ft ∧ b'.blank = true
  · obtain ⟨rfl, hbl⟩ := hbl
    have hfit := (hs.formed i hm).fits _ (mem_of_dget hd)
    have hst := fun h => (hs.formed i hm).stamps h _ (mem_of_dget hd)
    have hkd : (w.heap i).kind = .mrr := by
      unfold Obj.kind
      cases hx : (w.heap i).body.data.kind <;> rw [hx] at hfit <;> first | rfl | cases hfit
    rw [hkd]
    refine ⟨hst ?_, hft i hm hkd t c hd⟩
    unfold Obj.kind at hkd
    rw [hkd]; rfl
  · have h1 := look_nil (C := C) [] hv
    have h2 : look C w.repo.log w.heap ([] ++ [k]) [] (.mem i) = .found t b'.data b'.blank := by
      rw [List.nil_append, look_cons hv, hd']
      simp only
      rw [hb]
      simp only
      rw [if_neg hbl, look_nil _ hb]
    have := hk.slots [] k [] _ _ _ _ _ _ h1 h2
    rw [← hcls]
    exact this

/-! ### Copying the parts -/

/-- The object `c` of a state is a copy of the object `k` of an earlier state. -/
structure CopyOf (C : Cfg) (r : Realm) (w0 : World) (k : ObjId) (w : World) (c : ObjId) : Prop where
  lt : c < w.next
  stub : Stub r w c
  kind : (w.heap c).kind = (w0.heap k).kind
  content : SameContent C w0.repo.log w0.heap (.mem k) w.repo.log w.heap (.mem c)

theorem Stub.kept {w w' : World} {c : ObjId} (h : Stub r w c) (ha : AwayKept (w.heap c) (w'.heap c)) : Stub r w' c := by
  obtain ⟨ref, e1, e2⟩ := h.ref
  refine ⟨ha.mapped, ha.realm.trans h.realm, ha.marks r h.realm h.saved, ?_, by rw [ha.kind]; exact h.plain, 
    fun x hx => h.only x (ha.only x hx)⟩
  obtain ⟨ref', f1, f2⟩ := ha.ref
  rw [e1] at f1
  injection f1 with f1
  subst f1
  rw [ha.kind]
  rcases f2 with f2 | f2
  · exact ⟨ref, f2, e2⟩
  · exact ⟨_, f2, ⟨e2.loc, fun hk => by rw [hk]; exact Or.inl rfl⟩⟩

theorem CopyOf.pass {nm : Option Str} {w0 w w' : World} {k c : ObjId} (h : CopyOf C r w0 k w c)
    (hp : Pass C r nm w.next w w') : CopyOf C r w0 k w' c := by
  have ha := hp.away c h.lt h.stub.away
  exact ⟨Nat.lt_of_lt_of_le h.lt hp.next, h.stub.kept ha, ha.kind.trans h.kind, h.content.trans (hp.content c h.lt)⟩

/-- What copying a part must do. -/
def CpSpec (C : Cfg) (r : Realm) (cp : ObjId → W ObjId) : Prop :=
  ∀ k w w' c, Fine C w → w.caches = [] → FtTyped w.heap → Keepable C w.repo.log w.heap (.mem k) → k < w.next →
    pubName (w.heap k).kind = none → CollisionFree C w'.repo.log → cp k w = (.ok c, w') →
    Pass C r none w.next w w' ∧ w.next ≤ c ∧ CopyOf C r w k w' c

/-- The state while the parts `done` are copied into the new object `j`; `f` gives the
key of the copy. -/
structure Copying (C : Cfg) (r : Realm) (f : Key → Key) (w0 : World) (j : ObjId) (d : Data)
    (done : List (Key × (Str × ObjId))) (w : World) : Prop where
  pass : Pass C r none w0.next w0 w
  ge : w0.next ≤ j
  lt : j < w.next
  obj : ∃ ks, w.heap j = Obj.new ⟨d, ks⟩ ∧ Formed (⟨d, ks⟩ : Body ObjId) ∧
    (∀ e ∈ done, (dget ks (f e.1)).isSome = true) ∧
    (∀ k t c, dget ks k = some (t, c) → ∃ e ∈ done, k = f e.1 ∧ t = e.2.1 ∧ CopyOf C r w0 e.2.2 w c ∧ c ≠ j)

theorem copy_loop {f : Key → Key} {cp : ObjId → W ObjId} {ins : Key × (Str × ObjId) → ObjId → W Unit} {w0 : World}
    {j : ObjId} {d : Data} (hs0 : Fine C w0) (hca : w0.caches = []) (hft : FtTyped w0.heap) (hcp : CpSpec C r cp)
    (hlog : ∀ k, M.Keeps (cp k) (Logged r)) (hlogi : ∀ e c, M.Keeps (ins e c) (Logged r)) (hd : d.kind ≠ .mrr) :
    ∀ (l done : List (Key × (Str × ObjId))),
      (∀ e ∈ l, e.2.2 < w0.next ∧ Keepable C w0.repo.log w0.heap (.mem e.2.2) ∧
        pubName (w0.heap e.2.2).kind = none) →
      (∀ e ∈ l, ∀ c w w' u ks, w.heap j = Obj.new ⟨d, ks⟩ → Formed (⟨d, ks⟩ : Body ObjId) → ins e c w = (.ok u, w') →
        ∃ ks', w' = MM.edit j ⟨d, ks'⟩ w ∧ Formed (⟨d, ks'⟩ : Body ObjId) ∧
          ∀ k, dget ks' k = if f e.1 = k then some (e.2.1, c) else dget ks k) →
      ∀ (w w' : World) us, Copying C r f w0 j d done w →
        M.forEach (fun e => cp e.2.2 >>= fun k => ins e k) l w = (.ok us, w') → CollisionFree C w'.repo.log →
        Copying C r f w0 j d (done ++ l) w' := by
  intro l
  induction l with
  | nil =>
    intro done _ _ w w' us hc h _
    cases h
    rw [List.append_nil]; exact hc
  | cons e l ih =>
    intro done hl hins w w' us hc h hcf
    rw [M.forEach_cons] at h
    obtain ⟨u, w2, h1, h2⟩ := M.bind_ok h
    obtain ⟨us', w3, h3, h4⟩ := M.bind_ok h2
    cases h4
    obtain ⟨c, w1, h5, h6⟩ := M.bind_ok h1
    obtain ⟨g1, g2, g3⟩ := hl e (List.mem_cons_self ..)
    have hrest : M.Keeps (M.forEach (fun e => cp e.2.2 >>= fun k => ins e k) l) (Logged r) :=
      logged_forEach fun e _ => logged_bind (hlog _) fun k => hlogi _ _
    have hcf2 : CollisionFree C w2.repo.log := by
      have := hrest w2
      rw [h3] at this
      exact hcf.mono this.grows
    have hcf1 : CollisionFree C w1.repo.log := by
      have := hlogi e c w1
      rw [h6] at this
      exact hcf2.mono this.grows
    obtain ⟨p1, hge, hcopy⟩ := hcp e.2.2 w w1 c hc.pass.fine (hc.pass.caches hca) (hc.pass.typed hft)
      (g2.of_same (hc.pass.content _ g1)) (Nat.lt_of_lt_of_le g1 hc.pass.next)
      (by rw [hc.pass.kind g1]; exact g3) hcf1 h5
    obtain ⟨ks, k1, k2, k3, k4⟩ := hc.obj
    have hj1 : w1.heap j = Obj.new ⟨d, ks⟩ := by rw [p1.loaded j hc.lt (by rw [k1]; rfl), k1]
    obtain ⟨ks', rfl, m2, m3⟩ := hins e (List.mem_cons_self ..) c w1 w2 u ks hj1 k2 h6
    have hcj : c ≠ j := by have := hc.lt; oomega
    have hcopy0 : CopyOf C r w0 e.2.2 w1 c :=
      ⟨hcopy.lt, hcopy.stub, hcopy.kind.trans (hc.pass.kind g1), (hc.pass.content _ g1).trans hcopy.content⟩
    have pass1 : Pass C r none w0.next w0 w1 := hc.pass.trans (p1.mono hc.pass.next)
    -- the parts of the new object
    have hparts : ∀ k t c', dget ks' k = some (t, c') →
        ∃ e' ∈ done ++ [e], k = f e'.1 ∧ t = e'.2.1 ∧ CopyOf C r w0 e'.2.2 w1 c' ∧ c' ≠ j := by
      intro k t c' hk
      rw [m3] at hk
      by_cases hke : f e.1 = k
      · rw [if_pos hke] at hk
        cases hk
        exact ⟨e, by simp, hke.symm, rfl, hcopy0, hcj⟩
      · rw [if_neg hke] at hk
        obtain ⟨e', q1, q2, q3, q4, q5⟩ := k4 k t c' hk
        exact ⟨e', by simp [q1], q2, q3, q4.pass p1, q5⟩
    have hsubs : ∀ k ∈ (⟨d, ks'⟩ : Body ObjId).subs, k < w1.next ∧ k ≠ j ∧ (w1.heap k).mapped = false := by
      intro k hk
      obtain ⟨x, hx, rfl⟩ := List.mem_map.mp hk
      obtain ⟨_, _, _, _, q4, q5⟩ := hparts x.1 x.2.1 x.2.2 (dget_of_mem m2.keys (k := x.1) (v := x.2) hx)
      exact ⟨q4.lt, q5, q4.stub.away⟩
    have p2 : Pass C r none w0.next w1 (MM.edit j ⟨d, ks'⟩ w1) := by
      refine Pass.edit p1.fine hc.ge (Nat.lt_of_lt_of_le hc.lt p1.next) (by rw [hj1]; rfl) m2 (fun k hk => (hsubs k hk).1) ?_ ?_ (by rw [hj1]; rfl) hd
      · intro k hk hr
        obtain ⟨_, q2, q3⟩ := hsubs k hk
        exact q2 (reach_unmapped q3 hr).symm
      · intro x hx hr
        exact absurd (pass1.reach hs0 hr hx) (Nat.not_lt.mpr hc.ge)
    have hnew : Copying C r f w0 j d (done ++ [e]) (MM.edit j ⟨d, ks'⟩ w1) := by
      refine ⟨pass1.trans p2, hc.ge, Nat.lt_of_lt_of_le hc.lt p1.next, ks', ?_, m2, ?_, ?_⟩
      · rw [edit_self, hj1]; rfl
      · intro e' he'
        rw [m3]
        by_cases hke : f e.1 = f e'.1
        · rw [if_pos hke]; rfl
        · rw [if_neg hke]
          rcases List.mem_append.mp he' with he' | he'
          · exact k3 e' he'
          · rw [List.mem_singleton] at he'; subst he'; exact absurd rfl hke
      · intro k t c' hk
        obtain ⟨e', q1, q2, q3, q4, q5⟩ := hparts k t c' hk
        refine ⟨e', q1, q2, q3, ⟨q4.lt, ?_, ?_, ?_⟩, q5⟩
        · have e1 := edit_ne (⟨d, ks'⟩ : Body ObjId) w1 q5
          exact ⟨by rw [e1]; exact q4.stub.away, by rw [e1]; exact q4.stub.realm, by rw [e1]; exact q4.stub.saved,
            by rw [e1]; exact q4.stub.ref, by rw [e1]; exact q4.stub.plain, by rw [e1]; exact q4.stub.only⟩
        · rw [edit_ne _ _ q5]; exact q4.kind
        · exact q4.content.trans (content_edit fun hr => q5 (reach_unmapped q4.stub.away hr).symm)
    have := ih (done ++ [e]) (fun e' he' => hl e' (List.mem_cons_of_mem _ he'))
      (fun e' he' => hins e' (List.mem_cons_of_mem _ he')) _ w' us' hnew h3 hcf
    rw [List.append_assoc, List.singleton_append] at this
    exact this

/-! ### What the copy contains -/

/-- The copy `c` in `w'` of the object `i` in `w`: the same, under the keys that `f`
gives.  `P` says which keys are meant. -/
structure Copied (C : Cfg) (P : Key → Prop) (f : Key → Key) (w : World) (i : ObjId) (w' : World) (c : ObjId) :
    Prop where
  root : ∀ t, look C w'.repo.log w'.heap [] t (.mem c) = look C w.repo.log w.heap [] t (.mem i)
  parts : ∀ k, P k → ∀ ks t,
    look C w'.repo.log w'.heap (f k :: ks) t (.mem c) = look C w.repo.log w.heap (k :: ks) t (.mem i)
  only : ∀ k ks t, look C w'.repo.log w'.heap (k :: ks) t (.mem c) ≠ .absent → ∃ k0, P k0 ∧ k = f k0

theorem Copied.right {P : Key → Prop} {f : Key → Key} {w w' w'' : World} {i c c' : ObjId}
    (h : Copied C P f w i w' c) (hs : SameContent C w'.repo.log w'.heap (.mem c) w''.repo.log w''.heap (.mem c')) :
    Copied C P f w i w'' c' :=
  ⟨fun t => (hs [] t).symm.trans (h.root t), fun k hk ks t => (hs _ t).symm.trans (h.parts k hk ks t),
   fun k ks t hne => h.only k ks t (by rw [hs]; exact hne)⟩

theorem Copied.left {P : Key → Prop} {f : Key → Key} {w0 w w' : World} {i0 i c : ObjId}
    (hs : SameContent C w0.repo.log w0.heap (.mem i0) w.repo.log w.heap (.mem i)) (h : Copied C P f w i w' c) :
    Copied C P f w0 i0 w' c :=
  ⟨fun t => (h.root t).trans (hs [] t).symm, fun k hk ks t => (h.parts k hk ks t).trans (hs _ t).symm, h.only⟩

/-- An object with copies of the parts of another one, at the keys that `f` gives -/
theorem look_copied {P : Key → Prop} {f : Key → Key} (hinj : ∀ k k', P k → P k' → f k = f k' → k = k')
    (hft : ∀ k, f k = .ft ↔ k = .ft) {w0 w : World} {i j : ObjId} {d : Data} {ks : List (Key × (Str × ObjId))}
    (hs : Fine C w0) (hm : (w0.heap i).mapped = true) (hdat : (w0.heap i).body.data = d)
    (hobj : w.heap j = Obj.new ⟨d, ks⟩) (hP : ∀ e ∈ (w0.heap i).body.kids, P e.1)
    (hfwd : ∀ e ∈ (w0.heap i).body.kids, (dget ks (f e.1)).isSome = true)
    (hbwd : ∀ k t c, dget ks k = some (t, c) → ∃ e ∈ (w0.heap i).body.kids, k = f e.1 ∧ t = e.2.1 ∧
      SameContent C w0.repo.log w0.heap (.mem e.2.2) w.repo.log w.heap (.mem c)) :
    Copied C P f w0 i w j := by
  have hmj : (w.heap j).mapped = true := by rw [hobj]; rfl
  have hbj : (w.heap j).body = ⟨d, ks⟩ := by rw [hobj]; rfl
  have hv := view_mapped (C := C) (L := w0.repo.log) hm
  have hv' := view_mapped (C := C) (L := w.repo.log) hmj
  have hform := hs.formed i hm
  refine ⟨?_, ?_, ?_⟩
  · intro t
    rw [look_nil _ hv, look_nil _ hv', hbj]
    have he : ks.isEmpty = (w0.heap i).body.kids.isEmpty := by
      cases hk : (w0.heap i).body.kids with
      | nil =>
        cases hks : ks with
        | nil => rfl
        | cons x l =>
          have : dget ks x.1 = some (x.2.1, x.2.2) := by rw [hks]; simp [dget]
          obtain ⟨e, he, _⟩ := hbwd _ _ _ this
          rw [hk] at he; cases he
      | cons x l =>
        cases hks : ks with
        | nil =>
          have := hfwd x (by rw [hk]; exact List.mem_cons_self ..)
          rw [hks] at this; cases this
        | cons y l' => rfl
    have hb1 : ((w0.heap i).body.map Node.mem).data = d := hdat
    have hb2 : ((w0.heap i).body.map Node.mem).blank = (Body.map Node.mem (⟨d, ks⟩ : Body ObjId)).blank := by
      unfold Body.blank
      rw [hb1]
      unfold Body.map
      simp only [List.isEmpty_map]
      rw [he]
    rw [hb2, hb1]
    rfl
  · intro k hk ks' t
    cases hd : dget (w0.heap i).body.kids k with
    | none =>
      have h1 : dget ks (f k) = none := by
        cases hx : dget ks (f k) with
        | none => rfl
        | some x =>
          obtain ⟨e, he, h2, _⟩ := hbwd (f k) x.1 x.2 hx
          have := hinj _ _ hk (hP e he) h2
          rw [this, dget_of_mem hform.keys (k := e.1) (v := e.2) he] at hd
          cases hd
      rw [look_cons_none hv (by rw [Body.dget_map, hd]; rfl),
        look_cons_none hv' (by rw [Body.dget_map, hbj, h1]; rfl)]
    | some x =>
      obtain ⟨t0, c0⟩ := x
      have hmem := mem_of_dget hd
      have h1 := hfwd _ hmem
      cases hx : dget ks (f k) with
      | none => rw [show dget ks (f (k, t0, c0).1) = none from hx] at h1; cases h1
      | some y =>
        obtain ⟨t1, c1⟩ := y
        obtain ⟨e, he, h2, h3, h4⟩ := hbwd (f k) t1 c1 hx
        have hke := hinj _ _ hk (hP e he) h2
        have hde := dget_of_mem hform.keys (k := e.1) (v := e.2) he
        rw [← hke, hd] at hde
        injection hde with hde
        have e1 : t0 = e.2.1 := by rw [← hde]
        have e2 : c0 = e.2.2 := by rw [← hde]
        rw [← e1] at h3
        rw [← e2] at h4
        subst h3
        obtain ⟨b1, hb1⟩ := view_ok_of_look (hs.all c0 [] [])
        have h0 := h4 [] []
        rw [look_nil [] hb1] at h0
        obtain ⟨b2, hb2⟩ := view_ok_of_look (C := C) (L := w.repo.log) (h := w.heap) (n := .mem c1)
          (ks := []) (t := []) (by rw [← h0]; simp)
        rw [look_nil [] hb2] at h0
        injection h0 with _ _ h0
        rw [look_cons hv, look_cons hv', Body.dget_map, Body.dget_map, hbj, hx, hd]
        simp only [Option.map_some]
        rw [hb1, hb2]
        simp only
        rw [← h0, ← h4 ks' t1]
        simp only [hft]
  · intro k ks' t hne
    cases hd : dget ks k with
    | none =>
      exact absurd (look_cons_none hv' (by rw [Body.dget_map, hbj, hd]; rfl)) hne
    | some x =>
      obtain ⟨e, he, h2, _⟩ := hbwd k x.1 x.2 hd
      exact ⟨e.1, hP e he, h2⟩

end MM
