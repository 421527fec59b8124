/-
Steps of writing that do not touch objects: storing blobs and trees, blob caches,
recorded references.
-/
import Verif.Store

namespace MM

/-- Objects stay as they are, stored things stay stored, names stay as they are. -/
structure Quiet (w w' : World) : Prop where
  heap : w'.heap = w.heap
  next : w'.next = w.next
  grows : Grows w.eff w'.eff
  refs : ∀ r n, refOf w'.repo.log r n = refOf w.repo.log r n
  caches : (dkeys w.caches).Nodup → (dkeys w'.caches).Nodup

theorem Quiet.refl (w : World) : Quiet w w := ⟨rfl, rfl, Grows.refl _, fun _ _ => rfl, id⟩

theorem Quiet.trans {a b c : World} (h : Quiet a b) (h' : Quiet b c) : Quiet a c :=
  ⟨h'.heap.trans h.heap, h'.next.trans h.next, h.grows.trans h'.grows,
   fun r n => (h'.refs r n).trans (h.refs r n), fun x => h'.caches (h.caches x)⟩

theorem stored_eff {w : World} {r : Realm} {o : GitObj} :
    Stored w.eff r o ↔ Stored (pending w.caches) r o ∨ Stored w.repo.log r o := List.mem_append

/-- A git command that only stores objects. -/
theorem gitCmd_quiet {α : Type} {cmd : Log → List GitOp × Except PyErr α} {w w' : World} {a : α}
    (h : liftG (gitCmd cmd) w = (.ok a, w')) (hs : ∀ L, SavesOnly (cmd L).1) :
    Quiet w w' ∧ (cmd w.repo.log).2 = .ok a ∧
      (∀ op ∈ (cmd w.repo.log).1, op ∈ w'.repo.log) ∧ w'.caches = w.caches := by
  obtain ⟨s, hs1, rfl⟩ := liftG_ok h
  obtain ⟨h1, h2⟩ := gitCmd_ok hs1
  refine ⟨⟨rfl, rfl, ?_, ?_, id⟩, h1, ?_, rfl⟩
  · intro r o ho
    rw [stored_eff] at ho ⊢
    rcases ho with ho | ho
    · exact Or.inl ho
    · right
      show Stored s.log r o
      rw [h2]
      exact stored_append ho
  · intro r n
    show refOf s.log r n = _
    rw [h2]
    refine refOf_append_saves ?_ _ r n
    intro op hop
    exact hs _ op (List.mem_reverse.mp hop)
  · intro op hop
    show op ∈ s.log
    rw [h2]
    exact List.mem_append_left _ (List.mem_reverse.mpr hop)

theorem gitSaveStr_quiet {C : Cfg} {r : Realm} {s : Str} {w w' : World} {h : Str}
    (hr : liftG (gitSaveStr C r s) w = (.ok h, w')) :
    Quiet w w' ∧ h = C.hash (.blob s) ∧ Stored w'.eff r (.blob s) ∧ w'.caches = w.caches := by
  obtain ⟨h1, h2, h3, h4⟩ := gitCmd_quiet hr (fun L op ho => by
    simp at ho; exact ⟨_, _, ho⟩)
  injection h2 with h2
  exact ⟨h1, h2.symm, stored_eff.mpr (Or.inr (h3 _ (List.mem_cons_self ..))), h4⟩

theorem gitSaveTree_quiet {C : Cfg} {r : Realm} {es : List TreeEntry} {w w' : World} {h : Str}
    (hr : liftG (gitSaveTree C r es) w = (.ok h, w')) :
    Quiet w w' ∧ (∃ es', mktree (treeSpec es) = some es' ∧ h = C.hash (.tree es') ∧
      Stored w'.eff r (.tree es')) ∧ w'.caches = w.caches := by
  obtain ⟨h1, h2, h3, h4⟩ := gitCmd_quiet hr (fun L op ho => by
    revert ho
    split
    · intro ho; simp at ho; exact ⟨_, _, ho⟩
    · intro ho; simp at ho)
  refine ⟨h1, ?_, h4⟩
  cases hm : mktree (treeSpec es) with
  | none => simp [hm] at h2
  | some es' =>
    simp only [hm] at h2 h3
    injection h2 with h2
    exact ⟨es', rfl, h2.symm, stored_eff.mpr (Or.inr (h3 _ (List.mem_cons_self ..)))⟩

/-! ### Blob caches -/

theorem mem_dset_iff {α β : Type} [DecidableEq α] {d : List (α × β)} (hn : (dkeys d).Nodup) {k : α}
    {v : β} {e : α × β} : e ∈ dset d k v ↔ e = (k, v) ∨ (e ∈ d ∧ e.1 ≠ k) := by
  induction d with
  | nil => simp [dset]
  | cons p d ih =>
    obtain ⟨a, b⟩ := p
    have hn' : a ∉ dkeys d ∧ (dkeys d).Nodup := by simpa [dkeys] using hn
    by_cases ha : a = k
    · subst ha
      simp only [dset, if_true, List.mem_cons]
      constructor
      · rintro (h | h)
        · exact Or.inl h
        · refine Or.inr ⟨Or.inr h, ?_⟩
          intro he
          exact hn'.1 (he ▸ List.mem_map.mpr ⟨e, h, rfl⟩)
      · rintro (h | ⟨h | h, hne⟩)
        · exact Or.inl h
        · subst h; exact absurd rfl hne
        · exact Or.inr h
    · simp only [dset, ha, if_false, List.mem_cons, ih hn'.2]
      constructor
      · rintro (h | h | h)
        · subst h; exact Or.inr ⟨Or.inl rfl, ha⟩
        · exact Or.inl h
        · exact Or.inr ⟨Or.inr h.1, h.2⟩
      · rintro (h | ⟨h | h, hne⟩)
        · exact Or.inr (Or.inl h)
        · exact Or.inl h
        · exact Or.inr (Or.inr ⟨h, hne⟩)

theorem mem_ddel_iff {α β : Type} [DecidableEq α] {d : List (α × β)} (hn : (dkeys d).Nodup) {k : α}
    {e : α × β} : e ∈ ddel d k ↔ e ∈ d ∧ e.1 ≠ k := by
  induction d with
  | nil => simp [ddel]
  | cons p d ih =>
    obtain ⟨a, b⟩ := p
    have hn' : a ∉ dkeys d ∧ (dkeys d).Nodup := by simpa [dkeys] using hn
    by_cases ha : a = k
    · subst ha
      simp only [ddel, if_true, List.mem_cons]
      constructor
      · intro h
        refine ⟨Or.inr h, ?_⟩
        intro he
        exact hn'.1 (he ▸ List.mem_map.mpr ⟨e, h, rfl⟩)
      · rintro ⟨h | h, hne⟩
        · subst h; exact absurd rfl hne
        · exact h
    · simp only [ddel, ha, if_false, List.mem_cons, ih hn'.2]
      constructor
      · rintro (h | h)
        · subst h; exact ⟨Or.inl rfl, ha⟩
        · exact ⟨Or.inr h.1, h.2⟩
      · rintro ⟨h | h, hne⟩
        · exact Or.inl h
        · exact Or.inr ⟨h, hne⟩

/-- Flushing a cache moves the pending blobs to the repository. -/
theorem flushCache_quiet {C : Cfg} {r : Realm} {w w' : World} (hn : (dkeys w.caches).Nodup)
    (h : flushCache C r w = (.ok (), w')) :
    Quiet w w' ∧ ((dget w.caches r).isSome → dget w'.caches r = some []) ∧
      dkeys w'.caches = dkeys w.caches := by
  unfold flushCache at h
  obtain ⟨w1, s1, e1, h⟩ := M.bind_ok h
  simp only [M.get_run, Prod.mk.injEq, Except.ok.injEq] at e1
  obtain ⟨rfl, rfl⟩ := e1
  cases hd : dget w.caches r with
  | none =>
    simp only [hd, M.pure_run, Prod.mk.injEq, true_and] at h
    subst h
    exact ⟨Quiet.refl _, by simp, rfl⟩
  | some bs =>
    simp only [hd] at h
    obtain ⟨hs, s2, e2, h⟩ := M.bind_ok h
    obtain ⟨q1, _, q3, q4⟩ := gitCmd_quiet e2 (fun L op ho => by
      simp at ho; obtain ⟨s, _, rfl⟩ := ho; exact ⟨_, _, rfl⟩)
    simp only [M.modify_run, Prod.mk.injEq, true_and] at h
    subst h
    have hk : r ∈ dkeys w.caches := dget_isSome.mp (by rw [hd]; rfl)
    have hkeys : dkeys (dset s2.caches r []) = dkeys w.caches := by
      rw [dkeys_dset, q4, if_pos hk]
    refine ⟨⟨q1.heap, q1.next, ?_, q1.refs, ?_⟩, ?_, ?_⟩
    · intro x o ho
      rw [stored_eff] at ho ⊢
      simp only
      rcases ho with ho | ho
      · rw [stored_pending] at ho
        obtain ⟨bs', s, hm, hs, rfl⟩ := ho
        by_cases hx : x = r
        · subst hx
          have := dget_of_mem hn hm
          rw [hd] at this
          injection this with this
          subst this
          right
          exact q3 _ (List.mem_map.mpr ⟨s, hs, rfl⟩)
        · left
          rw [stored_pending]
          refine ⟨bs', s, ?_, hs, rfl⟩
          rw [q4, mem_dset_iff hn]
          exact Or.inr ⟨hm, hx⟩
      · rcases stored_eff.mp (q1.grows x o (stored_eff.mpr (Or.inr ho))) with h' | h'
        · -- already in the log before; it stays there
          right
          obtain ⟨s, hs1, hw⟩ := liftG_ok e2
          obtain ⟨_, h2⟩ := gitCmd_ok hs1
          subst hw
          show Stored s.log x o
          rw [h2]
          exact stored_append ho
        · exact Or.inr h'
    · intro _
      simp only [hkeys]
      exact hn
    · intro _
      simp
    · exact hkeys

theorem cacheBlob_quiet {C : Cfg} {r : Realm} {s : Str} {w w' : World} {h : Str}
    (hn : (dkeys w.caches).Nodup) (hr : cacheBlob C r s w = (.ok h, w')) :
    Quiet w w' ∧ h = C.hash (.blob s) ∧ Stored w'.eff r (.blob s) ∧
      ((dget w.caches r).isSome → dkeys w'.caches = dkeys w.caches) := by
  unfold cacheBlob at hr
  obtain ⟨w1, s1, e1, hr⟩ := M.bind_ok hr
  simp only [M.get_run, Prod.mk.injEq, Except.ok.injEq] at e1
  obtain ⟨rfl, rfl⟩ := e1
  have main : ∀ w1, Quiet w w1 → ((dkeys w1.caches) = dkeys w.caches) →
      ((do M.modify fun w => { w with caches := dset w.caches r ((dget w.caches r).getD [] ++ [s]) }
           pure (C.hash (.blob s))) : W Str) w1 = (.ok h, w') →
      Quiet w w' ∧ h = C.hash (.blob s) ∧ Stored w'.eff r (.blob s) ∧
      ((dget w.caches r).isSome → dkeys w'.caches = dkeys w.caches) := by
    intro w1 q hk hr
    obtain ⟨u, s2, e2, hr⟩ := M.bind_ok hr
    simp only [M.modify_run, Prod.mk.injEq, true_and] at e2
    subst e2
    simp only [M.pure_run, Prod.mk.injEq, Except.ok.injEq] at hr
    obtain ⟨rfl, rfl⟩ := hr
    have hn1 : (dkeys w1.caches).Nodup := by rw [hk]; exact hn
    refine ⟨q.trans ⟨rfl, rfl, ?_, fun _ _ => rfl, fun hh => nodup_dset hh _ _⟩, rfl, ?_, ?_⟩
    · intro x o ho
      rw [stored_eff] at ho ⊢
      rcases ho with ho | ho
      · left
        rw [stored_pending] at ho ⊢
        obtain ⟨bs', s', hm, hs, rfl⟩ := ho
        by_cases hx : x = r
        · subst hx
          refine ⟨_, s', (mem_dset_iff hn1).mpr (Or.inl rfl), ?_, rfl⟩
          rw [dget_of_mem hn1 hm]
          simp [hs]
        · exact ⟨bs', s', (mem_dset_iff hn1).mpr (Or.inr ⟨hm, hx⟩), hs, rfl⟩
      · exact Or.inr ho
    · rw [stored_eff, stored_pending]
      left
      exact ⟨_, s, (mem_dset_iff hn1).mpr (Or.inl rfl), by simp, rfl⟩
    · intro hs
      show dkeys (dset w1.caches r _) = _
      rw [dkeys_dset, if_pos, hk]
      rw [hk]
      exact dget_isSome.mp hs
  by_cases hlen : ((dget w.caches r).getD []).length = C.maxsize
  · simp only [hlen, if_true] at hr
    obtain ⟨u, w1, e2, hr⟩ := M.bind_ok hr
    obtain ⟨q, _, hk⟩ := flushCache_quiet hn e2
    exact main w1 q hk hr
  · simp only [hlen, if_false] at hr
    exact main w (Quiet.refl w) rfl hr

theorem saveBlob_quiet {C : Cfg} {r : Realm} {s : Str} {w w' : World} {h : Str}
    (hn : (dkeys w.caches).Nodup) (hr : saveBlob C r s w = (.ok h, w')) :
    Quiet w w' ∧ h = C.hash (.blob s) ∧ Stored w'.eff r (.blob s) ∧
      dkeys w'.caches = dkeys w.caches := by
  unfold saveBlob at hr
  obtain ⟨w1, s1, e1, hr⟩ := M.bind_ok hr
  simp only [M.get_run, Prod.mk.injEq, Except.ok.injEq] at e1
  obtain ⟨rfl, rfl⟩ := e1
  cases hd : dget w.caches r with
  | none =>
    simp only [hd] at hr
    obtain ⟨q1, q2, q3, q4⟩ := gitSaveStr_quiet hr
    exact ⟨q1, q2, q3, by rw [q4]⟩
  | some bs =>
    simp only [hd] at hr
    obtain ⟨q1, q2, q3, q4⟩ := cacheBlob_quiet hn hr
    exact ⟨q1, q2, q3, q4 (by rw [hd]; rfl)⟩

theorem addRef_quiet {b : Bool} {h : Option Str} {w w' : World} (hr : addRef b h w = (.ok (), w')) :
    Quiet w w' ∧ w'.caches = w.caches := by
  unfold addRef at hr
  cases h with
  | none => simp at hr
  | some h =>
    simp only at hr
    split at hr
    · injection hr with _ hr
      subst hr
      exact ⟨Quiet.refl _, rfl⟩
    · injection hr with _ hr
      subst hr
      exact ⟨⟨rfl, rfl, Grows.refl _, fun _ _ => rfl, id⟩, rfl⟩

theorem saveMetadata_quiet {C : Cfg} {r : Realm} {m : Sets} {w w' : World} {ref : Ref}
    (hn : (dkeys w.caches).Nodup) (hr : saveMetadata C r m w = (.ok ref, w')) :
    Quiet w w' ∧ ref = ⟨c!"Metadata", some (C.hash (.blob (Ref.toText C.floats
      ⟨c!"Metadata", some (C.hash (.blob (m.toText C.floats)))⟩)))⟩ ∧
      Stored w'.eff r (.blob (m.toText C.floats)) ∧
      Stored w'.eff r (.blob (Ref.toText C.floats
        ⟨c!"Metadata", some (C.hash (.blob (m.toText C.floats)))⟩)) ∧
      dkeys w'.caches = dkeys w.caches := by
  unfold saveMetadata at hr
  obtain ⟨h1, w1, e1, hr⟩ := M.bind_ok hr
  obtain ⟨q1, rfl, s1, k1⟩ := saveBlob_quiet hn e1
  obtain ⟨u, w2, e2, hr⟩ := M.bind_ok hr
  obtain ⟨q2, k2⟩ := addRef_quiet e2
  obtain ⟨h3, w3, e3, hr⟩ := M.bind_ok hr
  have hn2 : (dkeys w2.caches).Nodup := by rw [k2, k1]; exact hn
  obtain ⟨q3, rfl, s3, k3⟩ := saveBlob_quiet hn2 e3
  simp only [M.pure_run, Prod.mk.injEq, Except.ok.injEq] at hr
  obtain ⟨rfl, rfl⟩ := hr
  exact ⟨(q1.trans q2).trans q3, rfl, q3.grows _ _ (q2.grows _ _ s1), s3, by rw [k3, k2, k1]⟩

theorem cacheRealm_quiet {r : Realm} {w w' : World} (hr : cacheRealm r w = (.ok (), w')) :
    Quiet w w' ∧ dget w.caches r = none ∧ w'.caches = w.caches ++ [(r, [])] := by
  unfold cacheRealm at hr
  cases hd : dget w.caches r with
  | some bs => simp [hd] at hr
  | none =>
    simp only [hd] at hr
    injection hr with _ hr
    subst hr
    refine ⟨⟨rfl, rfl, ?_, fun _ _ => rfl, ?_⟩, rfl, rfl⟩
    · intro x o ho
      rw [stored_eff] at ho ⊢
      rcases ho with ho | ho
      · left
        rw [stored_pending] at ho ⊢
        obtain ⟨bs, s, hm, hs, rfl⟩ := ho
        exact ⟨bs, s, List.mem_append_left _ hm, hs, rfl⟩
      · exact Or.inr ho
    · intro hn
      have := nodup_dset hn r ([] : List Str)
      rw [dset_of_not_mem (dget_eq_none.mp hd)] at this
      exact this

theorem flushRealm_quiet {C : Cfg} {r : Realm} {w w' : World} (hn : (dkeys w.caches).Nodup)
    (hr : flushRealm C r w = (.ok (), w')) :
    Quiet w w' ∧ dkeys w'.caches = dkeys (ddel w.caches r) := by
  unfold flushRealm at hr
  obtain ⟨w1, s1, e1, hr⟩ := M.bind_ok hr
  simp only [M.get_run, Prod.mk.injEq, Except.ok.injEq] at e1
  obtain ⟨rfl, rfl⟩ := e1
  cases hd : dget w.caches r with
  | none => simp [hd] at hr
  | some bs =>
    simp only [hd] at hr
    obtain ⟨u, w2, e2, hr⟩ := M.bind_ok hr
    obtain ⟨q, h0, hk⟩ := flushCache_quiet hn e2
    have h0 := h0 (by rw [hd]; rfl)
    have hn2 : (dkeys w2.caches).Nodup := by rw [hk]; exact hn
    simp only [M.modify_run, Prod.mk.injEq, true_and] at hr
    subst hr
    refine ⟨q.trans ⟨rfl, rfl, ?_, fun _ _ => rfl, fun hh => nodup_ddel hh r⟩, ?_⟩
    · intro x o ho
      rw [stored_eff] at ho ⊢
      rcases ho with ho | ho
      · left
        rw [stored_pending] at ho ⊢
        obtain ⟨bs', s, hm, hs, rfl⟩ := ho
        refine ⟨bs', s, (mem_ddel_iff hn2).mpr ⟨hm, ?_⟩, hs, rfl⟩
        rintro rfl
        have := dget_of_mem hn2 hm
        rw [h0] at this
        injection this with this
        subst this
        simp at hs
      · exact Or.inr ho
    · show dkeys (ddel w2.caches r) = _
      have : ∀ (a b : List (Realm × List Str)), dkeys a = dkeys b →
          dkeys (ddel a r) = dkeys (ddel b r) := by
        intro a
        induction a with
        | nil => intro b h; cases b with
          | nil => rfl
          | cons => simp [dkeys] at h
        | cons p a ih =>
          intro b h
          cases b with
          | nil => simp [dkeys] at h
          | cons q b =>
            obtain ⟨p1, p2⟩ := p
            obtain ⟨q1, q2⟩ := q
            simp only [dkeys, List.map_cons, List.cons.injEq] at h
            obtain ⟨rfl, h⟩ := h
            simp only [ddel]
            split
            · exact h
            · simp only [dkeys, List.map_cons, List.cons.injEq, true_and]
              exact ih b h
      exact this _ _ hk

end MM
