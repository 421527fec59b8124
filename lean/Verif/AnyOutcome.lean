/-
What writing does whatever its outcome: it may fail at any git command.
-/
import Verif.Quiet

namespace MM

/-- The repository that a change is made to. -/
def GitOp.realm : GitOp → Realm
  | .save r _ => r
  | .setRef r _ _ => r
  | .delRef r _ => r

/-- Changes by writing to the repository `r`, whatever the outcome: objects show the
same, they are marked as saved on `r` only, and only `r` is written. -/
structure Any (r : Realm) (w w' : World) : Prop where
  same : ∀ j, SameObj (w.heap j) (w'.heap j)
  saved : ∀ j x, x ∈ (w.heap j).savedOn → x ∈ (w'.heap j).savedOn
  other : ∀ j x, x ≠ r → x ∈ (w'.heap j).savedOn → x ∈ (w.heap j).savedOn
  realm : ∀ j, (w'.heap j).realm = (w.heap j).realm ∨ (w'.heap j).realm = some r
  home : ∀ j, r ∈ (w'.heap j).savedOn → r ∈ (w.heap j).savedOn ∨ (w'.heap j).realm = some r
  next : w'.next = w.next
  log : ∃ ops, w'.repo.log = ops ++ w.repo.log ∧ ∀ op ∈ ops, op.realm = r
  caches : ∀ x, x ≠ r → dget w'.caches x = dget w.caches x
  nodup : (dkeys w.caches).Nodup → (dkeys w'.caches).Nodup
  grows : (dkeys w.caches).Nodup → Grows w.eff w'.eff

theorem Any.refl (r : Realm) (w : World) : Any r w w :=
  ⟨fun _ => SameObj.refl _, fun _ _ h => h, fun _ _ _ h => h, fun _ => Or.inl rfl,
   fun _ h => Or.inl h, rfl, ⟨[], rfl, by simp⟩,
   fun _ _ => rfl, id, fun _ => Grows.refl _⟩

theorem Any.trans {r : Realm} {a b c : World} (h : Any r a b) (h' : Any r b c) : Any r a c := by
  refine ⟨fun j => (h.same j).trans (h'.same j), fun j x hx => h'.saved j x (h.saved j x hx),
    fun j x hr hx => h.other j x hr (h'.other j x hr hx), ?_, ?_, h'.next.trans h.next, ?_,
    fun x hx => (h'.caches x hx).trans (h.caches x hx), fun hn => h'.nodup (h.nodup hn),
    fun hn => (h.grows hn).trans (h'.grows (h.nodup hn))⟩
  · intro j
    rcases h'.realm j with e | e
    · rw [e]; exact h.realm j
    · exact Or.inr e
  · intro j hj
    rcases h'.home j hj with e | e
    · rcases h.home j e with e | e
      · exact Or.inl e
      · right
        rcases h'.realm j with e' | e'
        · rw [e', e]
        · exact e'
    · exact Or.inr e
  obtain ⟨o1, e1, r1⟩ := h.log
  obtain ⟨o2, e2, r2⟩ := h'.log
  refine ⟨o2 ++ o1, by rw [e2, e1, List.append_assoc], ?_⟩
  intro op hop
  rcases List.mem_append.mp hop with h | h
  · exact r2 op h
  · exact r1 op h

theorem grows_eff {w w' : World} {ops : Log} (hc : w'.caches = w.caches)
    (hl : w'.repo.log = ops ++ w.repo.log) : Grows w.eff w'.eff := by
  intro x o ho
  rw [stored_eff] at ho ⊢
  rcases ho with ho | ho
  · left; rw [hc]; exact ho
  · right; rw [hl]; exact stored_append ho

theorem gitCmd_any {α : Type} {r : Realm} {cmd : Log → List GitOp × Except PyErr α}
    (hr : ∀ L, ∀ op ∈ (cmd L).1, op.realm = r) : M.Keeps (liftG (gitCmd cmd)) (Any r) := by
  intro w
  have e : (liftG (gitCmd cmd) w).2 = { w with repo := (gitCmd cmd w.repo).2 } := rfl
  rw [e]
  obtain ⟨k, hk⟩ := gitCmd_log cmd w.repo
  refine ⟨fun _ => SameObj.refl _, fun _ _ h => h, fun _ _ _ h => h, fun _ => Or.inl rfl,
    fun _ h => Or.inl h, rfl, ⟨_, hk, ?_⟩,
    fun _ _ => rfl, id, fun _ => grows_eff rfl hk⟩
  intro op hop
  exact hr _ op (List.mem_of_mem_take (List.mem_reverse.mp hop))

theorem gitSaveStr_any (C : Cfg) (r : Realm) (s : Str) :
    M.Keeps (liftG (gitSaveStr C r s)) (Any r) := by
  apply gitCmd_any
  intro L op ho
  simp only [List.mem_singleton] at ho
  subst ho
  rfl

theorem gitSaveJson_any (C : Cfg) (r : Realm) (j : Json) :
    M.Keeps (liftG (gitSaveJson C r j)) (Any r) := gitSaveStr_any C r _

theorem gitSaveTree_any (C : Cfg) (r : Realm) (es : List TreeEntry) :
    M.Keeps (liftG (gitSaveTree C r es)) (Any r) := by
  apply gitCmd_any
  intro L op
  split
  · intro ho; simp only [List.mem_singleton] at ho; subst ho; rfl
  · simp

theorem gitUpdateRef_any (C : Cfg) (r : Realm) (n h : Str) :
    M.Keeps (liftG (gitUpdateRef C r n h)) (Any r) := by
  apply gitCmd_any
  intro L op
  split
  · intro ho; simp only [List.mem_singleton] at ho; subst ho; rfl
  · simp

theorem gitSaveBlobs_any (C : Cfg) (r : Realm) (bs : List Str) :
    M.Keeps (liftG (gitSaveBlobs C r bs)) (Any r) := by
  apply gitCmd_any
  intro L op ho
  obtain ⟨s, _, rfl⟩ := List.mem_map.mp ho
  rfl

theorem addRef_any (r : Realm) (b : Bool) (h : Option Str) : M.Keeps (addRef b h) (Any r) := by
  intro w
  unfold addRef
  cases h with
  | none => exact Any.refl r w
  | some h =>
    simp only
    split
    · exact Any.refl r w
    · exact ⟨fun _ => SameObj.refl _, fun _ _ h => h, fun _ _ _ h => h, fun _ => Or.inl rfl,
   fun _ h => Or.inl h, rfl, ⟨[], rfl, by simp⟩,
        fun _ _ => rfl, id, fun _ => Grows.refl _⟩

theorem cacheRealm_any (r : Realm) : M.Keeps (cacheRealm r) (Any r) := by
  intro w
  cases hd : dget w.caches r with
  | some bs =>
    have : cacheRealm r w = (.error .runtime, w) := by unfold cacheRealm; rw [hd]
    rw [this]
    exact Any.refl r w
  | none =>
    have e : cacheRealm r w = (.ok (), { w with caches := w.caches ++ [(r, [])] }) := by
      unfold cacheRealm; rw [hd]
    obtain ⟨q, _, _⟩ := cacheRealm_quiet e
    rw [e]
    refine ⟨fun _ => SameObj.refl _, fun _ _ h => h, fun _ _ _ h => h, fun _ => Or.inl rfl,
   fun _ h => Or.inl h, rfl, ⟨[], rfl, by simp⟩,
        ?_, q.caches, fun _ => q.grows⟩
    intro x hx
    show dget (w.caches ++ [(r, [])]) x = _
    rw [dget_append]
    cases dget w.caches x with
    | some => rfl
    | none => simp [dget, Ne.symm hx]

/-- The log after storing blobs holds them, if the command worked. -/
theorem flushCache_any (C : Cfg) (r : Realm) : M.Keeps (flushCache C r) (Any r) := by
  intro w
  cases hd : dget w.caches r with
  | none =>
    have : flushCache C r w = (.ok (), w) := by
      unfold flushCache
      rw [M.bind_of_ok (M.get_run w)]
      simp only [hd]
      rfl
    rw [this]
    exact Any.refl r w
  | some bs =>
    have e : flushCache C r w = (liftG (gitSaveBlobs C r bs) >>= fun _ =>
        M.modify fun w => { w with caches := dset w.caches r [] }) w := by
      unfold flushCache
      rw [M.bind_of_ok (M.get_run w)]
      simp only [hd]
    have h1 := gitSaveBlobs_any C r bs w
    cases hx : liftG (gitSaveBlobs C r bs) w with
    | mk res w1 =>
      rw [hx] at h1
      cases res with
      | error er =>
        rw [e, M.bind_of_error hx]
        exact h1
      | ok hs =>
        have e' := e
        rw [M.bind_of_ok hx] at e'
        simp only [M.modify_run] at e'
        rw [e']
        obtain ⟨s, _, hw⟩ := liftG_ok hx
        have hc : w1.caches = w.caches := by rw [hw]
        refine ⟨h1.same, h1.saved, h1.other, h1.realm, h1.home, h1.next, h1.log, ?_, ?_, ?_⟩
        · intro x hx
          show dget (dset w1.caches r []) x = _
          rw [dget_dset, if_neg (Ne.symm hx), hc]
        · intro hn
          exact nodup_dset (h1.nodup hn) _ _
        · intro hn
          exact (flushCache_quiet hn e').1.grows

theorem modify_caches_ne {w : World} {r : Realm} {f : List (Realm × List Str)}
    (hf : ∀ x, x ≠ r → dget f x = dget w.caches x) (hn : (dkeys w.caches).Nodup → (dkeys f).Nodup)
    (hg : (dkeys w.caches).Nodup → Grows w.eff ({ w with caches := f } : World).eff) :
    Any r w { w with caches := f } :=
  ⟨fun _ => SameObj.refl _, fun _ _ h => h, fun _ _ _ h => h, fun _ => Or.inl rfl,
   fun _ h => Or.inl h, rfl, ⟨[], rfl, by simp⟩, hf, hn, hg⟩

theorem cacheBlob_any (C : Cfg) (r : Realm) (s : Str) : M.Keeps (cacheBlob C r s) (Any r) := by
  have main : M.Keeps ((do
      M.modify fun w => { w with caches := dset w.caches r ((dget w.caches r).getD [] ++ [s]) }
      pure (C.hash (.blob s))) : W Str) (Any r) := by
    intro w
    rw [M.bind_of_ok (M.modify_run _ w)]
    refine modify_caches_ne ?_ ?_ ?_
    · intro x hx
      rw [dget_dset, if_neg (Ne.symm hx)]
    · intro hn
      exact nodup_dset hn _ _
    · intro hn x o ho
      rw [stored_eff] at ho ⊢
      rcases ho with ho | ho
      · left
        rw [stored_pending] at ho ⊢
        obtain ⟨bs', s', hm, hs, rfl⟩ := ho
        by_cases hx : x = r
        · subst hx
          refine ⟨_, s', (mem_dset_iff hn).mpr (Or.inl rfl), ?_, rfl⟩
          rw [dget_of_mem hn hm]
          simp [hs]
        · exact ⟨bs', s', (mem_dset_iff hn).mpr (Or.inr ⟨hm, hx⟩), hs, rfl⟩
      · exact Or.inr ho
  intro w
  unfold cacheBlob
  rw [M.bind_of_ok (M.get_run w)]
  split
  · exact M.Keeps.bind (R := Any r) (fun _ _ _ => Any.trans) (flushCache_any C r) (fun _ => main) w
  · exact main w

theorem saveBlob_any (C : Cfg) (r : Realm) (s : Str) : M.Keeps (saveBlob C r s) (Any r) := by
  intro w
  unfold saveBlob
  rw [M.bind_of_ok (M.get_run w)]
  cases dget w.caches r with
  | none => exact gitSaveStr_any C r s w
  | some => exact cacheBlob_any C r s w

theorem flushRealm_any (C : Cfg) (r : Realm) : M.Keeps (flushRealm C r) (Any r) := by
  intro w
  unfold flushRealm
  rw [M.bind_of_ok (M.get_run w)]
  cases hd : dget w.caches r with
  | none => exact Any.refl r w
  | some bs =>
    simp only
    have h1 := flushCache_any C r w
    cases hx : flushCache C r w with
    | mk res w1 =>
      rw [hx] at h1
      cases res with
      | error er => rw [M.bind_of_error hx]; exact h1
      | ok u =>
        have e := hd
        rw [M.bind_of_ok hx]
        simp only [M.modify_run]
        refine ⟨h1.same, h1.saved, h1.other, h1.realm, h1.home, h1.next, h1.log, ?_, ?_, ?_⟩
        · intro x hx
          show dget (ddel w1.caches r) x = _
          rw [dget_ddel_ne _ _ hx]
          exact h1.caches x hx
        · intro hn
          exact nodup_ddel (h1.nodup hn) _
        · intro hn
          have : flushRealm C r w = (.ok (), { w1 with caches := ddel w1.caches r }) := by
            unfold flushRealm
            rw [M.bind_of_ok (M.get_run w)]
            simp only [hd]
            rw [M.bind_of_ok hx]
            rfl
          exact (flushRealm_quiet hn this).1.grows

/-- What a relation between states must respect to hold for what mappers do. -/
structure MapClosed (C : Cfg) (r : Realm) (R : World → World → Prop) : Prop where
  refl : ∀ w, R w w
  trans : ∀ a b c, R a b → R b c → R a c
  str : ∀ s, M.Keeps (liftG (gitSaveStr C r s)) R
  tree : ∀ es, M.Keeps (liftG (gitSaveTree C r es)) R
  name : ∀ n h, n = tvlRefName ∨ n = uuidSetRefName → M.Keeps (liftG (gitUpdateRef C r n h)) R
  blob : ∀ s, M.Keeps (saveBlob C r s) R
  ref : ∀ b h, M.Keeps (addRef b h) R
  files : ∀ wr, M.Keeps wr R → M.Keeps (fileTreeWrite C (some r) wr) R

/-- What a relation between states must respect to hold for writing. -/
structure Closed (C : Cfg) (r : Realm) (R : World → World → Prop) : Prop extends MapClosed C r R where
  mapped : ∀ w w' i, R w w' → (w'.heap i).mapped = (w.heap i).mapped
  here : ∀ w w' i, R w w' → (w.heap i).realm = some r → (w'.heap i).realm = some r
  realm : ∀ w i, (w.heap i).mapped = true →
    R w { w with heap := w.heap.set i { w.heap i with realm := some r } }
  flag : ∀ w i ref, (w.heap i).mapped = true → (w.heap i).realm = some r →
    R w { w with heap := w.heap.set i { w.heap i with ref := some ref,
                                                       savedOn := r :: (w.heap i).savedOn } }

section
variable {C : Cfg} {r : Realm} {R : World → World → Prop}

theorem MapClosed.bind (c : MapClosed C r R) {α β : Type} {x : W α} {f : α → W β} (hx : M.Keeps x R)
    (hf : ∀ a, M.Keeps (f a) R) : M.Keeps (x >>= f) R := M.Keeps.bind c.trans hx hf

theorem MapClosed.pure (c : MapClosed C r R) {α : Type} (a : α) : M.Keeps (Pure.pure a : W α) R :=
  M.Keeps.pure c.refl a

theorem MapClosed.raise (c : MapClosed C r R) {α : Type} (e : PyErr) : M.Keeps (M.raise e : W α) R :=
  M.Keeps.raise c.refl e

theorem MapClosed.getObj (c : MapClosed C r R) (i : ObjId) : M.Keeps (getObj i) R := fun w => c.refl w

theorem MapClosed.saveMetadata (c : MapClosed C r R) (m : Sets) : M.Keeps (saveMetadata C r m) R :=
  c.bind (c.blob _) fun _ => c.bind (c.ref _ _) fun _ => c.bind (c.blob _) fun _ => c.pure _

theorem MapClosed.proxyWrite (c : MapClosed C r R) {wr : W Ref} (h : M.Keeps wr R) :
    M.Keeps (proxyWrite wr) R := by
  refine c.bind h fun ref => ?_
  split
  · exact c.pure _
  · exact c.bind (c.ref _ _) fun _ => c.pure _

theorem MapClosed.fileTreeWrite (c : MapClosed C r R) {wr : W Ref} (h : M.Keeps wr R) :
    M.Keeps (fileTreeWrite C (some r) wr) R := c.files wr h

theorem MapClosed.writeElement (c : MapClosed C r R) {wr : ObjId → W Ref} (h : ∀ j, M.Keeps (wr j) R)
    (i : ObjId) : M.Keeps (writeElement wr i) R := by
  refine c.bind (c.getObj i) fun o => ?_
  split
  · exact c.proxyWrite (h i)
  · exact h i

theorem MapClosed.writeVersionList (c : MapClosed C r R) {wr : ObjId → W Ref} (h : ∀ j, M.Keeps (wr j) R)
    (kids : List (Key × (Str × ObjId))) : M.Keeps (writeVersionList C wr r kids) R := by
  refine c.bind (M.Keeps.forEach c.refl c.trans fun e _ => ?_) fun js => c.str _
  exact c.bind (c.writeElement h _) fun _ => c.pure _

theorem MapClosed.ftPart (c : MapClosed C r R) {wr : ObjId → W Ref} (h : ∀ j, M.Keeps (wr j) R)
    (e : Option (Str × ObjId)) : M.Keeps (writeFtPart C r wr e) R := by
  cases e with
  | none => exact c.pure _
  | some e =>
    refine c.bind (c.fileTreeWrite (h _)) fun ref => ?_
    split
    · exact c.pure _
    · exact c.bind (c.ref _ _) fun _ => c.pure _

theorem MapClosed.dlmPart (c : MapClosed C r R) {wr : ObjId → W Ref} (h : ∀ j, M.Keeps (wr j) R)
    (e : Option (Str × ObjId)) : M.Keeps (writeDlmPart wr e) R := by
  cases e with
  | none => exact c.pure _
  | some e => exact c.bind (h _) fun ref => c.bind (c.ref _ _) fun _ => c.pure _

theorem MapClosed.mapOut (c : MapClosed C r R) {wr : Bool → ObjId → W Ref}
    (h : ∀ f j, M.Keeps (wr f j) R) (force : Bool) (b : Body ObjId) :
    M.Keeps (mapOut C wr r force b) R := by
  unfold MM.mapOut
  split
  · exact c.bind (c.str _) fun _ => c.pure _
  · exact c.saveMetadata _
  · split
    · exact c.pure _
    · refine c.bind (M.Keeps.forEach c.refl c.trans fun e _ => ?_) fun es =>
        c.bind (c.tree _) fun _ => c.pure _
      exact c.bind (h _ _) fun _ => c.bind (c.getObj _) fun _ => c.pure _
  · exact c.bind (c.ftPart (h _) _) fun ft => c.bind (c.dlmPart (h _) _) fun dlm =>
      c.bind (c.str _) fun _ => c.pure _
  · exact c.bind (c.writeVersionList (h _) _) fun _ => c.pure _
  · exact c.bind (c.writeVersionList (h _) _) fun _ => c.bind (c.name _ _ (Or.inl rfl)) fun _ => c.pure _
  · refine c.bind (M.Keeps.forEach c.refl c.trans fun e _ => ?_) fun es =>
      c.bind (c.tree _) fun _ => c.bind (c.name _ _ (Or.inr rfl)) fun _ => c.pure _
    exact c.bind (h _ _) fun _ => c.pure _

theorem destOf_some {r : Realm} (hr : r ≠ []) (x : Option Realm) : destOf (some r) x = some r := by
  cases r with
  | nil => exact absurd rfl hr
  | cons a r => rcases x with _ | _ | _ <;> rfl

/-- `write_out` of a loaded object, case by case. -/
theorem writeOut_mapped {n : Nat} {force : Bool} {i : ObjId} {w : World} (hr : r ≠ [])
    (hm : (w.heap i).mapped = true) {w1 : World}
    (hw1 : w1 = { w with heap := w.heap.set i { w.heap i with realm := some r } }) : writeOut C (n + 1) (some r) force i w =
      if Ref.isRemote r then (.error .runtime, w)
      else
        match isSavedOn (n + 1) w1.heap r i with
        | .error e => (.error e, w1)
        | .ok saved =>
          if saved = true ∧ force = false then
            match (w.heap i).ref with
            | some ref => (.ok ref, w1)
            | none => (.error .attribute, w1)
          else match mapOut C (writeOut C n (some r)) r force (w.heap i).body w1 with
            | (.error e, w2) => (.error e, w2)
            | (.ok ref, w2) => (.ok ref, { w2 with heap := w2.heap.set i { w2.heap i with
                ref := some ref, savedOn := r :: (w2.heap i).savedOn } }) := by
  rw [MM.writeOut, M.bind_of_ok (getObj_run i w), destOf_some hr, if_pos hm]
  simp only
  by_cases hrem : Ref.isRemote r = true
  · rw [if_pos hrem, if_pos hrem]; rfl
  · rw [if_neg hrem, if_neg hrem, M.bind_of_ok (updObj_run i _ w), ← hw1]
    clear hw1
    rw [M.bind_of_ok (M.get_run w1)]
    cases hs : isSavedOn (n + 1) w1.heap r i with
    | error e => rfl
    | ok saved =>
      rw [M.bind_of_ok (M.ofExcept_ok saved w1)]
      by_cases hsf : (saved && !force) = true
      · have : saved = true ∧ force = false := by simpa using hsf
        simp only [if_pos hsf, if_pos this]
        cases (w.heap i).ref <;> rfl
      · have : ¬ (saved = true ∧ force = false) := by simpa using hsf
        simp only [if_neg hsf, if_neg this]
        cases hx : mapOut C (MM.writeOut C n (some r)) r force (w.heap i).body w1 with
        | mk res w2 =>
          cases res with
          | error e => rw [M.bind_of_error hx]
          | ok ref => rw [M.bind_of_ok hx, M.bind_of_ok (updObj_run i _ w2)]; rfl

/-- `write_out` of an object that is not loaded -/
theorem writeOut_away {n : Nat} {force : Bool} {i : ObjId} {w : World}
    (hm : (w.heap i).mapped = false) : writeOut C (n + 1) (some r) force i w =
      match (w.heap i).realm, (w.heap i).ref with
      | some _, some ref => if r ∈ (w.heap i).savedOn then (.ok ref, w) else (.error .runtime, w)
      | _, _ => (.error .assertion, w) := by
  rw [MM.writeOut, M.bind_of_ok (getObj_run i w), if_neg (by simp [hm])]
  cases (w.heap i).realm <;> cases (w.heap i).ref
  · rfl
  · rfl
  · rfl
  · simp only
    split <;> rfl

theorem Closed.writeOut (c : Closed C r R) (hr : r ≠ []) (n : Nat) : ∀ (force : Bool) (i : ObjId),
    M.Keeps (writeOut C n (some r) force i) R := by
  induction n with
  | zero => intro force i; exact c.raise _
  | succ n ih =>
    intro force i w
    by_cases hm : (w.heap i).mapped = true
    · have e1 := c.realm w i hm
      generalize hw1 : ({ w with heap := w.heap.set i { w.heap i with realm := some r } } : World)
          = w1 at e1
      rw [writeOut_mapped hr hm hw1.symm]
      split
      · exact c.refl w
      · skip
        have hm1 : (w1.heap i).mapped = true := (c.mapped _ _ i e1).trans hm
        refine c.trans _ _ _ e1 ?_
        split
        · exact c.refl w1
        · split
          · split <;> exact c.refl w1
          · have h2 := c.mapOut (wr := MM.writeOut C n (some r)) ih force (w.heap i).body w1
            split
            · rename_i e w2 hx
              rw [hx] at h2
              exact h2
            · rename_i ref w2 hx
              rw [hx] at h2
              have hre : (w1.heap i).realm = some r := by rw [← hw1]; simp
              exact c.trans _ _ _ h2 (c.flag w2 i ref ((c.mapped _ _ i h2).trans hm1)
                (c.here _ _ i h2 hre))
    · rw [writeOut_away (by simpa using hm)]
      split
      · split <;> exact c.refl w
      · exact c.refl w

end

theorem any_upd {r : Realm} {w : World} {i : ObjId} {o : Obj} (hm : (w.heap i).mapped = true)
    (h1 : o.mapped = (w.heap i).mapped) (h2 : o.body = (w.heap i).body)
    (h3 : ∀ x, x ∈ (w.heap i).savedOn → x ∈ o.savedOn)
    (h4 : ∀ x, x ≠ r → x ∈ o.savedOn → x ∈ (w.heap i).savedOn) (h5 : o.realm = some r) :
    Any r w { w with heap := w.heap.set i o } := by
  refine ⟨?_, ?_, ?_, ?_, ?_, rfl, ⟨[], rfl, by simp⟩, fun _ _ => rfl, id, fun _ => Grows.refl _⟩
  · intro j
    by_cases hj : j = i
    · subst hj
      simp only [Heap.set_self]
      exact ⟨h1, h2, fun h => by rw [hm] at h; cases h⟩
    · simp only [Heap.set_ne hj]; exact SameObj.refl _
  · intro j x hx
    by_cases hj : j = i
    · subst hj; simp only [Heap.set_self]; exact h3 x hx
    · simp only [Heap.set_ne hj]; exact hx
  · intro j x hr hx
    by_cases hj : j = i
    · subst hj; simp only [Heap.set_self] at hx; exact h4 x hr hx
    · simp only [Heap.set_ne hj] at hx; exact hx
  · intro j
    by_cases hj : j = i
    · subst hj; simp only [Heap.set_self]; exact Or.inr h5
    · exact Or.inl (by simp [Heap.set_ne hj])
  · intro j hx
    by_cases hj : j = i
    · subst hj; simp only [Heap.set_self]; exact Or.inr h5
    · simp only [Heap.set_ne hj] at hx; exact Or.inl hx

theorem fileTreeWrite_keeps {C : Cfg} {r : Realm} {R : World → World → Prop} (refl : ∀ w, R w w)
    (trans : ∀ a b c, R a b → R b c → R a c) (cache : M.Keeps (cacheRealm r) R) (flush : M.Keeps (flushRealm C r) R)
    (ref : ∀ b h, M.Keeps (addRef b h) R) (wr : W Ref) (h : M.Keeps wr R) :
    M.Keeps (fileTreeWrite C (some r) wr) R := by
  refine M.Keeps.bind trans cache fun _ => M.Keeps.bind trans h fun x => M.Keeps.bind trans flush fun _ => ?_
  split
  · exact M.Keeps.pure refl _
  · exact M.Keeps.bind trans (ref _ _) fun _ => M.Keeps.pure refl _

theorem closed_any (C : Cfg) (r : Realm) : Closed C r (Any r) where
  refl := Any.refl r
  trans := fun _ _ _ => Any.trans
  str := gitSaveStr_any C r
  tree := gitSaveTree_any C r
  name := fun n h _ => gitUpdateRef_any C r n h
  blob := saveBlob_any C r
  ref := addRef_any r
  files := fileTreeWrite_keeps (Any.refl r) (fun _ _ _ => Any.trans) (cacheRealm_any r) (flushRealm_any C r) (addRef_any r)
  mapped := fun _ _ i h => (h.same i).mapped
  here := fun _ _ i h hr => (h.realm i).elim (fun e => e.trans hr) id
  realm := fun _ _ hm => any_upd hm rfl rfl (fun _ h => h) (fun _ _ h => h) rfl
  flag := fun _ _ _ hm hr => any_upd hm rfl rfl (fun _ h => List.mem_cons_of_mem _ h)
    (fun _ hx h => (List.mem_cons.mp h).resolve_left hx) hr

/-- Writing to a repository, whatever the outcome. -/
theorem writeOut_any {C : Cfg} {r : Realm} (hr : r ≠ []) (n : Nat) (force : Bool) (i : ObjId) :
    M.Keeps (writeOut C n (some r) force i) (Any r) := (closed_any C r).writeOut hr n force i

end MM
