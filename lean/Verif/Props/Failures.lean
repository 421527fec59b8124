/-
C27, C29, C51, C52, C53 and C55: what can go wrong when objects are written, and what
happens afterwards.
-/
import Verif.Blocked
import Verif.Props.Common
import Verif.Props.FileTree

namespace MM

variable {C : Cfg} {r : Realm}

/-! ### C29 -/

/-- C29, what goes wrong: a file-tree write that fails leaves the cache of the repository
behind, at every failure point, for every tree and every state of the process.  (The only
other failure is a `TypeError`, for objects whose reference has no location.) -/
theorem C29_left_behind (hr : r ≠ []) {n : Nat} {force : Bool} {i : ObjId} {w w' : World} {e : PyErr}
    (h : writeFileTree C n (some r) force i w = (.error e, w')) :
    (dget w'.caches r).isSome = true ∨ e = .type := by
  rw [writeFileTree_eq hr] at h
  by_cases hb : (dget w.caches r).isSome = true
  · rw [fileTreeWrite_blocked C hb] at h
    injection h with _ h
    rw [← h]; exact Or.inl hb
  · unfold fileTreeWrite at h
    simp only at h
    rcases M.bind_error h with h | ⟨_, w1, h1, h⟩
    · unfold cacheRealm at h
      cases hd : dget w.caches r with
      | some bs => rw [hd] at hb; exact absurd rfl hb
      | none => rw [hd] at h; cases h
    have hc1 : (dget w1.caches r).isSome = true := by
      unfold cacheRealm at h1
      cases hd : dget w.caches r with
      | some bs => rw [hd] at hb; exact absurd rfl hb
      | none =>
        rw [hd] at h1
        cases h1
        have hin : r ∈ dkeys (w.caches ++ [(r, [])]) := by simp [dkeys]
        cases hd2 : dget (w.caches ++ [(r, ([] : List Str))]) r with
        | none => exact absurd hin (dget_eq_none.mp hd2)
        | some y => rfl
    rcases M.bind_error h with h | ⟨ref, w2, h2, h⟩
    · have := writeOut_cacheStays (C := C) hr n force i w1 hc1
      rw [h] at this
      exact Or.inl this
    have hc2 : (dget w2.caches r).isSome = true := by
      have := writeOut_cacheStays (C := C) hr n force i w1 hc1
      rw [h2] at this
      exact this
    rcases M.bind_error h with h | ⟨_, w3, h3, h⟩
    · left
      unfold flushRealm at h
      rw [M.bind_of_ok (M.get_run w2)] at h
      cases hd : dget w2.caches r with
      | none => rw [hd] at hc2; cases hc2
      | some bs =>
        rw [hd] at h
        rcases M.bind_error h with h | ⟨_, w4, _, h⟩
        · have := cacheStays_flushCache (r := r) C r w2 hc2
          rw [h] at this
          exact this
        · cases h
    · right
      split at h
      · cases h
      · rcases M.bind_error h with h | ⟨_, _, _, h⟩
        · unfold addRef at h
          cases hl : ref.loc with
          | none => rw [hl] at h; injection h with h _; injection h with h; exact h.symm
          | some l =>
            rw [hl] at h
            simp only at h
            split at h <;> cases h
        · cases h

/-- C29: after such a failure, every later write of a file tree to the repository fails, also
when git works. -/
theorem C29_file_trees_fail (hr : r ≠ []) (n : Nat) (force : Bool) (i : ObjId) {w : World}
    (h : (dget w.caches r).isSome = true) :
    writeFileTree C n (some r) force i w = (.error .runtime, w) := by
  rw [writeFileTree_eq hr, fileTreeWrite_blocked C h]

/-- Storing a blob in a repository with a cache: it waits, and only blobs that waited are
stored. -/
theorem saveBlob_waits {s : Str} {w w' : World} {h : Str} (hb : (dget w.caches r).isSome = true)
    (hs : saveBlob C r s w = (.ok h, w')) :
    h = C.hash (.blob s) ∧ (dget w'.caches r).isSome = true ∧ w'.heap = w.heap ∧
      (∀ t, Stored w'.repo.log r (.blob t) → Stored w.repo.log r (.blob t) ∨ t ∈ (dget w.caches r).getD []) ∧
      (∀ t, t ∈ (dget w'.caches r).getD [] → t ∈ (dget w.caches r).getD [] ∨ t = s) := by
  unfold saveBlob at hs
  rw [M.bind_of_ok (M.get_run w)] at hs
  cases hd : dget w.caches r with
  | none => rw [hd] at hb; cases hb
  | some bs =>
    rw [hd] at hs
    simp only at hs
    unfold cacheBlob at hs
    rw [M.bind_of_ok (M.get_run w)] at hs
    rw [Option.getD_some]
    split at hs
    · obtain ⟨_, w1, h1, h2⟩ := M.bind_ok hs
      unfold flushCache at h1
      rw [M.bind_of_ok (M.get_run w), hd] at h1
      obtain ⟨_, w2, h3, h4⟩ := M.bind_ok h1
      obtain ⟨s2, h5, rfl⟩ := liftG_ok h3
      obtain ⟨_, h6⟩ := gitCmd_ok h5
      cases h4
      cases h2
      refine ⟨rfl, by simp, rfl, ?_, ?_⟩
      · intro t ht
        simp only at ht
        unfold Stored at ht
        rw [h6] at ht
        rcases List.mem_append.mp ht with ht | ht
        · rw [List.mem_reverse] at ht
          obtain ⟨u, hu, e⟩ := List.mem_map.mp ht
          cases e
          exact Or.inr hu
        · exact Or.inl ht
      · intro t ht
        simp only [dget_dset_self, Option.getD_some, List.nil_append, List.mem_singleton] at ht
        exact Or.inr ht
    · cases hs
      refine ⟨rfl, by simp, rfl, fun t ht => Or.inl ht, ?_⟩
      intro t ht
      simp only [dget_dset_self, hd, Option.getD_some, List.mem_append, List.mem_singleton] at ht
      exact ht

/-- C29, what goes wrong: after such a failure, a later write of metadata that succeeds does
not store the object that it returns the reference of, unless this object was stored or
waiting before. -/
theorem C29_not_stored (hr : r ≠ []) {n : Nat} {i : ObjId} {w w' : World} {ref : Ref} {m : Sets}
    (hb : (dget w.caches r).isSome = true) (hd : (w.heap i).body.data = .metadata m)
    (hm : (w.heap i).mapped = true) (hu : r ∉ (w.heap i).savedOn)
    (h : writeOut C n (some r) false i w = (.ok ref, w')) :
    ∃ t, ref = ⟨c!"Metadata", some (C.hash (.blob t))⟩ ∧
      (¬ Stored w.repo.log r (.blob t) → t ∉ (dget w.caches r).getD [] → t ≠ m.toText C.floats →
        ¬ Stored w'.repo.log r (.blob t)) := by
  cases n with
  | zero => cases h
  | succ n =>
    rw [writeOut_mapped hr hm rfl] at h
    split at h
    · cases h
    · have hsv : isSavedOn (n + 1) (w.heap.set i { w.heap i with realm := some r }) r i = .ok false := by
        rw [isSavedOn_succ]
        rw [if_pos]
        rw [Heap.set_self]; exact hu
      rw [hsv] at h
      simp only [Bool.false_eq_true, false_and, if_false] at h
      cases hx : mapOut C (writeOut C n (some r)) r false (w.heap i).body
          { w with heap := w.heap.set i { w.heap i with realm := some r } } with
      | mk res w2 =>
        rw [hx] at h
        cases res with
        | error e => cases h
        | ok ref0 =>
          simp only [Prod.mk.injEq, Except.ok.injEq] at h
          obtain ⟨rfl, rfl⟩ := h
          unfold mapOut at hx
          rw [hd] at hx
          simp only at hx
          unfold saveMetadata at hx
          obtain ⟨h1, w3, e1, hx⟩ := M.bind_ok hx
          obtain ⟨_, w4, e2, hx⟩ := M.bind_ok hx
          obtain ⟨h2, w5, e3, hx⟩ := M.bind_ok hx
          cases hx
          obtain ⟨rfl, b1, _, s1, p1⟩ := saveBlob_waits (w := { w with heap := w.heap.set i { w.heap i with realm := some r } }) hb e1
          have hq : w4.repo = w3.repo ∧ w4.caches = w3.caches := by
            unfold addRef at e2
            simp only at e2
            split at e2 <;> cases e2 <;> exact ⟨rfl, rfl⟩
          obtain ⟨rfl, b2, _, s2, p2⟩ := saveBlob_waits (by rw [hq.2]; exact b1) e3
          refine ⟨_, rfl, fun h1 h2 h3 hst => ?_⟩
          rcases s2 _ hst with g | g
          · rw [hq.1] at g
            rcases s1 _ g with g | g
            · exact h1 g
            · exact h2 g
          · rw [hq.2] at g
            rcases p1 _ g with g | g
            · exact h2 g
            · exact h3 g

/-- A file-tree write of the examples, in which the first git command fails. -/
def blockedWrite : Except PyErr Ref × World :=
  writeAs sampleCfg .file 20 (some sampleRealm) false 3 { sampleWorld with repo := ⟨[], [.fail 0]⟩ }

/-- Later, other metadata is written to the same repository. -/
def laterMetadata : Except PyErr Ref × World :=
  writeAs sampleCfg .own 20 (some sampleRealm) false 0 blockedWrite.2

/-- C29 is false: a file-tree write fails because one git command fails; after that, with git
working, a write of other metadata succeeds, but nothing is stored under the reference that it
returns; and reading it fails. -/
theorem C29_false : errOf blockedWrite = some .runtime ∧ blockedWrite.2.repo.faults = [] ∧
    isOk laterMetadata = true ∧
    (match (okRef laterMetadata).loc with
      | some loc => (resolve sampleCfg laterMetadata.2.repo.log sampleRealm loc).isNone
      | none => false) = true ∧
    errOf (ensureMapped sampleCfg 0 (create (Link.obj sampleRealm ⟨.metadata, okRef laterMetadata⟩)
      (start laterMetadata.2.repo))) = some .runtime := by
  decide +kernel

/-- The failing write meets the hypotheses of the theorems on C29. -/
example : ∃ w e w' ref w2, writeFileTree sampleCfg 20 (some sampleRealm) false 3 w = (.error e, w') ∧ e ≠ .type ∧
    (dget w'.caches sampleRealm).isSome = true ∧ (w'.heap 0).body.data = .metadata (sampleSets 1) ∧
    (w'.heap 0).mapped = true ∧ sampleRealm ∉ (w'.heap 0).savedOn ∧
    writeOut sampleCfg 20 (some sampleRealm) false 0 w' = (.ok ref, w2) := by
  have h1 : writeFileTree sampleCfg 20 (some sampleRealm) false 3 { sampleWorld with repo := ⟨[], [.fail 0]⟩ } =
      (.error .runtime, blockedWrite.2) := of_errOf C29_false.1
  have h2 : writeOut sampleCfg 20 (some sampleRealm) false 0 blockedWrite.2 = (.ok (okRef laterMetadata), laterMetadata.2) :=
    of_isOk C29_false.2.2.1
  refine ⟨_, _, _, _, _, h1, by decide, by decide +kernel, ?_, by decide +kernel, by decide +kernel, h2⟩
  have a : Any sampleRealm { sampleWorld with repo := ⟨[], [.fail 0]⟩ } blockedWrite.2 :=
    writeAs_any (C := sampleCfg) (r := sampleRealm) (by decide) .file 20 false 3 _
  rw [(a.same 0).body]; rfl

/-! ### C51 -/

/-- A dataset is added to the dataset tree of the list that was written. -/
def changedList : Except PyErr Unit × World := addDataset sampleCfg 5 [c!"sub"] 4 sampleWrite.2

/-- The list is written; the git command that stores it fails. -/
def failedSave : Except PyErr Ref × World :=
  writeAs sampleCfg .own 20 (some sampleRealm) false 6
    (outside changedList.2.repo.log [.none, .none, .fail 0] changedList.2)

/-- It is written once more, with git working. -/
def repeatedSave : Except PyErr Ref × World :=
  writeAs sampleCfg .own 20 (some sampleRealm) false 6 failedSave.2

/-- C51 is false: the repeated write succeeds, but stores nothing.  The list in memory has the
dataset, the list in the repository has not, under the returned reference and under its name. -/
theorem C51_false : isOk changedList = true ∧ errOf failedSave = some .runtime ∧
    failedSave.2.repo.faults = [] ∧ isOk repeatedSave = true ∧
    repeatedSave.2.repo.log = failedSave.2.repo.log ∧
    (look sampleCfg repeatedSave.2.repo.log repeatedSave.2.heap [.ver c!"v1" ⟨[], []⟩, .name c!"sub"] []
      (.mem 6)).isAbsent = false ∧
    (look sampleCfg repeatedSave.2.repo.log repeatedSave.2.heap [.ver c!"v1" ⟨[], []⟩, .name c!"sub"] []
      (.sto sampleRealm ⟨.tvl, normRef .tvl (okRef repeatedSave)⟩)).isAbsent = true ∧
    (look sampleCfg repeatedSave.2.repo.log repeatedSave.2.heap [.ver c!"v1" ⟨[], []⟩, .name c!"sub"] []
      (.sto sampleRealm tvlLink)).isAbsent = true := by
  decide +kernel

/-- C51, another way in which it fails: after a failed write of a file tree, no later write of
this file tree succeeds, also when git works. -/
theorem C51_file_tree_false (hr : r ≠ []) {n m : Nat} {force force' : Bool} {i : ObjId} {w w' : World} {e : PyErr}
    (h : writeFileTree C n (some r) force i w = (.error e, w')) (he : e ≠ .type) {L : Log} {fs : List Fault} :
    writeFileTree C m (some r) force' i (outside L fs w') = (.error .runtime, outside L fs w') :=
  C29_file_trees_fail hr m force' i ((C29_left_behind hr h).resolve_right he)

/-! ### C53 -/

/-- C53 is false: a UUID set without datasets can never be written, whatever the state. -/
theorem C53_false (hr : r ≠ []) {n : Nat} {force : Bool} {i : ObjId} {w w' : World} {ref : Ref}
    (hm : (w.heap i).mapped = true) (hd : (w.heap i).body = Body.empty .uuidset) (hu : r ∉ (w.heap i).savedOn) :
    writeOut C n (some r) force i w ≠ (.ok ref, w') := by
  intro h
  cases n with
  | zero => cases h
  | succ n =>
    rw [writeOut_mapped hr hm rfl] at h
    split at h
    · cases h
    · have hsv : isSavedOn (n + 1) (w.heap.set i { w.heap i with realm := some r }) r i = .ok false := by
        rw [isSavedOn_succ]
        rw [if_pos]
        rw [Heap.set_self]; exact hu
      rw [hsv] at h
      simp only [Bool.false_eq_true, false_and, if_false] at h
      cases hx : mapOut C (writeOut C n (some r)) r force (w.heap i).body
          { w with heap := w.heap.set i { w.heap i with realm := some r } } with
      | mk res w2 =>
        rw [hx] at h
        cases res with
        | error e => cases h
        | ok ref0 =>
          rw [hd] at hx
          unfold mapOut at hx
          simp only [Body.empty, Data.empty] at hx
          obtain ⟨es, w3, e1, hx⟩ := M.bind_ok hx
          rw [M.forEach_nil] at e1
          cases e1
          obtain ⟨h1, w4, e2, hx⟩ := M.bind_ok hx
          obtain ⟨s, e3, _⟩ := liftG_ok e2
          have := (gitCmd_ok e3).1
          rw [show mktree (treeSpec []) = none by decide] at this
          cases this

theorem gitCmd_works {α : Type} {cmd : Log → List GitOp × Except PyErr α} {s : Repo} (h : s.faults = []) :
    gitCmd cmd s = ((cmd s.log).2, ⟨(cmd s.log).1.reverse ++ s.log, []⟩) := by
  unfold gitCmd; rw [h]

/-- C53: a tree version list without versions can be written in every state in which git
works, and a process that opens the list of the repository reads an empty list.  Partial:
`C53_false`. -/
theorem C53_list_partial (hr : r ≠ []) (hrem : Ref.isRemote r = false) (n : Nat) (force : Bool) {i : ObjId} {w : World}
    (hm : (w.heap i).mapped = true) (hd : (w.heap i).body = Body.empty .tvl) (hu : r ∉ (w.heap i).savedOn)
    (hf : w.repo.faults = []) :
    ∃ ref w', writeOut C (n + 1) (some r) force i w = (.ok ref, w') ∧
      (CollisionFree C w'.repo.log →
        strictFetch C w'.repo.log r .tvl tvlLink.ref = .ok (Body.empty .tvl) ∧
        strictFetch C w'.repo.log r .tvl (normRef .tvl ref) = .ok (Body.empty .tvl)) := by
  have hsv : isSavedOn (n + 1) (w.heap.set i { w.heap i with realm := some r }) r i = .ok false := by
    rw [isSavedOn_succ]
    rw [if_pos]
    rw [Heap.set_self]; exact hu
  have hx : mapOut C (writeOut C n (some r)) r force (w.heap i).body
      { w with heap := w.heap.set i { w.heap i with realm := some r } } =
      (.ok ⟨c!"VersionList", some (C.hash (.blob (dumps C.floats (.arr []))))⟩,
        { w with heap := w.heap.set i { w.heap i with realm := some r }, repo :=
          ⟨.setRef r tvlRefName (C.hash (.blob (dumps C.floats (.arr [])))) ::
            .save r (.blob (dumps C.floats (.arr []))) :: w.repo.log, []⟩ }) := by
    rw [hd]
    unfold mapOut
    simp only [Body.empty, Data.empty]
    have h1 : writeVersionList C (writeOut C n (some r) false) r []
        { w with heap := w.heap.set i { w.heap i with realm := some r } } =
        (.ok (C.hash (.blob (dumps C.floats (.arr [])))),
          { w with heap := w.heap.set i { w.heap i with realm := some r }, repo :=
            ⟨.save r (.blob (dumps C.floats (.arr []))) :: w.repo.log, []⟩ }) := by
      unfold writeVersionList
      rw [M.bind_of_ok (M.forEach_nil _ _)]
      unfold liftG gitSaveJson gitSaveStr
      simp only
      rw [gitCmd_works hf]
      rfl
    rw [M.bind_of_ok h1]
    have h2 : liftG (gitUpdateRef C r tvlRefName (C.hash (.blob (dumps C.floats (.arr [])))))
        { w with heap := w.heap.set i { w.heap i with realm := some r }, repo :=
            ⟨.save r (.blob (dumps C.floats (.arr []))) :: w.repo.log, []⟩ } =
        (.ok (), { w with heap := w.heap.set i { w.heap i with realm := some r }, repo :=
          ⟨.setRef r tvlRefName (C.hash (.blob (dumps C.floats (.arr [])))) ::
            .save r (.blob (dumps C.floats (.arr []))) :: w.repo.log, []⟩ }) := by
      have h3 : ∃ o, resolve C (.save r (.blob (dumps C.floats (.arr []))) :: w.repo.log) r
          (C.hash (.blob (dumps C.floats (.arr [])))) = some o := by
        rw [resolve_hash (C.valid _), ← Option.isSome_iff_exists]
        exact findObj_isSome List.mem_cons_self
      obtain ⟨o, h3⟩ := h3
      unfold liftG gitUpdateRef
      simp only
      rw [gitCmd_works rfl]
      simp only [h3]
      rfl
    rw [M.bind_of_ok h2]; rfl
  rw [writeOut_mapped hr hm rfl, if_neg (by simp [hrem]), hsv]
  simp only [Bool.false_eq_true, false_and, if_false]
  rw [hx]
  refine ⟨_, _, rfl, fun hc => ?_⟩
  simp only at hc ⊢
  have hst : Stored (.setRef r tvlRefName (C.hash (.blob (dumps C.floats (.arr [])))) ::
            .save r (.blob (dumps C.floats (.arr []))) :: w.repo.log) r (.blob (dumps C.floats (.arr []))) :=
    List.mem_cons_of_mem _ List.mem_cons_self
  have hres := resolve_stored hc hst
  have hname : resolve C (.setRef r tvlRefName (C.hash (.blob (dumps C.floats (.arr [])))) ::
            .save r (.blob (dumps C.floats (.arr []))) :: w.repo.log) r tvlRefName = some (.blob (dumps C.floats (.arr []))) := by
    unfold resolve
    rw [if_neg (by decide)]
    simp only [refOf]
    simp only [and_self, if_true]
    exact findObj_of_stored hc hst
  have key : ∀ loc, resolve C (.setRef r tvlRefName (C.hash (.blob (dumps C.floats (.arr [])))) ::
            .save r (.blob (dumps C.floats (.arr []))) :: w.repo.log) r loc = some (.blob (dumps C.floats (.arr []))) →
      Ref.isNone ⟨c!"TreeVersionList", some loc⟩ = false →
      strictFetch C (.setRef r tvlRefName (C.hash (.blob (dumps C.floats (.arr [])))) ::
            .save r (.blob (dumps C.floats (.arr []))) :: w.repo.log) r .tvl ⟨c!"TreeVersionList", some loc⟩ =
        .ok (Body.empty .tvl) := by
    intro loc h hn
    have hj : jsonAt C (.setRef r tvlRefName (C.hash (.blob (dumps C.floats (.arr [])))) ::
            .save r (.blob (dumps C.floats (.arr []))) :: w.repo.log) r loc = .ok (.arr []) := by
      unfold jsonAt textAt
      rw [h]
      simp only
      rw [gitText_dumps, loads_dumps _ _ (by simp [Json.WF, Json.WFArr])]
    unfold strictFetch fetch
    rw [hn]
    simp only [decode, hj]
    rfl
  refine ⟨key _ hname (by decide), key _ hres (isNone_hash (C.valid _))⟩

/-- The two kinds of empty objects -/
example : ∃ w : World, (w.heap 0).mapped = true ∧ (w.heap 0).body = Body.empty .tvl ∧
    sampleRealm ∉ (w.heap 0).savedOn ∧ (w.heap 1).mapped = true ∧ (w.heap 1).body = Body.empty .uuidset ∧
    sampleRealm ∉ (w.heap 1).savedOn ∧ w.repo.faults = [] ∧ Ref.isRemote sampleRealm = false :=
  ⟨populate (start ⟨[], []⟩) [Body.empty .tvl, Body.empty .uuidset], by decide, rfl, by decide, by decide, rfl,
    by decide, rfl, by decide⟩

/-! ### C52 -/

theorem forEach_each {σ α β : Type} {R : σ → σ → Prop} (hr : ∀ s, R s s) (ht : ∀ a b c, R a b → R b c → R a c)
    {f : α → M σ β} : ∀ {l : List α} {w w' : σ} {bs : List β}, (∀ a ∈ l, M.Keeps (f a) R) →
    M.forEach f l w = (.ok bs, w') → ∀ a ∈ l, ∃ w1 b w2, R w w1 ∧ f a w1 = (.ok b, w2) := by
  intro l
  induction l with
  | nil => intro w w' bs _ _ a ha; cases ha
  | cons x l ih =>
    intro w w' bs hf h a ha
    rw [M.forEach_cons] at h
    obtain ⟨b, w1, h1, h⟩ := M.bind_ok h
    obtain ⟨bs', w2, h2, _⟩ := M.bind_ok h
    rcases List.mem_cons.mp ha with rfl | ha
    · exact ⟨w, b, w1, hr w, h1⟩
    · obtain ⟨w3, b3, w4, h3, h4⟩ := ih (fun a ha => hf a (List.mem_cons_of_mem _ ha)) h2 a ha
      have := hf x List.mem_cons_self w
      rw [h1] at this
      exact ⟨w3, b3, w4, ht _ _ _ this h3, h4⟩

/-- C52, what goes wrong: a version list that is loaded and was changed cannot be written, in
no state, while one of its elements is not loaded and not stored in the repository, as
elements are that were stored empty and were not looked into since (`C52_false`). -/
theorem C52_fails (hr : r ≠ []) {n : Nat} {force : Bool} {i : ObjId} {w w' : World} {ref : Ref}
    (hk : (w.heap i).kind = .tvl ∨ (w.heap i).kind = .vlist) (hm : (w.heap i).mapped = true)
    (hu : r ∉ (w.heap i).savedOn) {k : Key} {stamp : Str} {j : ObjId} (hj : (k, stamp, j) ∈ (w.heap i).body.kids)
    (hmj : (w.heap j).mapped = false) (huj : r ∉ (w.heap j).savedOn) :
    writeOut C n (some r) force i w ≠ (.ok ref, w') := by
  intro h
  cases n with
  | zero => cases h
  | succ n =>
    have hji : j ≠ i := by rintro rfl; rw [hm] at hmj; cases hmj
    rw [writeOut_mapped hr hm rfl] at h
    split at h
    · cases h
    · have hsv : isSavedOn (n + 1) (w.heap.set i { w.heap i with realm := some r }) r i = .ok false := by
        rw [isSavedOn_succ]
        rw [if_pos]
        rw [Heap.set_self]; exact hu
      rw [hsv] at h
      simp only [Bool.false_eq_true, false_and, if_false] at h
      cases hx : mapOut C (writeOut C n (some r)) r force (w.heap i).body
          { w with heap := w.heap.set i { w.heap i with realm := some r } } with
      | mk res w2 =>
        rw [hx] at h
        cases res with
        | error e => cases h
        | ok ref0 =>
          have hv : ∃ s w3, writeVersionList C (writeOut C n (some r) false) r (w.heap i).body.kids
              { w with heap := w.heap.set i { w.heap i with realm := some r } } = (.ok s, w3) := by
            unfold Obj.kind Data.kind at hk
            unfold mapOut at hx
            cases hd : (w.heap i).body.data <;> rw [hd] at hk hx <;> simp at hk
            all_goals
              obtain ⟨s, w3, e1, _⟩ := M.bind_ok hx
              exact ⟨s, w3, e1⟩
          obtain ⟨s, w3, hv⟩ := hv
          unfold writeVersionList at hv
          obtain ⟨js, w4, e1, _⟩ := M.bind_ok hv
          have c := closed_away C r
          obtain ⟨w5, b, w6, h5, h6⟩ := forEach_each c.refl c.trans (fun e _ => c.bind (c.writeElement (fun j => c.writeOut hr n false j) _) (fun _ => c.pure _)) e1 _ hj
          have hw5 : w5.heap j = w.heap j := by
            rw [h5.1 j (by simp only [Heap.set_ne hji]; exact hmj)]
            exact Heap.set_ne hji
          obtain ⟨ref1, w7, e7, _⟩ := M.bind_ok h6
          have : ∃ ref w8, writeOut C n (some r) false j w5 = (.ok ref, w8) := by
            unfold writeElement at e7
            rw [M.bind_of_ok (getObj_run _ _)] at e7
            split at e7
            · obtain ⟨ref2, w8, e8, _⟩ := M.bind_ok e7
              exact ⟨_, _, e8⟩
            · exact ⟨_, _, e7⟩
          obtain ⟨ref2, w8, e8⟩ := this
          cases n with
          | zero => cases e8
          | succ n =>
            rw [writeOut_away (by rw [hw5]; exact hmj), hw5] at e8
            cases hre : (w.heap j).realm <;> cases href : (w.heap j).ref <;> rw [hre, href] at e8
            · cases e8
            · cases e8
            · cases e8
            · simp only [if_neg huj] at e8
              cases e8

/-- Another process has opened the list with an empty dataset tree, and adds a version. -/
def grownList : Except PyErr Unit × World := (do
  let t ← alloc (Obj.new ⟨.mtree .mrr, []⟩)
  setVersioned sampleCfg 0 c!"v2" c!"0.2" ⟨[], []⟩ t) hollowWorld

/-- C52 is false: the list was written, the version was added, git works, but the list cannot
be written. -/
theorem C52_false : isOk hollowWrite = true ∧ isOk grownList = true ∧ grownList.2.repo.faults = [] ∧
    errOf (writeAs sampleCfg .own 20 (some sampleRealm) false 0 grownList.2) = some .runtime := by
  decide +kernel

/-- The list meets the hypotheses of `C52_fails`. -/
example : ∃ k stamp j, (grownList.2.heap 0).kind = .tvl ∧ (grownList.2.heap 0).mapped = true ∧
    sampleRealm ∉ (grownList.2.heap 0).savedOn ∧ (k, stamp, j) ∈ (grownList.2.heap 0).body.kids ∧
    (grownList.2.heap j).mapped = false ∧ sampleRealm ∉ (grownList.2.heap j).savedOn :=
  ⟨.ver c!"v1" ⟨[], []⟩, c!"0.1", 2, by decide +kernel, by decide +kernel, by decide +kernel, by decide +kernel,
    by decide +kernel, by decide +kernel⟩

/-! ### C27 -/

/-- The only element of a file tree is removed. -/
def emptiedTree : Except PyErr Unit × World := removeChildAt sampleCfg [c!"a", c!"b"] 3 sampleWorld

/-- C27 is false: an element is added and removed again, and the tree cannot be written,
because it holds an inner node without elements; git works. -/
theorem C27_false : isOk emptiedTree = true ∧ emptiedTree.2.repo.faults = [] ∧
    errOf (writeAs sampleCfg .file 20 (some sampleRealm) false 3 emptiedTree.2) = some .runtime := by
  decide +kernel

/-! ### C55 -/

/-- A file tree is written and purged, and then its elements are listed. -/
def listedTree : Except PyErr (List (PPath × ObjId)) × World := (do
  let _ ← writeAs sampleCfg .file 20 (some sampleRealm) false 3
  purge 20 3
  getPaths sampleCfg false 20 3) sampleWorld

/-- A run of another extractor is added to the listed object. -/
def listedRun : Except PyErr Unit × World := addExtractorRun sampleCfg 10 c!"listed" sampleRun listedTree.2

/-- The tree is written once more. -/
def listedWrite : Except PyErr Ref × World := writeAs sampleCfg .file 20 (some sampleRealm) false 3 listedRun.2

/-- Whether the metadata that was found has a run of the extractor -/
def Res.ran (x : Str) : Res → Bool
  | .found _ (.metadata m) _ => decide (x ∈ dkeys m)
  | _ => false

/-- C55 is false: a file tree is written and purged; listing it gives an object for `a/b`.
A run is added to this object.  The tree does not get the run, neither in memory nor in the
repository, when it is written once more. -/
theorem C55_false : okVal listedTree = some [(⟨[], [c!"a", c!"b"]⟩, 10)] ∧ isOk listedRun = true ∧
    isOk listedWrite = true ∧ listedWrite.2.repo.log = listedTree.2.repo.log ∧
    (look sampleCfg listedRun.2.repo.log listedRun.2.heap [] [] (.mem 10)).ran c!"listed" = true ∧
    (look sampleCfg listedRun.2.repo.log listedRun.2.heap (names [c!"a", c!"b"]) [] (.mem 3)).ran c!"listed" = false ∧
    (look sampleCfg listedWrite.2.repo.log listedWrite.2.heap (names [c!"a", c!"b"]) []
      (.sto sampleRealm ⟨.mtree .metadata, normRef (.mtree .metadata) (okRef listedWrite)⟩)).ran c!"listed" = false := by
  decide +kernel

/-- All inner nodes of a tree are loaded. -/
def InMemory (h : Heap) (i : ObjId) : Prop :=
  ∀ ks j, Leads h i ks j → (h j).kind.isMtree = true → (h j).mapped = true

/-- Listing a tree that is loaded gives the objects of the tree, and changes nothing. -/
theorem getPaths_loaded (sn : Bool) (n : Nat) : ∀ {w : World}, Fine C w → ∀ {i : ObjId}, InMemory w.heap i →
    (w.heap i).kind.isMtree = true → GoodNames C w i → ∀ {l w'}, getPaths C sn n i w = (.ok l, w') →
    w' = w ∧ ∀ e ∈ l, e.1.root = [] ∧ Leads w.heap i (names e.1.comps) e.2 := by
  induction n with
  | zero => intro w _ i _ _ _ l w' h; cases h
  | succ n ih =>
    intro w hs i hmem hk hg l w' h
    have hm := hmem [] i (Leads.nil i) hk
    unfold getPaths withMapped at h
    obtain ⟨l1, w3, h1, h2⟩ := M.bind_ok h
    cases h2
    rw [M.bind_of_ok (ensureMapped_mapped hm)] at h1
    simp only [Bool.false_eq_true, if_false] at h1
    unfold listKids at h1
    rw [M.bind_of_ok (getObj_run i w)] at h1
    obtain ⟨ls, w4, h3, h4⟩ := M.bind_ok h1
    cases h4
    have hf := hs.formed i hm
    have hkid : ∀ e ∈ (w.heap i).body.kids, ∀ {l0 w1}, kidPaths (getPaths C sn n) e w = (.ok l0, w1) →
        w1 = w ∧ ∀ x ∈ l0, x.1.root = [] ∧ Leads w.heap i (names x.1.comps) x.2 := by
      intro e he l0 w1 hx
      obtain ⟨nm, hnm⟩ := fits_tree hk (hf.fits e he)
      have hd : dget (w.heap i).body.kids (.name nm) = some (e.2.1, e.2.2) := by
        rw [← hnm]; exact dget_of_mem hf.keys he
      have hlk := fun ks => look_name (C := C) (L := w.repo.log) (t := e.2.1) (c := e.2.2) hs.plain hm hd ks []
      have hn : CompOk e.1.entryName := by
        rw [hnm]
        have h1 := hlk []
        obtain ⟨b, hb⟩ := view_ok_of_look (hs.all e.2.2 [] [])
        rw [look_nil [] hb] at h1
        exact hg [nm] _ _ h1 _ (List.mem_singleton.mpr rfl)
      have step : ∀ {ks j}, Leads w.heap e.2.2 ks j → Leads w.heap i (.name nm :: ks) j :=
        fun h => Leads.cons e.2.1 e.2.2 hm hd h
      have hen : e.1.entryName = nm := by rw [hnm]; rfl
      unfold kidPaths at hx
      rw [M.bind_of_ok (getObj_run _ w), metadataPath_one hn, hen] at hx
      by_cases hke : (w.heap e.2.2).kind.isMtree = true
      · rw [if_pos hke] at hx
        obtain ⟨l2, w2, g1, g2⟩ := M.bind_ok hx
        cases g2
        obtain ⟨rfl, g3⟩ := ih hs (fun ks j hl => hmem _ j (step hl)) hke (fun q d b hq m hmq =>
          hg (nm :: q) d b (by rw [← hq, ← hlk]; rfl) m (List.mem_cons_of_mem _ hmq)) g1
        refine ⟨rfl, fun x hx => ?_⟩
        obtain ⟨y, hy, rfl⟩ := List.mem_map.mp hx
        obtain ⟨y1, y2⟩ := g3 y hy
        unfold PPath.join
        rw [if_pos y1]
        exact ⟨rfl, step y2⟩
      · rw [if_neg hke] at hx
        cases hx
        refine ⟨rfl, fun x hx => ?_⟩
        rw [List.mem_singleton.mp hx]
        exact ⟨rfl, step (Leads.nil _)⟩
    have hloop : ∀ (K : List (Key × (Str × ObjId))), (∀ e ∈ K, e ∈ (w.heap i).body.kids) → ∀ {ls w1},
        M.forEach (kidPaths (getPaths C sn n)) K w = (.ok ls, w1) →
        w1 = w ∧ ∀ x ∈ ls.flatten, x.1.root = [] ∧ Leads w.heap i (names x.1.comps) x.2 := by
      intro K
      induction K with
      | nil => intro _ ls w1 h; cases h; exact ⟨rfl, fun x hx => by cases hx⟩
      | cons e K ihK =>
        intro hK ls w1 h
        rw [M.forEach_cons] at h
        obtain ⟨l0, w2, g1, g2⟩ := M.bind_ok h
        obtain ⟨ls', w5, g3, g4⟩ := M.bind_ok g2
        cases g4
        obtain ⟨rfl, k1⟩ := hkid e (hK e List.mem_cons_self) g1
        obtain ⟨rfl, k2⟩ := ihK (fun e he => hK e (List.mem_cons_of_mem _ he)) g3
        refine ⟨rfl, fun x hx => ?_⟩
        rw [List.flatten_cons] at hx
        rcases List.mem_append.mp hx with hx | hx
        · exact k1 x hx
        · exact k2 x hx
    obtain ⟨rfl, k⟩ := hloop _ (fun e he => he) h3
    refine ⟨rfl, fun e he => ?_⟩
    cases sn with
    | false => exact k e he
    | true =>
      simp only [if_true] at he
      rcases List.mem_cons.mp he with rfl | he
      · exact ⟨rfl, Leads.nil i⟩
      · exact k e he

/-- C55: in a tree whose inner nodes are all loaded, a listed object is the element of the
tree: a run that is added to it is found in the tree at the listed path, after the runs that
were there, and the tree is no longer taken for saved, so that it will be written (C18).
Partial: this does not hold for trees that are not loaded (`C55_false`). -/
theorem C55_loaded_partial {w w' w2 : World} (hs : Fine C w) {i : ObjId} (hi : i < w.next)
    (hmem : InMemory w.heap i) (hk : (w.heap i).kind.isMtree = true) (hg : GoodNames C w i) {sn : Bool} {n : Nat}
    {l : List (PPath × ObjId)} (h : getPaths C sn n i w = (.ok l, w')) {e : PPath × ObjId} (he : e ∈ l)
    {ext : Str} {run : Instance} (h2 : addExtractorRun C e.2 ext run w' = (.ok (), w2)) :
    ∃ m, look C w.repo.log w.heap (names e.1.comps) [] (.mem i) = .found [] (.metadata m) false ∧
      look C w2.repo.log w2.heap (names e.1.comps) [] (.mem i) = .found [] (.metadata (m.addRun ext run)) false ∧
      (∀ n x, isSavedOn n w2.heap x i ≠ .ok true) := by
  obtain ⟨rfl, hl0⟩ := getPaths_loaded sn n hs hmem hk hg h
  obtain ⟨_, hlead0⟩ := hl0 e he
  have hj : e.2 < w'.next := (getPaths_listed sn n hs hi hk hg h).2.2.sound e he |>.1
  have h3 := h2
  unfold addExtractorRun at h3
  obtain ⟨b, w1, h4, _⟩ := M.bind_ok h3
  obtain ⟨hl, hm⟩ := hs.loaded hj h4
  have hlead := hl.leads hs hi hlead0
  have h5 : addExtractorRun C e.2 ext run w1 = (.ok (), w2) := by
    have h6 := h2
    unfold addExtractorRun at h6 ⊢
    rw [M.bind_of_ok h4] at h6
    rw [M.bind_of_ok (ensureMapped_mapped hm)]
    exact h6
  obtain ⟨m, hd, rfl⟩ := addExtractorRun_mapped hm h5
  have hdc : DataChanged e.2 (.metadata (m.addRun ext run)) w1.heap
      (MM.edit e.2 ⟨.metadata (m.addRun ext run), (w1.heap e.2).body.kids⟩ w1).heap := by
    refine ⟨hm, by rw [edit_self]; exact hm, by rw [edit_self], by rw [edit_self], ?_, ?_⟩
    · rw [hd]; rfl
    · intro a ha; exact edit_ne _ _ ha
  have hblank : (w1.heap e.2).body.blank = false := by
    unfold Body.blank; rw [hd]; rfl
  have hfound : look C w1.repo.log w1.heap (names e.1.comps) [] (.mem i) = .found [] (.metadata m) false := by
    rw [← List.append_nil (names e.1.comps), hlead.look hl.fine.plain, look_self hm, hd, hblank]
  refine ⟨m, ?_, ?_, ?_⟩
  · rw [hl.content i hi]; exact hfound
  · rw [show (MM.edit e.2 ⟨.metadata (m.addRun ext run), (w1.heap e.2).body.kids⟩ w1).repo.log = w1.repo.log
      from rfl, (hdc.look (C := C) (L := w1.repo.log) (names e.1.comps) [] i).1 hlead, hfound]
    rfl
  · intro n x
    refine C20_noticed _ _ _ _ _ ?_
    have key : ∀ {a b : ObjId}, Reach w1.heap a b → b = e.2 →
        Reach (MM.edit e.2 ⟨.metadata (m.addRun ext run), (w1.heap e.2).body.kids⟩ w1).heap a e.2 := by
      intro a b hr
      induction hr with
      | refl a => rintro rfl; exact Reach.refl _
      | step a c b hma hca _ ih =>
        intro hb
        by_cases haj : a = e.2
        · subst haj; exact Reach.refl _
        · refine Reach.step a c e.2 ?_ ?_ (ih hb) <;> rw [edit_ne _ _ haj]
          · exact hma
          · exact hca
    exact key hlead.reach rfl

/-- The file tree of the examples is in memory; its element is listed, and a run is added. -/
example : ∃ l w' w2, Fine sampleCfg treeWorld ∧ 3 < treeWorld.next ∧ InMemory treeWorld.heap 3 ∧
    (treeWorld.heap 3).kind.isMtree = true ∧ GoodNames sampleCfg treeWorld 3 ∧
    getPaths sampleCfg false 5 3 treeWorld = (.ok l, w') ∧ (⟨[], [c!"a", c!"b"]⟩, 1) ∈ l ∧
    addExtractorRun sampleCfg 1 c!"core" sampleRun w' = (.ok (), w2) := by
  have h1 : getPaths sampleCfg false 5 3 treeWorld = (.ok [(⟨[], [c!"a", c!"b"]⟩, 1)], _) :=
    of_okVal (by decide +kernel)
  refine ⟨_, _, _, treeWorld_fine, by decide +kernel, ?_, by decide +kernel, treeWorld_solid.2, h1, by simp,
    of_isOk_unit (by decide +kernel)⟩
  intro ks j hl _
  rcases treeWorld_leads hl with ⟨_, rfl⟩ | ⟨_, rfl⟩ | ⟨_, rfl⟩ <;> decide +kernel

end MM
