/-
C21, C22 (file trees), C23, C25, C26 and C48: what is written where, and which
objects can be handled.
-/
import Verif.Props.Saved

namespace MM

variable {C : Cfg} {r : Realm}

/-! ### C22 for file trees -/

/-- Flushing an empty cache: git is called with nothing to store. -/
theorem flush_empty {w : World} (hc : w.caches = []) :
    flushRealm C r { w with caches := [(r, [])] } = match w.repo.faults with
      | .fail _ :: fs => (.error .runtime, { w with caches := [(r, [])], repo := ⟨w.repo.log, fs⟩ })
      | .none :: fs => (.ok (), { w with repo := ⟨w.repo.log, fs⟩ })
      | [] => (.ok (), w) := by
  obtain ⟨heap, next, ⟨log, faults⟩, caches, refs⟩ := w
  simp only at hc
  subst hc
  rcases faults with _ | ⟨f, fs⟩
  · simp [flushRealm, flushCache, liftG, gitSaveBlobs, gitCmd, M.bind_run, dget_cons, dset, ddel]
  · cases f <;>
      simp [flushRealm, flushCache, liftG, gitSaveBlobs, gitCmd, M.bind_run, dget_cons, dset, ddel]

/-- C22 through the wrapper `FileTree`: the blob cache is opened and flushed although
there is nothing to write.  Nothing changes in the repositories; if the second call
succeeds, it returns the same reference; if git works, it succeeds. -/
theorem C22_file_tree_partial {w w' : World} (hr : r ≠ []) (hs : History C r w) {n m : Nat}
    {force : Bool} {i : ObjId} {ref : Ref}
    (h : writeFileTree C n (some r) force i w = (.ok ref, w'))
    (hc : CollisionFree C w'.repo.log) (hm : (w.heap i).mapped = true) (hsto : Storable w.heap i)
    (hal : Alone r w.heap i) (ht : Trusted C r w i) (ho : Owned r w.heap i) (hnm : n ≤ m) :
    (writeFileTree C m (some r) false i w').2.repo.log = w'.repo.log ∧
    (writeFileTree C m (some r) false i w').2.heap = w'.heap ∧
    (∀ ref', (writeFileTree C m (some r) false i w').1 = .ok ref' → ref' = ref) ∧
    (w'.repo.faults = [] → (writeFileTree C m (some r) false i w').1 = .ok ref) := by
  have int := hs.intact hr
  obtain ⟨rank, post⟩ := int.post hr (via := .file) h hc hsto hal ht ho
  have done := int.done hr (via := .file) h hc hsto hal ht ho
  have home' := done.intact.home
  have caches' := done.caches
  rw [writeFileTree_eq hr] at h
  unfold fileTreeWrite at h
  simp only at h
  obtain ⟨_, wa, ea, g1⟩ := M.bind_ok h
  obtain ⟨ref1, wb, eb, _⟩ := M.bind_ok g1
  have hrem : Ref.isRemote r = false := by
    refine not_remote hr ?_ eb
    rw [(cacheRealm_quiet ea).1.heap]; exact hm
  obtain ⟨l, hl, _⟩ := post.good.ok.loc
  rw [writeFileTree_eq hr]
  unfold fileTreeWrite
  simp only
  have e1 : cacheRealm r w' = (.ok (), { w' with caches := [(r, [])] }) := by
    unfold cacheRealm
    rw [caches']
    rfl
  have e2 : writeOut C m (some r) false i { w' with caches := [(r, [])] } =
      (.ok ref, { w' with caches := [(r, [])] }) :=
    write_saved hr hrem (isSavedOn_more hnm post.saved) post.hasRef
      (home' i r (clean_of_isSavedOn post.saved).flag).2
  have ef := flush_empty (C := C) (r := r) caches'
  have fin : ∀ v : World, v.heap = w'.heap → v.repo.log = w'.repo.log →
      (((if ref.isNone then pure ref else do addRef true ref.loc; pure ref) : W Ref) v).1 = .ok ref ∧
      (((if ref.isNone then pure ref else do addRef true ref.loc; pure ref) : W Ref) v).2.heap = w'.heap ∧
      (((if ref.isNone then pure ref else do addRef true ref.loc; pure ref) : W Ref) v).2.repo.log = w'.repo.log := by
    intro v h1 h2
    split
    · exact ⟨rfl, h1, h2⟩
    · rw [hl]
      by_cases hx : l = noneLocation ∨ (true, l) ∈ v.refs
      · have e : addRef true (some l) v = (.ok (), v) := by
          unfold addRef; simp only; rw [if_pos hx]
        rw [M.bind_of_ok e]
        exact ⟨rfl, h1, h2⟩
      · have e : addRef true (some l) v = (.ok (), { v with refs := v.refs ++ [(true, l)] }) := by
          unfold addRef; simp only; rw [if_neg hx]
        rw [M.bind_of_ok e]
        exact ⟨rfl, h1, h2⟩
  rw [M.bind_of_ok e1, M.bind_of_ok e2]
  rcases hfs : w'.repo.faults with _ | ⟨f, fs⟩
  · simp only [hfs] at ef
    rw [M.bind_of_ok ef]
    obtain ⟨g1, g2, g3⟩ := fin w' rfl rfl
    rw [g1]
    exact ⟨g3, g2, fun ref' h => by injection h with h; exact h.symm, fun _ => rfl⟩
  · cases f with
    | none =>
      simp only [hfs] at ef
      rw [M.bind_of_ok ef]
      obtain ⟨g1, g2, g3⟩ := fin { w' with repo := ⟨w'.repo.log, fs⟩ } rfl rfl
      rw [g1]
      exact ⟨g3, g2, fun ref' h => by injection h with h; exact h.symm, fun h => by cases h⟩
    | fail k =>
      simp only [hfs] at ef
      rw [M.bind_of_error ef]
      refine ⟨rfl, rfl, ?_, ?_⟩
      · intro ref' h'; cases h'
      · intro h'; cases h'


/-! ### C23 -/

/-- C23: writing an object to a realm, whatever the outcome, only adds changes of that
realm to the repositories.  All objects stay stored, in all realms, and the names in
other realms stay. -/
theorem C23_only_destination (hr : r ≠ []) (via : Via) (n : Nat) (force : Bool) (i : ObjId)
    (w : World) :
    (∃ ops, (writeAs C via n (some r) force i w).2.repo.log = ops ++ w.repo.log ∧
      ∀ op ∈ ops, op.realm = r) ∧
    (∀ x o, Stored w.repo.log x o → Stored (writeAs C via n (some r) force i w).2.repo.log x o) ∧
    (∀ x o, x ≠ r → Stored (writeAs C via n (some r) force i w).2.repo.log x o →
      Stored w.repo.log x o) ∧
    (∀ x nm, x ≠ r → refOf (writeAs C via n (some r) force i w).2.repo.log x nm =
      refOf w.repo.log x nm) := by
  obtain ⟨ops, h1, h2⟩ := (writeAs_any (C := C) hr via n force i w).log
  refine ⟨⟨ops, h1, h2⟩, ?_, ?_, ?_⟩
  · intro x o h
    rw [h1]
    exact List.mem_append_right _ h
  · intro x o hx h
    rw [h1] at h
    rcases List.mem_append.mp h with h | h
    · exact absurd (h2 _ h) hx
    · exact h
  · intro x nm hx
    rw [h1]
    clear h1
    induction ops with
    | nil => rfl
    | cons op ops ih =>
      have ih := ih fun o ho => h2 o (List.mem_cons_of_mem _ ho)
      have ho := h2 op (List.mem_cons_self ..)
      cases op with
      | save r' o => exact ih
      | setRef r' n' h' =>
        have e : r' = r := ho
        rw [List.cons_append, refOf, if_neg (fun h => hx (by rw [← e, h.1]))]
        exact ih
      | delRef r' n' =>
        have e : r' = r := ho
        rw [List.cons_append, refOf, if_neg (fun h => hx (by rw [← e, h.1]))]
        exact ih

theorem writeOut_remote (hrem : Ref.isRemote r = true) (n : Nat) (force : Bool) (i : ObjId) (w : World) :
    (writeOut C n (some r) force i w).2 = w := by
  have hr : r ≠ [] := by rintro rfl; exact absurd hrem (by decide)
  cases n with
  | zero => rfl
  | succ n =>
    by_cases hm : (w.heap i).mapped = true
    · rw [writeOut_mapped hr hm rfl, if_pos hrem]
    · rw [writeOut_away (by simpa using hm)]
      split
      · split <;> rfl
      · rfl

theorem flushRealm_nothing {w : World} (hd : dget w.caches r = some []) :
    (flushRealm C r w).2.repo.log = w.repo.log := by
  obtain ⟨heap, next, ⟨log, faults⟩, caches, refs⟩ := w
  simp only at hd
  rcases faults with _ | ⟨f, fs⟩
  · simp [flushRealm, flushCache, liftG, gitSaveBlobs, gitCmd, M.bind_run, hd]
  · cases f <;> simp [flushRealm, flushCache, liftG, gitSaveBlobs, gitCmd, M.bind_run, hd]

theorem addRef_repo (t : Bool) (l : Option Str) (w : World) : (addRef t l w).2.repo = w.repo := by
  unfold addRef
  cases l with
  | none => rfl
  | some l => simp only; split <;> rfl

/-- C23: nothing is ever written to a remote repository. -/
theorem C23_remote (hrem : Ref.isRemote r = true) (via : Via) (n : Nat) (force : Bool) (i : ObjId)
    (w : World) : (writeAs C via n (some r) force i w).2.repo.log = w.repo.log := by
  have hr : r ≠ [] := by rintro rfl; exact absurd hrem (by decide)
  have hw := writeOut_remote (C := C) hrem n force i
  have hadd : ∀ (ref : Ref) (v : World),
      (((if ref.isNone then pure ref else do addRef true ref.loc; pure ref) : W Ref) v).2.repo = v.repo := by
    intro ref v
    split
    · rfl
    · rw [M.bind_run]
      have := addRef_repo true ref.loc v
      split
      · rename_i e; rw [e] at this; exact this
      · rename_i e; rw [e] at this; exact this
  cases via with
  | own => rw [show writeAs C .own n (some r) force i w = writeOut C n (some r) force i w from rfl, hw]
  | dataset =>
    show (proxyWrite (writeOut C n (some r) force i) w).2.repo.log = _
    unfold proxyWrite
    rw [M.bind_run]
    have := hw w
    split
    · rename_i ref v e
      rw [e] at this
      rw [hadd ref v]
      exact congrArg (fun w => w.repo.log) this
    · rename_i v e
      rw [e] at this
      exact congrArg (fun w => w.repo.log) this
  | file =>
    show (writeFileTree C n (some r) force i w).2.repo.log = _
    rw [writeFileTree_eq hr]
    unfold fileTreeWrite
    simp only
    rw [M.bind_run]
    unfold cacheRealm
    cases hd : dget w.caches r with
    | some bs => rfl
    | none =>
      simp only
      rw [M.bind_run]
      have := hw { w with caches := w.caches ++ [(r, [])] }
      split
      · rename_i ref v e
        rw [e] at this
        simp only at this
        subst this
        rw [M.bind_run]
        have hf := flushRealm_nothing (C := C) (r := r) (w := { w with caches := w.caches ++ [(r, [])] })
          (by simp only; rw [dget_append, hd]; simp [dget_cons])
        split
        · rename_i v2 e2
          rw [hadd, ← hf, e2]
        · rename_i v2 e2
          rw [← hf, e2]
      · rename_i v e
        rw [e] at this
        simp only at this
        subst this
        rfl

/-- C23: reading changes no repository, whatever the outcome. -/
theorem C23_read (C : Cfg) (i : ObjId) (w : World) : (ensureMapped C i w).2.repo.log = w.repo.log := by
  by_cases hm : (w.heap i).mapped = true
  · rw [ensureMapped_mapped hm]
  · have h := ensureMapped_cases C i w (by simpa using hm)
    cases hres : (ensureMapped C i w).1 <;> rw [hres] at h <;> cases h <;> assumption

/-- C23: purging runs no git command. -/
theorem C23_purge (n : Nat) (i : ObjId) (w : World) : (purge n i w).2.repo = w.repo :=
  (purge_purged n i w).repo

/-- C23 without a destination: a loaded object is written to the realm it belongs to,
and an object that is not loaded cannot be written. -/
theorem C23_no_destination (n : Nat) (force : Bool) (i : ObjId) (w : World) :
    (∀ x, (w.heap i).mapped = true → (w.heap i).realm = some x → x ≠ [] →
      writeOut C n none force i w = writeOut C n (some x) force i w) ∧
    ((w.heap i).mapped = false ∨ (w.heap i).realm = none →
      (writeOut C n none force i w).2 = w ∧ ∃ e, (writeOut C n none force i w).1 = .error e) := by
  constructor
  · intro x hm hx hne
    cases n with
    | zero => rfl
    | succ n =>
      rw [writeOut, writeOut, M.bind_of_ok (getObj_run i w), M.bind_of_ok (getObj_run i w), if_pos hm,
        if_pos hm, hx]
      cases x with
      | nil => exact absurd rfl hne
      | cons c x => rfl
  · intro h
    cases n with
    | zero => exact ⟨rfl, _, rfl⟩
    | succ n =>
      rw [writeOut, M.bind_of_ok (getObj_run i w)]
      by_cases hm : (w.heap i).mapped = true
      · rw [if_pos hm]
        rcases h with h | h
        · rw [h] at hm; cases hm
        · rw [h]; exact ⟨rfl, _, rfl⟩
      · rw [if_neg hm]
        cases (w.heap i).realm <;> cases (w.heap i).ref <;> exact ⟨rfl, _, rfl⟩

/-- In the example, many changes are made, all of them in the destination. -/
example : sampleWrite.2.repo.log.length = 10 ∧ Ref.isRemote c!"https://x" = true := by
  decide +kernel

/-- A tree that is not saved anywhere, with metadata that belongs to the repository
`/repo` and was modified -/
def strayWorld : World :=
  edit 0 ⟨.metadata (sampleSets 2), []⟩ (writeAs sampleCfg .own 20 (some sampleRealm) false 0
    (populate (start ⟨[], []⟩)
      [⟨.metadata (sampleSets 1), []⟩, ⟨.mtree .metadata, [(.name c!"a", [], 0)]⟩])).2

/-- C23 does not hold for the destination `""`: writing the tree to it also writes to the
repository of the metadata. -/
theorem C23_false : isOk (writeAs sampleCfg .own 20 (some []) false 1 strayWorld) = true ∧
    ∃ o, Stored (writeAs sampleCfg .own 20 (some []) false 1 strayWorld).2.repo.log sampleRealm o ∧
      ¬ Stored strayWorld.repo.log sampleRealm o := by
  refine ⟨by decide +kernel, .blob ((sampleSets 2).toText sampleCfg.floats), ?_, ?_⟩
  · unfold Stored; decide +kernel
  · unfold Stored; decide +kernel

/-! ### C21 -/

/-- C21: after a part `j` of an object `i` was modified, writing `i` stores `i` with
the modified part, also when `i` was saved before.

Partial: before the modification, what passed for saved below `i` and in the new parts of `j` was stored
as it was (`ht`); `C21_false` shows what happens when a modified part was written on its own. -/
theorem C21_modified_part_partial {w w' : World} (hr : r ≠ []) (hs : History C r w) {j : ObjId}
    {b : Body ObjId} (hj : (w.heap j).mapped = true) (hb : ∀ k ∈ b.subs, k < w.next)
    (hac : ∀ k ∈ b.subs, ¬ Reach (edit j b w).heap k j)
    {via : Via} {n : Nat} {i : ObjId} {ref : Ref} {w1 : World} (hw1 : w1 = edit j b w)
    (h : writeAs C via n (some r) false i w1 = (.ok ref, w'))
    (hc : CollisionFree C w'.repo.log) (hsto : Storable w1.heap i) (hal : Alone r w1.heap i)
    (ht : ∀ x, Reach w1.heap i x → Truth C r w.repo.log w.heap x) (ho : Owned r w1.heap i) (h0 : Heap) :
    SameContent C w1.repo.log w1.heap (.mem i) w'.repo.log h0
      (.sto r ⟨(w1.heap i).kind, normRef (w1.heap i).kind ref⟩) := by
  have hs1 : History C r w1 := by rw [hw1]; exact History.edit w j b hs hj hb hac
  have ht1 : Trusted C r w1 i := by
    intro x hx
    have := ht x hx
    rw [hw1]
    exact ((hs.intact hr).edit hj hb hac).2 x this
  exact (C17_read_back_partial hr hs1 h hc hsto hal ht1 ho h0).1

/-- A file tree with one metadata object. -/
def twoBodies : List (Body ObjId) :=
  [⟨.metadata (sampleSets 1), []⟩, ⟨.mtree .metadata, [(.name c!"a", [], 0)]⟩]

/-- The file tree is written. -/
def twoA : Except PyErr Ref × World :=
  writeAs sampleCfg .own 20 (some sampleRealm) false 1 (populate (start ⟨[], []⟩) twoBodies)

/-- The metadata object is modified and then written on its own, as the unget calls
do it. -/
def twoB : Except PyErr Ref × World :=
  writeAs sampleCfg .own 20 (some sampleRealm) false 0 (edit 0 ⟨.metadata (sampleSets 2), []⟩ twoA.2)

/-- The file tree is written again. -/
def twoC : Except PyErr Ref × World :=
  writeAs sampleCfg .own 20 (some sampleRealm) false 1 twoB.2

/-- The metadata at a path of a stored file tree -/
def metadataAt (C : Cfg) (L : Log) (r : Realm) (ref : Ref) (ks : List Key) : Str :=
  match look C L (fun _ => Obj.new (Body.empty .text)) ks [] (.sto r ⟨.mtree .metadata, ref⟩) with
  | .found _ (.metadata m) _ => m.toText C.floats
  | _ => []

/-- C21 is false if the modified part is written on its own before its container:
the container then passes for saved, writing it succeeds without writing anything, and
the stored container keeps the old part. -/
theorem C21_false : isOk twoA = true ∧ isOk twoB = true ∧ isOk twoC = true ∧
    metadataAt sampleCfg twoC.2.repo.log sampleRealm (okRef twoC) [.name c!"a"] =
      (sampleSets 1).toText sampleCfg.floats ∧
    (twoC.2.heap 1).body.subs = [0] ∧
    (match (twoC.2.heap 0).body.data with
      | .metadata m => m.toText sampleCfg.floats
      | _ => []) = (sampleSets 2).toText sampleCfg.floats ∧
    (sampleSets 1).toText sampleCfg.floats ≠ (sampleSets 2).toText sampleCfg.floats := by
  decide +kernel

/-- Without the separate write, the modified part is stored. -/
example : metadataAt sampleCfg (writeAs sampleCfg .own 20 (some sampleRealm) false 1
      (edit 0 ⟨.metadata (sampleSets 2), []⟩ twoA.2)).2.repo.log sampleRealm
      (okRef (writeAs sampleCfg .own 20 (some sampleRealm) false 1
        (edit 0 ⟨.metadata (sampleSets 2), []⟩ twoA.2))) [.name c!"a"] =
    (sampleSets 2).toText sampleCfg.floats := by decide +kernel

/-! ### C25 -/

/-- Writing a tree version list returns a reference of class `VersionList`. -/
theorem mapOut_tvl {wr : Bool → ObjId → W Ref} {force : Bool} {b : Body ObjId} {w w' : World}
    {ref : Ref} (hk : b.data.kind = .tvl) (h : mapOut C wr r force b w = (.ok ref, w')) :
    ref.cls = c!"VersionList" ∧ ref.isNone = false := by
  have hd : b.data = .tvl := by
    cases hd : b.data <;> rw [hd] at hk <;> first | rfl | cases hk
  obtain ⟨l, h1, h2, _⟩ := mapOut_publishes (nm := tvlRefName) (by rw [hk]; rfl) h
  refine ⟨?_, ?_⟩
  · unfold mapOut at h
    rw [hd] at h
    simp only at h
    obtain ⟨_, _, _, h⟩ := M.bind_ok h
    obtain ⟨_, _, _, h⟩ := M.bind_ok h
    cases h
    rfl
  · unfold Ref.isNone
    rw [h1]
    simp only [beq_eq_false_iff_ne, ne_eq, Option.some.injEq]
    exact isHash_ne_none h2

/-- C25 is false for every tree version list: once it was written, and then purged,
it cannot be read in again, whatever it holds. -/
theorem C25_false {w w' w2 : World} (hr : r ≠ []) {n m : Nat} {force : Bool} {i : ObjId} {ref : Ref}
    (hk : (w.heap i).kind = .tvl) (hm : (w.heap i).mapped = true)
    (hu : (w.heap i).savedOn = [] ∨ force = true)
    (h : writeOut C n (some r) force i w = (.ok ref, w')) (hp : purge m i w' = (.ok (), w2)) :
    (ensureMapped C i w2).1 = .error .assertion ∧ (ensureMapped C i w2).2 = w2 := by
  obtain ⟨n, wa, wb, _, hwa, hmo, hw'⟩ := writeOut_not_skipped hr hm hu h
  obtain ⟨hcls, hnone⟩ := mapOut_tvl hk hmo
  have hi : w'.heap i = { wb.heap i with ref := some ref, savedOn := r :: (wb.heap i).savedOn } := by
    rw [hw']; simp
  have any := (closed_any C r).mapOut (fun f j => writeOut_any (C := C) hr n f j) force (w.heap i).body wa
  rw [hmo] at any
  have hrl : (w'.heap i).realm = some r := by
    rw [hi]
    show (wb.heap i).realm = some r
    rcases any.realm i with e | e
    · rw [e, hwa]; simp
    · exact e
  have hki : (w'.heap i).kind = .tvl := by
    rw [← hk, hi]
    have := (any.same i).body
    show (wb.heap i).body.data.kind = (w.heap i).body.data.kind
    rw [this, hwa]
    simp
  have p := purge_purged m i w'
  rw [hp] at p
  have g1 : (w2.heap i).mapped = false := purge_unmaps hp
  have g2 : (w2.heap i).realm = some r := by rw [p.realm]; exact hrl
  have g3 : (w2.heap i).ref = some ref := by rw [p.ref, hi]
  have g4 : r ∈ (w2.heap i).savedOn := by rw [p.saved, hi]; exact List.mem_cons_self ..
  have g5 : (w2.heap i).kind = .tvl := by rw [p.kind]; exact hki
  have hread : readIn C i w2 = (.error .assertion, w2) := by
    unfold readIn
    rw [M.bind_of_ok (getObj_run i w2), if_neg (by simp [g1]), g2, g3]
    simp only
    rw [if_neg (by simp [hnone]), if_neg (by simpa using g4), g5, hcls]
    rfl
  have : ensureMapped C i w2 = (.error .assertion, w2) := by
    unfold ensureMapped
    rw [M.bind_of_ok (getObj_run i w2), if_neg (by simp [g1])]
    exact M.bind_of_error hread
  rw [this]
  exact ⟨rfl, rfl⟩

/-- The tree version list of the example can be written and purged, but not be read
in again. -/
example : isOk (purge 20 6 sampleWrite.2) = true ∧
    isOk (ensureMapped sampleCfg 6 (purge 20 6 sampleWrite.2).2) = false := by decide +kernel

/-- C25 for tree version lists that were read from the repository and not written since:
they can be purged and read in again with the same content.  This is C18 for an object
whose reference has the class name `TreeVersionList`. -/
theorem C25_partial {w : World} (hr : r ≠ []) (hs : History C r w) (n : Nat) (i : ObjId)
    (hi : i < w.next) (ht : Trusted C r w i)
    (hb : ∀ j, Reach w.heap i j → (w.heap j).mapped = false → r ∈ (w.heap j).savedOn)
    (ho : ∀ j, Reach w.heap i j → (w.heap j).kind = .tvl → ∀ ref, (w.heap j).ref = some ref →
      ref.cls = c!"TreeVersionList") :
    SameContent C w.repo.log w.heap (.mem i) (ensureMapped C i (purge n i w).2).2.repo.log
      (ensureMapped C i (purge n i w).2).2.heap (.mem i) := by
  have ho' : ∀ j, Reach w.heap i j → OwnName w.heap j := by
    intro j hj ref hf
    unfold normRef
    split
    · rename_i hk
      have := ho j hj hk ref hf
      rw [hk]
      obtain ⟨c, l⟩ := ref
      simp only at this
      rw [this]
      rfl
    · rfl
  have hp : Purgeable C r w i := ⟨ht, ho', hb⟩
  refine (C18_purge_partial hr hs n i hp i).trans
    (C18_read hr (History.purge w n i hs hp) ?_ ?_)
  · rw [(purge_purged n i w).next]; exact hi
  · rw [(purge_purged n i w).next]; exact hi

/-! ### C26 -/

/-- C26 is false: a saved root record without dataset-level metadata can never be
purged, whatever it holds. -/
theorem C26_false {w : World} (n : Nat) {i : ObjId} (hm : (w.heap i).mapped = true)
    (hk : (w.heap i).kind = .mrr) (hs : (w.heap i).savedOn ≠ [])
    (hd : dget (w.heap i).body.kids .dlm = none) :
    purge (n + 1) i w = (.error .attribute, w) := by
  unfold purge
  rw [M.bind_of_ok (getObj_run i w), if_pos hm, if_neg hs, if_pos ⟨hk, hd⟩]
  rfl

/-- A root record without dataset-level metadata, and a dataset tree with it -/
def bareBodies : List (Body ObjId) :=
  [⟨.mrr (some sampleUuid) (some c!"v1"), []⟩, ⟨.mtree .mrr, [(.name c!".datalad_metadata", [], 0)]⟩]

/-- The dataset tree is written. -/
def bareWrite : Except PyErr Ref × World :=
  writeAs sampleCfg .dataset 20 (some sampleRealm) false 1 (populate (start ⟨[], []⟩) bareBodies)

/-- It can be written, but neither the root record nor the tree can be purged. -/
example : isOk bareWrite = true ∧ isOk (purge 20 0 bareWrite.2) = false ∧
    isOk (purge 20 1 bareWrite.2) = false ∧ (bareWrite.2.heap 0).savedOn ≠ [] := by decide +kernel

/-- C26 for writing and reading back: this is C17, which does not need dataset-level
metadata. -/
theorem C26_written_partial {w w' : World} (hr : r ≠ []) (hs : History C r w) {n : Nat} {force : Bool}
    {i : ObjId} {ref : Ref} (h : writeOut C n (some r) force i w = (.ok ref, w'))
    (hc : CollisionFree C w'.repo.log) (hsto : Storable w.heap i)
    (hk : (w.heap i).kind = .mrr) (ht : Trusted C r w i) (ho : Owned r w.heap i) (h0 : Heap) :
    SameContent C w.repo.log w.heap (.mem i) w'.repo.log h0 (.sto r ⟨.mrr, ref⟩) := by
  have := (C17_read_back_partial hr hs (via := .own) h hc hsto
    (by intro nm h; rw [hk] at h; cases h) ht ho h0).1
  rw [hk] at this
  exact this

/-! ### C48 -/

/-- The references that an object of a class can be read from: those with the name of
the class, and for tree nodes the two names that older versions used, unless it is a
none reference. -/
def ReadableAs (k : Kind) (ref : Ref) : Prop :=
  ref.cls = k.name ∨
    (k.isMtree = true ∧ ref.isNone = false ∧ (ref.cls = c!"FileTree" ∨ ref.cls = c!"DatasetTree"))

/-- C48: reading an object with a reference of another class fails, and changes
nothing at all: the object stays unloaded, with its reference. -/
theorem C48_wrong_class {w : World} {i : ObjId} {x : Realm} {ref : Ref}
    (hm : (w.heap i).mapped = false) (hx : (w.heap i).realm = some x) (hf : (w.heap i).ref = some ref)
    (hc : ¬ ReadableAs (w.heap i).kind ref) :
    ∃ e, ensureMapped C i w = (.error e, w) := by
  have key : ∃ e, readIn C i w = (.error e, w) := by
    unfold readIn
    rw [M.bind_of_ok (getObj_run i w), if_neg (by simp [hm]), hx, hf]
    simp only
    by_cases hn : ref.isNone = true
    · rw [if_pos hn, decide_eq_false (fun h => hc (Or.inl h))]
      exact ⟨_, M.bind_of_error (M.assert_false w)⟩
    · rw [if_neg hn]
      by_cases hs : x ∈ (w.heap i).savedOn
      · have ha : (w.heap i).kind.accepts ref.cls = false := by
          cases ha : (w.heap i).kind.accepts ref.cls with
          | false => rfl
          | true =>
            exfalso
            apply hc
            unfold Kind.accepts at ha
            simp only [Bool.or_eq_true, Bool.and_eq_true, decide_eq_true_eq] at ha
            rcases ha with ha | ha
            · exact Or.inl ha
            · exact Or.inr ⟨ha.1, by simpa using hn, ha.2⟩
        rw [if_neg (by simpa using hs), ha]
        exact ⟨_, M.bind_of_error (M.assert_false w)⟩
      · rw [if_pos hs]
        exact ⟨_, rfl⟩
  obtain ⟨e, key⟩ := key
  refine ⟨e, ?_⟩
  unfold ensureMapped
  rw [M.bind_of_ok (getObj_run i w), if_neg (by simp [hm])]
  exact M.bind_of_error key

theorem allocKids_set {x : Realm} {i : ObjId} (o : Obj) : ∀ (ks : List (Key × (Str × Link))) (w : World),
    i < w.next → allocKids x ks { w with heap := w.heap.set i o } =
      ((allocKids x ks w).1, { (allocKids x ks w).2 with heap := (allocKids x ks w).2.heap.set i o }) := by
  intro ks
  induction ks with
  | nil => intro w _; rfl
  | cons e ks ih =>
    intro w hi
    obtain ⟨k, t, l⟩ := e
    have hw : ({ w with heap := (w.heap.set i o).set w.next (l.obj x), next := w.next + 1 } : World) =
        { ({ w with heap := w.heap.set w.next (l.obj x), next := w.next + 1 } : World) with
          heap := (w.heap.set w.next (l.obj x)).set i o } := by
      congr 1
      funext j
      have : i ≠ w.next := Nat.ne_of_lt hi
      unfold Heap.set
      by_cases h1 : j = i
      · have : j ≠ w.next := by rw [h1]; exact this
        simp [h1, ‹i ≠ w.next›]
      · simp [h1]
    have ih' := ih { w with heap := w.heap.set w.next (l.obj x), next := w.next + 1 } (Nat.lt_succ_of_lt hi)
    simp only at ih'
    rw [← hw] at ih'
    unfold allocKids
    rw [M.bind_of_ok (x := alloc (l.obj x)) (s := { w with heap := w.heap.set i o }) rfl,
      M.bind_of_ok (x := alloc (l.obj x)) (s := w) rfl]
    obtain ⟨is, w', h1, _⟩ := allocKids_ok (r := x) ks
      { w with heap := w.heap.set w.next (l.obj x), next := w.next + 1 }
    rw [h1] at ih'
    rw [M.bind_of_ok ih', M.bind_of_ok h1]
    rfl

/-- C48: the old names mean the same as `MTreeNode`: reading gives the same result and,
if it works, the same state. -/
theorem C48_old_names {w : World} {i : ObjId} {x : Realm} {leaf : Leaf} {cls : Str} {loc : Option Str}
    (hi : i < w.next) (hm : (w.heap i).mapped = false) (hk : (w.heap i).kind = .mtree leaf)
    (hx : (w.heap i).realm = some x) (hf : (w.heap i).ref = some ⟨cls, loc⟩)
    (hn : loc ≠ some noneLocation) (hcls : cls = c!"FileTree" ∨ cls = c!"DatasetTree")
    {w2 : World} (hw2 : w2 = { w with
      heap := w.heap.set i { w.heap i with ref := some ⟨c!"MTreeNode", loc⟩ } }) :
    (ensureMapped C i w).1 = (ensureMapped C i w2).1 ∧
    ((ensureMapped C i w).1 = .ok true → (ensureMapped C i w).2 = (ensureMapped C i w2).2) := by
  have h2 : w2.heap i = { w.heap i with ref := some ⟨c!"MTreeNode", loc⟩ } := by rw [hw2]; simp
  have e : ∀ c, (Ref.mk c loc).isNone = false := by intro c; simp [Ref.isNone, hn]
  have ha : (w.heap i).kind.accepts cls = true := by
    rw [hk]
    rcases hcls with rfl | rfl <;> rfl
  have ha' : (w.heap i).kind.accepts c!"MTreeNode" = true := by rw [hk]; rfl
  have base : ∀ (w : World) (c : Str), (w.heap i).mapped = false → (w.heap i).realm = some x →
      (w.heap i).ref = some ⟨c, loc⟩ → (w.heap i).kind.accepts c = true →
      readIn C i w = (if x ∉ (w.heap i).savedOn then M.raise .runtime
        else match loc with
        | none => M.raise .type
        | some loc => do
          let b ← liftG (decodeG C x (w.heap i).kind loc)
          let ks ← allocKids x b.kids
          setObj i { mapped := true
                     realm := some x
                     ref := some ⟨(w.heap i).kind.name, some loc⟩
                     savedOn := if (w.heap i).kind = .mrr then [x] else (w.heap i).savedOn
                     body := ⟨b.data, ks⟩ }) w := by
    intro w c g1 g2 g3 g4
    unfold readIn
    rw [M.bind_of_ok (getObj_run i w), if_neg (by simp [g1]), g2, g3]
    simp only
    rw [if_neg (by simp [e c])]
    split
    · rfl
    · rw [g4, M.bind_of_ok (M.assert_true w)]
      rfl
  have b1 := base w cls hm hx hf ha
  have b2 := base w2 c!"MTreeNode" (by rw [h2]; exact hm) (by rw [h2]; exact hx) (by rw [h2])
    (by rw [h2]; exact ha')
  have hk2 : (w2.heap i).kind = (w.heap i).kind := by rw [h2]; rfl
  have hs2 : (w2.heap i).savedOn = (w.heap i).savedOn := by rw [h2]
  rw [hk2, hs2] at b2
  have hem : ∀ w : World, (w.heap i).mapped = false → ensureMapped C i w =
      (readIn C i >>= fun _ => updObj i (fun o => { o with mapped := true }) >>= fun _ => pure true) w := by
    intro w g
    unfold ensureMapped
    rw [M.bind_of_ok (getObj_run i w), if_neg (by simp [g])]
  rw [hem w hm, hem w2 (by rw [h2]; exact hm)]
  by_cases hsv : x ∉ (w.heap i).savedOn
  · rw [if_pos hsv] at b1 b2
    have c1 : readIn C i w = (.error .runtime, w) := b1
    have c2 : readIn C i w2 = (.error .runtime, w2) := b2
    rw [M.bind_of_error c1, M.bind_of_error c2]
    exact ⟨rfl, fun h => by cases h⟩
  · rw [if_neg hsv] at b1 b2
    cases loc with
    | none =>
      have c1 : readIn C i w = (.error .type, w) := b1
      have c2 : readIn C i w2 = (.error .type, w2) := b2
      rw [M.bind_of_error c1, M.bind_of_error c2]
      exact ⟨rfl, fun h => by cases h⟩
    | some loc =>
      simp only at b1 b2
      have hrepo : w2.repo = w.repo := by rw [hw2]
      cases hd : decodeG C x (w.heap i).kind loc w.repo with
      | mk res s =>
        have l1 : liftG (decodeG C x (w.heap i).kind loc) w = (res, { w with repo := s }) := by
          unfold liftG; rw [hd]
        have l2 : liftG (decodeG C x (w.heap i).kind loc) w2 = (res, { w2 with repo := s }) := by
          unfold liftG; rw [hrepo, hd]
        cases res with
        | error er =>
          rw [M.bind_of_error l1] at b1
          rw [M.bind_of_error l2] at b2
          rw [M.bind_of_error b1, M.bind_of_error b2]
          exact ⟨rfl, fun h => by cases h⟩
        | ok b =>
          rw [M.bind_of_ok l1] at b1
          rw [M.bind_of_ok l2] at b2
          obtain ⟨is, w', h1, _⟩ := allocKids_ok (r := x) b.kids { w with repo := s }
          have k2 := allocKids_set (x := x) { w.heap i with ref := some ⟨c!"MTreeNode", some loc⟩ } b.kids
            { w with repo := s } hi
          rw [h1] at k2
          have hw2' : ({ w2 with repo := s } : World) =
              { ({ w with repo := s } : World) with
                heap := w.heap.set i { w.heap i with ref := some ⟨c!"MTreeNode", some loc⟩ } } := by
            rw [hw2]
          rw [← hw2'] at k2
          rw [M.bind_of_ok h1, setObj_run] at b1
          rw [M.bind_of_ok k2, setObj_run] at b2
          rw [M.bind_of_ok b1, M.bind_of_ok b2, M.bind_of_ok (updObj_run i _ _),
            M.bind_of_ok (updObj_run i _ _)]
          refine ⟨rfl, fun _ => ?_⟩
          show World.mk _ _ _ _ _ = World.mk _ _ _ _ _
          congr 1
          funext j
          simp only [Heap.set]
          by_cases hj : j = i <;> simp [hj]

/-- The state of the example after object 3, a tree node, was purged and its reference
given another class name -/
def renamed (cls : Str) : World :=
  let w := (purge 20 3 sampleWrite.2).2
  { w with heap := w.heap.set 3 { w.heap 3 with ref := (w.heap 3).ref.map fun r => ⟨cls, r.loc⟩ } }

/-- The tree node can be read in with the old names, not with other ones. -/
example : ((renamed c!"FileTree").heap 3).mapped = false ∧
    isOk (ensureMapped sampleCfg 3 (renamed c!"FileTree")) = true ∧
    isOk (ensureMapped sampleCfg 3 (renamed c!"DatasetTree")) = true ∧
    isOk (ensureMapped sampleCfg 3 (renamed c!"MTreeNode")) = true ∧
    isOk (ensureMapped sampleCfg 3 (renamed c!"Metadata")) = false := by decide +kernel

end MM
