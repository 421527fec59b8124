/-
C41, C42: flushing the object references, and the legacy stores.
-/
import Verif.FlushOps
import Verif.Props.Updater

namespace MM

/-- After a successful flush the tree of object references holds all object references
that it held before and all that were recorded since the last flush; it holds nothing
else than these and the entries of the legacy stores; and nothing is pending any more.
The shape of the tree on which the next flush relies is kept, so the theorem applies to
every sequence of flushes.

Partial: the command that reads the tree must not fail, see `C41_false`. -/
theorem C41_flush_partial {C : Cfg} {r : Realm} {s s' : RefState} (hw : WellTrees s.repo.log r)
    (hi : ∀ x ∈ s.cached, isHash x.2 = true) (hs : StoreOk C s.repo.log r)
    (hread : StoreReadable r s) (hc : CollisionFree C s'.repo.log) (hr : flush C r s = (.ok (), s')) :
    (∀ x, Recorded C s.repo.log r x → Recorded C s'.repo.log r x) ∧
    (∀ x ∈ s.cached, Recorded C s'.repo.log r x) ∧
    (∀ x, Recorded C s'.repo.log r x → x ∈ s.cached ∨ Recorded C s.repo.log r x ∨
      (x.1 = true ∧ InLegacy C s.repo.log r legacyTreesName x.2) ∨
      (x.1 = false ∧ InLegacy C s.repo.log r legacyBlobsName x.2)) ∧
    s'.cached = [] ∧ StoreOk C s'.repo.log r ∧ WellTrees s'.repo.log r := by
  have h1 := flush_any hw hi hc hr
  obtain ⟨a1, a2, a3, a4, a5⟩ := flush_done hw hi hs hc hr
  refine ⟨h1.always.last.2.1 hread, a4, ?_, a3, a1, a2⟩
  intro x hx
  rcases a5 x hx with (h | h | h) | h
  · exact Or.inl h
  · exact Or.inr (Or.inr (Or.inl h))
  · exact Or.inr (Or.inr (Or.inr h))
  · exact Or.inr (Or.inl h)

/-- C41: an object reference that is added is recorded by the next flush, if it is not the hash that
stands for no object; adding it always succeeds, changes no repository and keeps all others. -/
theorem C41_add {C : Cfg} {r : Realm} {s : RefState} (isTree : Bool) (h : Str) (hw : WellTrees s.repo.log r)
    (hi : ∀ x ∈ s.cached, isHash x.2 = true) (hh : isHash h = true) (hne : h ≠ noneLocation) :
    ∃ s1, addObjectRef isTree h s = (.ok (), s1) ∧ s1.repo = s.repo ∧
      (∀ x, x ∈ s1.cached ↔ x = (isTree, h) ∨ x ∈ s.cached) ∧
      ∀ s', CollisionFree C s'.repo.log → flush C r s1 = (.ok (), s') → Recorded C s'.repo.log r (isTree, h) ∧
        ∀ x ∈ s.cached, Recorded C s'.repo.log r x := by
  have hadd : addObjectRef isTree h s = (.ok (), { s with cached := insertNew s.cached (isTree, h) }) := by
    unfold addObjectRef
    rw [if_neg hne]
    rfl
  have hmem : ∀ x, x ∈ insertNew s.cached (isTree, h) ↔ x = (isTree, h) ∨ x ∈ s.cached := by
    intro x
    unfold insertNew
    by_cases hx : (isTree, h) ∈ s.cached
    · rw [if_pos hx]
      constructor
      · exact Or.inr
      · rintro (rfl | h')
        · exact hx
        · exact h'
    · rw [if_neg hx, List.mem_append, List.mem_singleton]
      exact ⟨Or.symm, Or.symm⟩
  refine ⟨_, hadd, rfl, hmem, fun s' hc hf => ?_⟩
  have hfl := flush_any (s := { s with cached := insertNew s.cached (isTree, h) }) hw (by
    intro x hx
    rcases (hmem x).mp hx with rfl | hx
    · exact hh
    · exact hi x hx) hc hf
  have hall : ∀ x ∈ insertNew s.cached (isTree, h), Recorded C s'.repo.log r x := by
    intro x hx
    rcases hfl.kept x hx with hk | hk
    · rw [hfl.done rfl] at hk; cases hk
    · exact hk
  exact ⟨hall _ ((hmem _).mpr (Or.inl rfl)), fun x hx => hall x ((hmem x).mpr (Or.inr hx))⟩

/-- C41: the hash that stands for no object is never recorded: adding it changes nothing. -/
theorem C41_add_none (isTree : Bool) (s : RefState) : addObjectRef isTree noneLocation s = (.ok (), s) := by
  unfold addObjectRef
  rw [if_pos rfl]
  rfl

/-- Whatever a flush ends with, every object reference that was pending is pending again
or in the tree. -/
theorem C41_nothing_lost {C : Cfg} {r : Realm} {s s' : RefState} {o : Except PyErr Unit}
    (hw : WellTrees s.repo.log r) (hi : ∀ x ∈ s.cached, isHash x.2 = true)
    (hc : CollisionFree C s'.repo.log) (hr : flush C r s = (o, s')) :
    ∀ x ∈ s.cached, x ∈ s'.cached ∨ Recorded C s'.repo.log r x :=
  (flush_any hw hi hc hr).kept

/-- At every moment of a flush, whatever it ends with, the tree has the object references
that it had.

Partial: the command that reads the tree must not fail, see `C41_false`. -/
theorem C41_always_partial {C : Cfg} {r : Realm} {s s' : RefState} {o : Except PyErr Unit}
    (hw : WellTrees s.repo.log r) (hi : ∀ x ∈ s.cached, isHash x.2 = true)
    (hread : StoreReadable r s) (hc : CollisionFree C s'.repo.log) (hr : flush C r s = (o, s')) :
    ∀ L, s.repo.log <:+ L → L <:+ s'.repo.log → ∀ x, Recorded C s.repo.log r x → Recorded C L r x :=
  fun L h1 h2 => ((flush_any hw hi hc hr).always.2 L h1 h2).2.1 hread

/-- A flush, from any state and with any outcome, sets and removes no other reference than the one of the tree and the ones of
the legacy stores, and no reference of another repository. -/
theorem C41_refs {C : Cfg} {r : Realm} {s s' : RefState} {o : Except PyErr Unit}
    (hr : flush C r s = (o, s')) (r' : Realm) (name : Str)
    (h : r' = r → name ≠ c!"refs/datalad/object-references-2.0" ∧
      name ≠ c!"refs/datalad/object-references/trees" ∧ name ≠ c!"refs/datalad/object-references/blobs") :
    refOf s'.repo.log r' name = refOf s.repo.log r' name := by
  have := flush_ops (C := C) (r := r) s
  rw [hr] at this
  exact this.refs r' name h

/-- A flush succeeds if no git command fails by itself and no hash is recorded both as a
tree and as a blob. -/
theorem C41_succeeds {C : Cfg} {r : Realm} {s : RefState}
    (hw : WellTrees s.repo.log r) (hi : ∀ x ∈ s.cached, isHash x.2 = true) (hn : s.cached.Nodup)
    (hf : s.repo.faults = []) (hs : StoreOk C s.repo.log r)
    (ho : ∀ x y, Pending C r s x → Pending C r s y ∨ Recorded C s.repo.log r y → x.2 = y.2 → x = y)
    (hty : ∀ x, Pending C r s x → ∀ es t d, resolve C s.repo.log r objectRefName = some (.tree es) →
      entryAt C s.repo.log r es (chunks x.2) = some (t, d) → d = x.2)
    (hc : CollisionFree C (flush C r s).2.repo.log) :
    ∃ s', flush C r s = (.ok (), s') := by
  obtain ⟨s', h, _⟩ := flush_works hw hi hn (fun x y hx hy => ho x y hx (Or.inl hy)) hf hs
    (fun x hx es t d h1 h2 => by
      have hd := hty x hx es t d h1 h2
      subst hd
      have := ho x (t, x.2) hx (Or.inr ⟨es, h1, h2⟩) rfl
      rw [this]) hc
  exact ⟨s', h⟩

/-! ### C42 -/

/-- At every moment of a flush, whatever it ends with, every entry of a legacy store is in
that store or in the tree of object references. -/
theorem C42_protected {C : Cfg} {r : Realm} {s s' : RefState} {o : Except PyErr Unit}
    (hw : WellTrees s.repo.log r) (hi : ∀ x ∈ s.cached, isHash x.2 = true)
    (hc : CollisionFree C s'.repo.log) (hr : flush C r s = (o, s')) :
    ∀ L, s.repo.log <:+ L → L <:+ s'.repo.log →
      (∀ h, InLegacy C s.repo.log r legacyTreesName h →
        InLegacy C L r legacyTreesName h ∨ Recorded C L r (true, h)) ∧
      (∀ h, InLegacy C s.repo.log r legacyBlobsName h →
        InLegacy C L r legacyBlobsName h ∨ Recorded C L r (false, h)) :=
  fun L h1 h2 => ((flush_any hw hi hc hr).always.2 L h1 h2).2.2

/-- The first flush of a process, if no command fails by itself, puts all entries of the
legacy stores in the tree of object references and removes the legacy references. -/
theorem C42_converted {C : Cfg} {r : Realm} {s s' : RefState} (hw : WellTrees s.repo.log r)
    (hi : ∀ x ∈ s.cached, isHash x.2 = true) (hf : s.repo.faults = []) (hk : r ∉ s.checked)
    (hc : CollisionFree C s'.repo.log) (hr : flush C r s = (.ok (), s')) :
    (∀ h, InLegacy C s.repo.log r legacyTreesName h → Recorded C s'.repo.log r (true, h)) ∧
    (∀ h, InLegacy C s.repo.log r legacyBlobsName h → Recorded C s'.repo.log r (false, h)) ∧
    (∀ es, resolve C s.repo.log r legacyTreesName = some (.tree es) →
      refOf s'.repo.log r legacyTreesName = none) ∧
    (∀ es, resolve C s.repo.log r legacyBlobsName = some (.tree es) →
      refOf s'.repo.log r legacyBlobsName = none) :=
  flush_converts hw hi hf hk hc hr

/-! ### A concrete case -/

/-- Hashes of objects that were written earlier -/
def hashC : Str := List.replicate 40 'c'
def hashD : Str := List.replicate 39 'c' ++ c!"d"

/-- A repository with two legacy stores, and two pending object references. -/
def legacyState : RefState where
  repo := ⟨[.setRef c!"r" legacyBlobsName (sampleCfg.hash (.tree [⟨false, hashB, hashB⟩])),
      .setRef c!"r" legacyTreesName (sampleCfg.hash (.tree [⟨true, hashA, hashA⟩])),
      .save c!"r" (.tree [⟨false, hashB, hashB⟩]), .save c!"r" (.tree [⟨true, hashA, hashA⟩])], []⟩
  cached := [(false, hashC), (true, hashD)]
  checked := []

/-- The state after a flush -/
def legacyFlushed : RefState := (flush sampleCfg c!"r" legacyState).2

/-- The next flush: one more object reference is pending. -/
def laterState (fs : List Fault) : RefState :=
  { repo := ⟨legacyFlushed.repo.log, fs⟩, cached := [(false, hashB), (true, hashC.reverse.map fun _ => 'e')],
    checked := [c!"r"] }

def rOk {α : Type} (x : Except PyErr α × RefState) : Option α := match x.1 with
  | .ok a => some a
  | .error _ => none

theorem of_rOk {α : Type} {x : Except PyErr α × RefState} {a : α} (h : rOk x = some a) : x = (.ok a, x.2) := by
  obtain ⟨x1, x2⟩ := x
  cases x1 with
  | ok b => cases h; rfl
  | error e => cases h

instance recordedDecidable (C : Cfg) (L : Log) (r : Realm) (x : Bool × Str) : Decidable (Recorded C L r x) :=
  match h : resolve C L r objectRefName with
  | some (.tree es) =>
    if h1 : entryAt C L r es (chunks x.2) = some x then isTrue ⟨es, h, h1⟩
    else isFalse (by
      rintro ⟨es', h2, h3⟩
      rw [h] at h2
      cases h2
      exact h1 h3)
  | some (.blob _) => isFalse (by rintro ⟨es', h2, _⟩; rw [h] at h2; cases h2)
  | none => isFalse (by rintro ⟨es', h2, _⟩; rw [h] at h2; cases h2)

theorem wellTrees_of_check {L : Log} {r : Realm}
    (h : (L.all fun op => match op with
      | .save r' (.tree es) => decide (r' ≠ r) || (es.all fun e => isHash e.hash && !e.name.contains '/' &&
          !e.name.contains '\x00') && decide (es.map TreeEntry.name).Nodup
      | _ => true) = true) : WellTrees L r := by
  intro es hes
  have := List.all_eq_true.mp h _ hes
  simp only [Bool.or_eq_true, Bool.and_eq_true, decide_eq_true_eq, ne_eq, not_true_eq_false, false_or] at this
  obtain ⟨h1, h2⟩ := this
  have h1' := List.all_eq_true.mp h1
  refine ⟨fun e he => ?_, fun e he => ?_, h2⟩
  · have := h1' e he
    simp only [Bool.and_eq_true] at this
    exact this.1.1
  · have := h1' e he
    simp only [Bool.and_eq_true, Bool.not_eq_true', List.contains_eq_mem, decide_eq_false_iff_not] at this
    exact ⟨this.1.2, this.2⟩

theorem storeOk_of_none {C : Cfg} {L : Log} {r : Realm} (h : refOf L r objectRefName = none) : StoreOk C L r := by
  intro es hes
  unfold resolve at hes
  rw [objectRefName_notHash, h] at hes
  cases hes

theorem legacyState_well : WellTrees legacyState.repo.log c!"r" := wellTrees_of_check (by decide +kernel)
theorem legacyState_hashes : ∀ x ∈ legacyState.cached, isHash x.2 = true := by decide +kernel
theorem legacyState_store : StoreOk sampleCfg legacyState.repo.log c!"r" := storeOk_of_none (by decide +kernel)
theorem legacyState_run : flush sampleCfg c!"r" legacyState = (.ok (), legacyFlushed) := by
  unfold legacyFlushed
  exact of_rOk (by decide +kernel)
theorem legacyFlushed_distinct : CollisionFree sampleCfg legacyFlushed.repo.log :=
  collisionFree_of_check (by decide +kernel)

/-- The hypotheses of `C41_flush_partial` and `C42_converted` are met, and so are the ones
of `C41_nothing_lost`, `C41_always_partial`, `C41_refs` and `C42_protected`. -/
example : WellTrees legacyState.repo.log c!"r" ∧ (∀ x ∈ legacyState.cached, isHash x.2 = true) ∧
    StoreOk sampleCfg legacyState.repo.log c!"r" ∧ StoreReadable c!"r" legacyState ∧
    CollisionFree sampleCfg legacyFlushed.repo.log ∧
    flush sampleCfg c!"r" legacyState = (.ok (), legacyFlushed) ∧
    InLegacy sampleCfg legacyState.repo.log c!"r" legacyTreesName hashA ∧
    InLegacy sampleCfg legacyState.repo.log c!"r" legacyBlobsName hashB :=
  ⟨legacyState_well, legacyState_hashes, legacyState_store, (fun k h => by cases h), legacyFlushed_distinct,
    legacyState_run, ⟨[⟨true, hashA, hashA⟩], by decide +kernel, _, List.mem_cons_self .., rfl⟩,
    ⟨[⟨false, hashB, hashB⟩], by decide +kernel, _, List.mem_cons_self .., rfl⟩⟩

theorem legacyState_pending {x : Bool × Str} (h : Pending sampleCfg c!"r" legacyState x) :
    x ∈ [(false, hashC), (true, hashD), (true, hashA), (false, hashB)] := by
  obtain ⟨t, hx⟩ := x
  rcases h with h | ⟨h1, es, h2, e, h3, h4⟩ | ⟨h1, es, h2, e, h3, h4⟩
  · exact List.mem_append_left [(true, hashA), (false, hashB)] h
  · have : resolve sampleCfg legacyState.repo.log c!"r" legacyTreesName =
      some (.tree [⟨true, hashA, hashA⟩]) := by decide +kernel
    rw [this] at h2
    cases h2
    cases List.mem_singleton.mp h3
    simp only at h1 h4
    rw [h1, ← h4]
    simp
  · have : resolve sampleCfg legacyState.repo.log c!"r" legacyBlobsName =
      some (.tree [⟨false, hashB, hashB⟩]) := by decide +kernel
    rw [this] at h2
    cases h2
    cases List.mem_singleton.mp h3
    simp only at h1 h4
    rw [h1, ← h4]
    simp

/-- The hypotheses of `C41_succeeds` are met. -/
example : legacyState.cached.Nodup ∧ legacyState.repo.faults = [] ∧
    (∀ x y, Pending sampleCfg c!"r" legacyState x →
      Pending sampleCfg c!"r" legacyState y ∨ Recorded sampleCfg legacyState.repo.log c!"r" y → x.2 = y.2 → x = y) ∧
    (∀ es, resolve sampleCfg legacyState.repo.log c!"r" objectRefName ≠ some (.tree es)) := by
  have hno : resolve sampleCfg legacyState.repo.log c!"r" objectRefName = none := by decide +kernel
  refine ⟨by decide +kernel, rfl, ?_, fun es h => by rw [hno] at h; cases h⟩
  intro x y hx hy he
  rcases hy with hy | ⟨es, hy, _⟩
  · have : ∀ x ∈ [(false, hashC), (true, hashD), (true, hashA), (false, hashB)],
        ∀ y ∈ [(false, hashC), (true, hashD), (true, hashA), (false, hashB)], x.2 = y.2 → x = y := by decide
    exact this x (legacyState_pending hx) y (legacyState_pending hy) he
  · rw [hno] at hy; cases hy

theorem laterState_log (fs : List Fault) : (laterState fs).repo.log = legacyFlushed.repo.log := by
  simp only [laterState]

theorem laterState_store (fs : List Fault) : StoreOk sampleCfg (laterState fs).repo.log c!"r" := by
  rw [laterState_log]
  exact (C41_flush_partial legacyState_well legacyState_hashes legacyState_store
    (fun k h => by cases h) legacyFlushed_distinct legacyState_run).2.2.2.2.1

/-- The next flush, which finds the tree of the first one. -/
def laterFlush (fs : List Fault) : Except PyErr Unit × RefState := flush sampleCfg c!"r" (laterState fs)

theorem laterFlush_ok : rOk (laterFlush []) = some () := by decide +kernel
theorem laterFlush_distinct : CollisionFree sampleCfg (laterFlush []).2.repo.log :=
  collisionFree_of_check (by decide +kernel)

/-- It meets the hypotheses, too. -/
example : StoreOk sampleCfg (laterState []).repo.log c!"r" ∧
    Recorded sampleCfg (laterState []).repo.log c!"r" (true, hashA) ∧
    laterFlush [] = (.ok (), (laterFlush []).2) ∧
    CollisionFree sampleCfg (laterFlush []).2.repo.log :=
  ⟨laterState_store _, by decide +kernel, of_rOk laterFlush_ok, laterFlush_distinct⟩

/-- A flush whose second command to write a tree fails: nothing is lost. -/
example : (laterFlush [.none, .none, .fail 0]).2.cached = (laterState []).cached := by
  decide +kernel

theorem lostFlush_well : WellTrees (laterState [.fail 0]).repo.log c!"r" := wellTrees_of_check (by decide +kernel)
theorem lostFlush_distinct : CollisionFree sampleCfg (laterFlush [.fail 0]).2.repo.log :=
  collisionFree_of_check (by decide +kernel)
theorem lostFlush_ok : rOk (laterFlush [.fail 0]) = some () := by decide +kernel
theorem lostFlush_lost : ¬ Recorded sampleCfg (laterFlush [.fail 0]).2.repo.log c!"r" (true, hashA) := by
  decide +kernel

/-- C41 is false if the command that reads the tree fails (for a reason that has nothing
to do with the tree): the flush takes the tree for an empty one and succeeds, and the
object references that were recorded earlier are neither in the tree nor pending. -/
theorem C41_false : ∃ (C : Cfg) (r : Realm) (s s' : RefState) (x : Bool × Str),
    WellTrees s.repo.log r ∧ (∀ x ∈ s.cached, isHash x.2 = true) ∧ StoreOk C s.repo.log r ∧
    CollisionFree C s'.repo.log ∧ s.repo.faults = [.fail 0] ∧
    Recorded C s.repo.log r x ∧ flush C r s = (.ok (), s') ∧ ¬ Recorded C s'.repo.log r x ∧ x ∉ s'.cached :=
  ⟨sampleCfg, c!"r", laterState [.fail 0], (laterFlush [.fail 0]).2, (true, hashA), lostFlush_well,
    by decide +kernel, laterState_store _, lostFlush_distinct, rfl, by decide +kernel,
    of_rOk lostFlush_ok, lostFlush_lost, by decide +kernel⟩

end MM
