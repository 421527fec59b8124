/-
C31: what the repository shows whenever the process stops.
-/
import Verif.Crash
import Verif.Props.Failures

namespace MM

variable {C : Cfg} {r : Realm}

/-- Everything that can be read starting from the two published names of a repository is
completely stored: a name is not set, or everything at every depth can be read. -/
def Complete (C : Cfg) (r : Realm) (L : Log) : Prop :=
  (refOf L r tvlRefName = none ∨ ∀ h, Full C L h (.sto r tvlLink)) ∧
  (refOf L r uuidSetRefName = none ∨ ∀ h, Full C L h (.sto r uuidSetLink))

/-- A link under a published name -/
def Named (l : Link) (nm : Str) : Prop :=
  (l = tvlLink ∧ nm = tvlRefName) ∨ (l = uuidSetLink ∧ nm = uuidSetRefName)

theorem Complete.named {L : Log} (h : Complete C r L) {l : Link} {nm : Str} (hl : Named l nm) :
    refOf L r nm = none ∨ ∀ h, Full C L h (.sto r l) := by
  rcases hl with ⟨rfl, rfl⟩ | ⟨rfl, rfl⟩
  · exact h.1
  · exact h.2

theorem complete_of {L : Log} (h : ∀ l nm, Named l nm → refOf L r nm = none ∨ ∀ h, Full C L h (.sto r l)) :
    Complete C r L := ⟨h _ _ (Or.inl ⟨rfl, rfl⟩), h _ _ (Or.inr ⟨rfl, rfl⟩)⟩

theorem Named.ref {l : Link} {nm : Str} (h : Named l nm) : l = ⟨l.kind, ⟨l.kind.name, some nm⟩⟩ ∧
    pubName l.kind = some nm ∧ isHash nm = false ∧ nm ≠ noneLocation := by
  rcases h with ⟨rfl, rfl⟩ | ⟨rfl, rfl⟩
  · exact ⟨rfl, rfl, by decide, by decide⟩
  · exact ⟨rfl, rfl, by decide, by decide⟩

/-- Under a name that is not set nothing is found. -/
theorem unset_missing {L : Log} {l : Link} {nm : Str} (hl : Named l nm) (h : refOf L r nm = none)
    (hp : Heap) (ks : List Key) (t : Str) : look C L hp ks t (.sto r l) = .missing := by
  rcases hl with ⟨rfl, rfl⟩ | ⟨rfl, rfl⟩
  · refine look_missing_of_view (e := .runtime) ?_ ks t
    have hn : isHash tvlRefName = false := by decide
    have : textAt C L r tvlRefName = .error .runtime := by unfold textAt resolve; rw [hn, h]; rfl
    have hd : decode C L r .tvl tvlRefName = .error .runtime := by
      unfold decode jsonAt; rw [this]; rfl
    have hf : fetch C L r .tvl tvlLink.ref = decode C L r .tvl tvlRefName := rfl
    show (strictFetch C L r .tvl tvlLink.ref).map _ = _
    unfold strictFetch
    rw [hf, hd]
    rfl
  · refine look_missing_of_view (e := .runtime) ?_ ks t
    have hn : isHash uuidSetRefName = false := by decide
    have : treeAt C L r uuidSetRefName = .error .runtime := by unfold treeAt resolve; rw [hn, h]; rfl
    have hd : decode C L r .uuidset uuidSetRefName = .error .runtime := by
      unfold decode; rw [this]; rfl
    have hf : fetch C L r .uuidset uuidSetLink.ref = decode C L r .uuidset uuidSetRefName := rfl
    show (strictFetch C L r .uuidset uuidSetLink.ref).map _ = _
    unfold strictFetch
    rw [hf, hd]
    rfl

/-- A name that was not set again shows the same. -/
theorem named_kept {L L' : Log} (hg : Grows L L') (hc : CollisionFree C L') {l : Link} {nm : Str}
    (hl : Named l nm) (hn : refOf L' r nm = refOf L r nm)
    (hf : refOf L r nm = none ∨ ∀ h, Full C L h (.sto r l)) (h0 : Heap) :
    SameContent C L h0 (.sto r l) L' h0 (.sto r l) := by
  intro ks t
  rcases hf with hf | hf
  · rw [unset_missing hl hf, unset_missing hl (hn.trans hf)]
  · refine (look_sto_mono hg hc ks t r l ?_ (hf h0 ks t)).symm
    intro loc h1 _
    obtain ⟨e, _⟩ := hl.ref
    rw [e] at h1
    simp only [Option.some.injEq] at h1
    subst h1
    exact Or.inr hn

theorem Complete.step {L L' : Log} (h : Complete C r L) (hg : Grows L L') (hc : CollisionFree C L')
    (hn : ∀ nm, refOf L' r nm = refOf L r nm) : Complete C r L' := by
  refine complete_of fun l nm hl => ?_
  rcases h.named hl with e | e
  · exact Or.inl ((hn nm).trans e)
  · exact Or.inr fun h0 => Full.of_same (named_kept hg hc hl (hn nm) (Or.inr e) h0) (e h0)

/-- A name shows what the hash shows that it was set to. -/
theorem named_new {L : Log} {l : Link} {nm hash : Str} (hl : Named l nm) (hh : isHash hash = true)
    (hn : refOf L r nm = some hash) (h0 : Heap) :
    SameContent C L h0 (.sto r ⟨l.kind, ⟨l.kind.name, some hash⟩⟩) L h0 (.sto r l) := by
  obtain ⟨e, _, e2, e3⟩ := hl.ref
  have hres : resolve C L r nm = resolve C L r hash := by
    rw [resolve_hash hh]
    unfold resolve
    rw [e2, hn]
    rfl
  have hv : view C L h0 (.sto r ⟨l.kind, ⟨l.kind.name, some hash⟩⟩) = view C L h0 (.sto r l) := by
    have hx : view C L h0 (.sto r l) = view C L h0 (.sto r ⟨l.kind, ⟨l.kind.name, some nm⟩⟩) :=
      congrArg (fun x => view C L h0 (.sto r x)) e
    rw [hx]
    simp only [view]
    rw [strictFetch_resolve (isHash_ne_none hh) e3 hres]
  exact look_of_view hv rfl

/-- C31 for one write.  Whatever its outcome, and wherever the process stops: everything that
can be read from the published names is complete, and each name shows the content that it
showed before, or the whole content of the object that is written. -/
theorem C31_write_partial {w w' : World} (hr : r ≠ []) (hs : Session C r w) {via : Via} {n : Nat}
    {force : Bool} {i : ObjId} {x : Except PyErr Ref}
    (h : writeAs C via n (some r) force i w = (x, w'))
    (hv : via = .own ∨ (w.heap i).kind.isMtree = true) (hc : CollisionFree C w'.repo.log)
    (hsto : Storable w.heap i) (hcomp : Complete C r w.repo.log)
    {L : Log} (h1 : w.repo.log <:+ L) (h2 : L <:+ w'.repo.log) :
    Complete C r L ∧ ∀ l nm, Named l nm → ∀ h0,
      SameContent C w.repo.log h0 (.sto r l) L h0 (.sto r l) ∨
      (l.kind = (w.heap i).kind ∧ SameContent C w.repo.log w.heap (.mem i) L h0 (.sto r l)) := by
  have hcL := suffix_collisionFree h2 hc
  have saves : ∀ s', OnlySaves r w.repo s' → L <:+ s'.log →
      Complete C r L ∧ ∀ l nm, Named l nm → ∀ h0, SameContent C w.repo.log h0 (.sto r l) L h0 (.sto r l) := by
    rintro s' ⟨K, e, f⟩ hL
    have hSR : SameRefs w.repo.log L ∧ Grows w.repo.log L := by
      obtain ⟨K1, rfl⟩ := h1
      obtain ⟨K2, e2⟩ := hL
      rw [e, ← List.append_assoc] at e2
      have e3 := List.append_cancel_right e2
      refine ⟨sameRefs_append (fun op hop => ?_) _, grows_append K1 _⟩
      obtain ⟨o, ho⟩ := f op (by rw [← e3]; exact List.mem_append_right _ hop)
      exact ⟨r, o, ho⟩
    exact ⟨hcomp.step hSR.2 hcL (hSR.1 r), fun l nm hl h0 =>
      named_kept hSR.2 hcL hl (hSR.1 r nm) (hcomp.named hl) h0⟩
  rcases (hs.sane hr).steps_as hr h hv hc hsto with hS | ⟨nm0, hash, mid, hpub, hsv, hlog, hh, hnew⟩
  · obtain ⟨g1, g2⟩ := saves _ hS h2
    exact ⟨g1, fun l nm hl h0 => Or.inl (g2 l nm hl h0)⟩
  · rw [hlog, List.suffix_cons_iff] at h2
    rcases h2 with rfl | h2
    · -- the name was set
      have hgm : Grows mid.log (.setRef r nm0 hash :: mid.log) := grows_append [_] _
      have hg : Grows w.repo.log (.setRef r nm0 hash :: mid.log) := hsv.grows.trans hgm
      have hother : ∀ nm, nm ≠ nm0 → refOf (.setRef r nm0 hash :: mid.log) r nm = refOf w.repo.log r nm := by
        intro nm hne
        rw [← hsv.refs r nm]
        simp [refOf, hne.symm]
      have hself : refOf (.setRef r nm0 hash :: mid.log) r nm0 = some hash := by simp [refOf]
      have each : ∀ l nm, Named l nm →
          (nm ≠ nm0 ∧ refOf (.setRef r nm0 hash :: mid.log) r nm = refOf w.repo.log r nm) ∨
          (l.kind = (w.heap i).kind ∧ ∀ h0, SameContent C w.repo.log w.heap (.mem i)
            (.setRef r nm0 hash :: mid.log) h0 (.sto r l)) := by
        intro l nm hl
        by_cases hne : nm = nm0
        · right
          subst hne
          have hk : l.kind = (w.heap i).kind := by
            have e1 := hl.ref.2.1
            rw [← hpub] at e1
            cases h5 : l.kind <;> rw [h5] at e1 <;> cases h6 : (w.heap i).kind <;> rw [h6] at e1 hpub <;>
              first | rfl | (cases hpub; done) | (cases e1; done) | exact absurd e1 (by decide)
          refine ⟨hk, fun h0 => ?_⟩
          refine SameContent.trans ?_ (named_new hl hh hself h0)
          rw [hk]
          refine (hnew h0).2.trans fun ks t => ?_
          refine (look_sto_mono hgm hcL ks t r _ ?_ ((hnew h0).1 ks t)).symm
          intro loc h3 _
          simp only [Option.some.injEq] at h3
          subst h3
          exact Or.inl hh
        · exact Or.inl ⟨hne, hother nm hne⟩
      refine ⟨complete_of fun l nm hl => ?_, fun l nm hl h0 => ?_⟩
      · rcases each l nm hl with ⟨_, e⟩ | ⟨_, e⟩
        · rcases hcomp.named hl with e' | e'
          · exact Or.inl (e.trans e')
          · exact Or.inr fun h0 => Full.of_same (named_kept hg hcL hl e (Or.inr e') h0) (e' h0)
        · exact Or.inr fun h0 => Full.of_same (e h0) ((hs.sane hr).full i)
      · rcases each l nm hl with ⟨_, e⟩ | ⟨hk, e⟩
        · exact Or.inl (named_kept hg hcL hl e (hcomp.named hl) h0)
        · exact Or.inr ⟨hk, e h0⟩
    · obtain ⟨g1, g2⟩ := saves _ hsv h2
      exact ⟨g1, fun l nm hl h0 => Or.inl (g2 l nm hl h0)⟩

/-- The contents that a repository gets from processes that work one after the other: each
starts with what is there, and stops anywhere while it writes.  In between, objects may be
stored by others.  A process may go on after a write that worked (`Session`). -/
inductive Ages (C : Cfg) (r : Realm) : Log → Prop
  | fresh (L : Log) : refOf L r tvlRefName = none → refOf L r uuidSetRefName = none → Ages C r L
  | others (L L' : Log) : Ages C r L → Grows L L' → (∀ nm, refOf L' r nm = refOf L r nm) →
      CollisionFree C L' → Ages C r L'
  | stopped (w w' : World) (via : Via) (n : Nat) (force : Bool) (i : ObjId) (x : Except PyErr Ref) (L : Log) :
      Session C r w → Ages C r w.repo.log → writeAs C via n (some r) force i w = (x, w') →
      (via = .own ∨ (w.heap i).kind.isMtree = true) → CollisionFree C w'.repo.log →
      Storable w.heap i → w.repo.log <:+ L → L <:+ w'.repo.log → Ages C r L

/-- C31, as far as it holds: whatever processes were stopped wherever, all that can be read from
the published names is complete.  What is missing: processes that go on after a failed write
(see `C31_false`), and objects that are marked as saved although a part is not stored. -/
theorem C31_partial (hr : r ≠ []) {L : Log} (h : Ages C r L) : Complete C r L := by
  induction h with
  | fresh L h1 h2 => exact ⟨Or.inl h1, Or.inl h2⟩
  | others L L' _ hg hn hc ih => exact ih.step hg hc hn
  | stopped w w' via n force i x L hs _ h hv hc hsto h1 h2 ih =>
    exact (C31_write_partial hr hs h hv hc hsto ih h1 h2).1

/-- So the published objects can be loaded by the next process. -/
theorem C31_next_process_partial (hr : r ≠ []) {L : Log} (h : Ages C r L) (fs : List Fault)
    (hset : refOf L r tvlRefName ≠ none) : Session C r (create (tvlLink.obj r) (start ⟨L, fs⟩)) :=
  Session.load _ tvlLink (session_start ⟨L, fs⟩) ⟨⟨_, rfl, Or.inr (Or.inr rfl)⟩, fun h => by cases h⟩
    (by decide) (((C31_partial hr h).1.resolve_left hset) _)

/-- After the failed write of a file tree of `blockedWrite`, a root record with metadata for
the dataset only is created, and a dataset tree and a list with it. -/
def afterFailure : World :=
  populate blockedWrite.2
    [⟨.mrr (some sampleUuid) (some c!"v2"), [(.dlm, [], 0)]⟩,
     ⟨.mtree .mrr, [(.name c!".datalad_metadata", [], 9)]⟩,
     ⟨.tvl, [(.ver c!"v2" ⟨[], []⟩, c!"0.2", 10)]⟩]

/-- The list is written. -/
def hollowSave : Except PyErr Ref × World := writeAs sampleCfg .own 20 (some sampleRealm) false 11 afterFailure

/-- Nothing can be read. -/
def Res.isMissing : Res → Bool
  | .missing => true
  | _ => false

/-- C31 is false for processes that go on after a failed write: the write of a file tree fails,
because one git command fails.  Then a tree version list is written and published.  Its metadata
is not in the repository: it waits in a cache that nobody will store. -/
theorem C31_false : errOf blockedWrite = some .runtime ∧ isOk hollowSave = true ∧
    (refOf hollowSave.2.repo.log sampleRealm tvlRefName).isSome = true ∧
    (look sampleCfg hollowSave.2.repo.log (start ⟨[], []⟩).heap
      [.ver c!"v2" ⟨[], []⟩, .name c!".datalad_metadata"] [] (.sto sampleRealm tvlLink)).isMissing = false ∧
    (look sampleCfg hollowSave.2.repo.log (start ⟨[], []⟩).heap
      [.ver c!"v2" ⟨[], []⟩, .name c!".datalad_metadata", .dlm] [] (.sto sampleRealm tvlLink)).isMissing = true := by
  decide +kernel

/-- The process of the examples, in which the tenth git command fails after it took effect. -/
def brokenWorld : World :=
  outside [] [.none, .none, .none, .none, .none, .none, .none, .none, .none, .fail 1] sampleWorld

/-- A write in which the last git command, which sets the name, fails in this way. -/
def brokenSave : Except PyErr Ref × World := writeAs sampleCfg .own 20 (some sampleRealm) false 6 brokenWorld

theorem brokenSave_facts : errOf brokenSave = some .runtime ∧
    (refOf brokenSave.2.repo.log sampleRealm tvlRefName).isSome = true ∧
    distinctHashes sampleCfg brokenSave.2.repo.log = true := by
  decide +kernel

theorem prod_eta {α β : Type} (x : α × β) : x = (x.1, x.2) := rfl

/-- It meets the hypotheses of the theorems on C31, and the name is set. -/
theorem broken_ages : Ages sampleCfg sampleRealm brokenSave.2.repo.log ∧
    refOf brokenSave.2.repo.log sampleRealm tvlRefName ≠ none := by
  have hs : Session sampleCfg sampleRealm brokenWorld :=
    Session.outside _ _ _ sample_session.1 (fun _ _ h => h) (fun _ _ => rfl) (by intro _ _ _ h; cases h)
  have hw : writeAs sampleCfg .own 20 (some sampleRealm) false 6 brokenWorld = (brokenSave.1, brokenSave.2) :=
    prod_eta brokenSave
  have h0 : Ages sampleCfg sampleRealm [] := Ages.fresh _ rfl rfl
  refine ⟨Ages.stopped _ _ .own 20 false 6 _ _ hs h0 hw (Or.inl rfl)
    (collisionFree_of_check brokenSave_facts.2.2) (sample_storable (by decide))
    (List.nil_suffix) (List.suffix_refl _), ?_⟩
  intro h
  have := brokenSave_facts.2.1
  rw [h] at this
  cases this

example : Session sampleCfg sampleRealm (create (tvlLink.obj sampleRealm) (start ⟨brokenSave.2.repo.log, []⟩)) :=
  C31_next_process_partial (by decide) broken_ages.1 [] broken_ages.2

end MM
