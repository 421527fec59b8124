/-
C61: metadata sources copy and write the object that they refer to.
-/
import Verif.SourceOps
import Verif.Example

namespace MM

variable {C : Cfg}

/-- The repository at `p` holds a blob with the text `t` under `ref`, a hash or a name. -/
def BlobAt (C : Cfg) (L : Log) (p : PPath) (ref t : Str) : Prop :=
  resolve C L p.purePosixStr ref = some (.blob t)

theorem catBlob_log (p : PPath) (ref : Str) (s : Repo) : (catBlob C p ref s).2.log = s.log := by
  obtain ⟨k, h⟩ := gitCmd_log (fun L => (([] : List GitOp), if shellPlain p.purePosixStr && shellPlain ref then
    match resolve C L p.purePosixStr ref with
    | some (.blob s) => Except.ok s
    | _ => .error .runtime
    else .error PyErr.runtime)) s
  exact h.trans (by simp)

theorem catBlob_cases (p : PPath) (ref : Str) (s : Repo) :
    (∃ t, (catBlob C p ref s).1 = .ok t ∧ BlobAt C s.log p ref t ∧
      (shellPlain p.purePosixStr && shellPlain ref) = true) ∨ (catBlob C p ref s).1 = .error .runtime := by
  cases h : catBlob C p ref s with
  | mk r s' =>
    cases r with
    | ok t =>
      left
      have := (gitCmd_ok h).1
      refine ⟨t, rfl, ?_⟩
      unfold BlobAt
      by_cases hp : (shellPlain p.purePosixStr && shellPlain ref) = true
      · rw [if_pos hp] at this
        cases hr : resolve C s.log p.purePosixStr ref with
        | none => rw [hr] at this; cases this
        | some o =>
          rw [hr] at this
          cases o with
          | blob x => cases this; exact ⟨rfl, hp⟩
          | tree x => cases this
      · rw [if_neg hp] at this; cases this
    | error e =>
      right
      show Except.error e = _
      unfold catBlob gitCmd at h
      have key : ∀ x : Except PyErr Str, x = (if shellPlain p.purePosixStr && shellPlain ref then
          match resolve C s.log p.purePosixStr ref with
          | some (.blob s) => .ok s
          | _ => .error .runtime
          else .error .runtime) → x = .error e → e = .runtime := by
        intro x hx hxe
        rw [hxe] at hx
        by_cases hp : (shellPlain p.purePosixStr && shellPlain ref) = true
        · rw [if_pos hp] at hx
          cases hr : resolve C s.log p.purePosixStr ref with
          | none => rw [hr] at hx; cases hx; rfl
          | some o =>
            rw [hr] at hx
            cases o with
            | blob x => cases hx
            | tree x => cases hx; rfl
        · rw [if_neg hp] at hx; cases hx; rfl
      split at h
      · cases h; rfl
      · injection h with h1 _; rw [key _ h1.symm rfl]
      · injection h with h1 _; rw [key _ h1.symm rfl]

theorem catBlob_works {p : PPath} {ref t : Str} {s : Repo} (hf : s.faults = []) (hp : shellPlain p.purePosixStr = true)
    (hr : shellPlain ref = true) (h : BlobAt C s.log p ref t) : catBlob C p ref s = (.ok t, s) := by
  unfold BlobAt at h
  obtain ⟨L, fs⟩ := s
  simp only at hf h
  subst hf
  unfold catBlob gitCmd
  simp [hp, hr, h]

theorem hashObject_log (p : PPath) (t : Str) (s : Repo) :
    (hashObject C p t s).2.log = s.log ∨ (hashObject C p t s).2.log = .save p.purePosixStr (.blob t) :: s.log := by
  obtain ⟨k, h⟩ := gitCmd_log (fun _ => if shellPlain p.purePosixStr then
    ([GitOp.save p.purePosixStr (.blob t)], Except.ok (C.hash (.blob t))) else ([], .error PyErr.runtime)) s
  unfold hashObject
  rw [h]
  by_cases hp : shellPlain p.purePosixStr = true
  · rw [if_pos hp]
    cases k with
    | zero => left; rfl
    | succ k => right; simp
  · rw [if_neg hp]; left; simp

theorem hashObject_ok {p : PPath} {t : Str} {s s' : Repo} {h : Str} (hr : hashObject C p t s = (.ok h, s')) :
    h = C.hash (.blob t) ∧ s'.log = .save p.purePosixStr (.blob t) :: s.log := by
  obtain ⟨h1, h2⟩ := gitCmd_ok hr
  by_cases hp : shellPlain p.purePosixStr = true
  · rw [if_pos hp] at h1 h2
    cases h1
    exact ⟨rfl, by simpa using h2⟩
  · rw [if_neg hp] at h1; cases h1

/-- A copy, step by step -/
theorem copy_run (p dst : PPath) (ref : Str) (s : Repo) :
    ∃ t s1, s1.log = s.log ∧ (BlobAt C s.log p ref t ∨ t = []) ∧
      (s.faults = [] → s1.faults = []) ∧
      (s.faults = [] → shellPlain p.purePosixStr = true → shellPlain ref = true → ∀ t', BlobAt C s.log p ref t' → t = t') ∧
      ((∀ t', ¬ BlobAt C s.log p ref t') → t = []) ∧
      ((shellPlain p.purePosixStr && shellPlain ref) = false → t = []) ∧
      Source.copyObject C dst (.localGit p ref) s = (do
        let h ← hashObject C dst t
        M.assert (h = ref)
        pure (some h) : G (Option Str)) s1 := by
  cases hc : catBlob C p ref s with
  | mk r s1 =>
    have hl := catBlob_log (C := C) p ref s
    have hcs := catBlob_cases (C := C) p ref s
    have hfa : s.faults = [] → s1.faults = [] := by
      intro hf
      obtain ⟨L, fs⟩ := s
      simp only at hf
      subst hf
      unfold catBlob gitCmd at hc
      cases hc
      rfl
    rw [hc] at hl hcs
    rcases hcs with ⟨t, rfl, hb, hpl⟩ | rfl
    · refine ⟨t, s1, hl, Or.inl hb, hfa, ?_, fun h => absurd hb (h t), (fun h => by rw [hpl] at h; cases h), ?_⟩
      · intro _ _ _ t' hb'
        unfold BlobAt at hb hb'
        rw [hb] at hb'
        cases hb'; rfl
      · show (M.catchRuntime (catBlob C p ref) (pure []) >>= _) s = _
        have : M.catchRuntime (catBlob C p ref) (pure []) s = (.ok t, s1) := by
          unfold M.catchRuntime; rw [hc]
        rw [M.bind_of_ok this]
    · refine ⟨[], s1, hl, Or.inr rfl, hfa, ?_, fun _ => rfl, fun _ => rfl, ?_⟩
      · intro hf hp hr t' hb'
        rw [catBlob_works hf hp hr hb'] at hc
        cases hc
      · show (M.catchRuntime (catBlob C p ref) (pure []) >>= _) s = _
        have : M.catchRuntime (catBlob C p ref) (pure []) s = (.ok [], s1) := by
          unfold M.catchRuntime; rw [hc]; rfl
        rw [M.bind_of_ok this]

/-- C61: a copy that succeeds returns the reference of the source, the destination holds a blob
under it, which is the one of the source, and nothing else is changed.  The references that are
copied are hashes.  (No other blob of the source has the hash of the empty one.) -/
theorem C61_copied {p dst : PPath} {ref : Str} {s s' : Repo} {x : Option Str}
    (hc : CollisionFree C s'.log)
    (he : ∀ t, Stored s.log p.purePosixStr (.blob t) → C.hash (.blob t) = C.hash (.blob []) → t = [])
    (h : Source.copyObject C dst (.localGit p ref) s = (.ok x, s')) :
    x = some ref ∧ isHash ref = true ∧ ∃ t, BlobAt C s'.log dst ref t ∧ (∀ t', BlobAt C s.log p ref t' → t' = t) ∧
      s'.log = .save dst.purePosixStr (.blob t) :: s.log := by
  obtain ⟨t, s1, h1, h2, _, _, _, _, hrun⟩ := copy_run (C := C) p dst ref s
  rw [hrun] at h
  obtain ⟨y, s2, h3, h4⟩ := M.bind_ok h
  obtain ⟨u, s3, h5, h6⟩ := M.bind_ok h4
  obtain ⟨g1, g2⟩ := hashObject_ok h3
  have hy : y = ref ∧ s3 = s2 := by
    by_cases hyr : y = ref
    · rw [decide_eq_true hyr] at h5
      cases h5
      exact ⟨hyr, rfl⟩
    · rw [decide_eq_false hyr] at h5; cases h5
  obtain ⟨rfl, rfl⟩ := hy
  cases h6
  have hh : isHash y = true := by rw [g1]; exact C.valid _
  refine ⟨rfl, hh, t, ?_, ?_, by rw [g2, h1]⟩
  · unfold BlobAt
    have hst : Stored s'.log dst.purePosixStr (.blob t) := by rw [g2]; exact List.mem_cons_self ..
    have := resolve_stored hc hst
    rw [← g1] at this
    exact this
  · intro t' hb
    rcases h2 with h2 | h2
    · unfold BlobAt at hb h2
      rw [hb] at h2
      cases h2; rfl
    · subst h2
      unfold BlobAt at hb
      rw [resolve_hash hh] at hb
      obtain ⟨k1, k2⟩ := findObj_stored hb
      exact he t' k1 (by rw [k2, g1])

/-- C61, for paths and references that are words for the shell, and references that are hashes
(`C61_missing` and `C61_name_stored` show that it fails for the others): while git works, a blob
that the source repository holds is copied, and the copy gives the
same text. -/
theorem C61_works_partial {p dst : PPath} {ref t : Str} {s : Repo} (hf : s.faults = [])
    (hp : shellPlain p.purePosixStr = true) (hd : shellPlain dst.purePosixStr = true)
    (hr : shellPlain ref = true) (hh : isHash ref = true) (h : BlobAt C s.log p ref t) :
    ∃ s', Source.copyObject C dst (.localGit p ref) s = (.ok (some ref), s') ∧
      (CollisionFree C s'.log → Source.writeObject C (.localGit dst ref) s' = (.ok t, s')) ∧
      Source.writeObject C (.localGit p ref) s = (.ok t, s) := by
  obtain ⟨t1, s1, h1, _, hfa, hsame, _, _, hrun⟩ := copy_run (C := C) p dst ref s
  have := hsame hf hp hr t h
  subst this
  have hob : C.hash (.blob t1) = ref := by
    unfold BlobAt at h
    rw [resolve_hash hh] at h
    exact (findObj_stored h).2
  have hho : hashObject C dst t1 s1 = (.ok ref, ⟨.save dst.purePosixStr (.blob t1) :: s1.log, []⟩) := by
    have hf1 := hfa hf
    obtain ⟨L, fs⟩ := s1
    simp only at hf1
    subst hf1
    unfold hashObject gitCmd
    simp [hd, hob]
  refine ⟨⟨.save dst.purePosixStr (.blob t1) :: s1.log, []⟩, ?_, ?_, catBlob_works hf hp hr h⟩
  · rw [hrun, M.bind_of_ok hho, decide_eq_true rfl]
    rfl
  · intro hc
    refine catBlob_works rfl hd hr ?_
    unfold BlobAt
    have hst : Stored (GitOp.save dst.purePosixStr (.blob t1) :: s1.log) dst.purePosixStr (.blob t1) :=
      List.mem_cons_self ..
    have := resolve_stored hc hst
    rw [hob] at this
    exact this

/-- C61: whatever happens, copying sets no reference, and stores at most one blob, in the destination;
writing an object to a file changes no repository. -/
theorem C61_only_destination (src : Source) (dst : PPath) (s : Repo) :
    ((Source.copyObject C dst src s).2.log = s.log ∨
      ∃ t, (Source.copyObject C dst src s).2.log = .save dst.purePosixStr (.blob t) :: s.log) ∧
      (Source.writeObject C src s).2.log = s.log := by
  cases src with
  | immediate j => exact ⟨Or.inl rfl, rfl⟩
  | localGit p ref =>
    refine ⟨?_, catBlob_log p ref s⟩
    obtain ⟨t, s1, h1, _, _, _, _, _, hrun⟩ := copy_run (C := C) p dst ref s
    rw [hrun]
    have hl := hashObject_log (C := C) dst t s1
    cases h3 : hashObject C dst t s1 with
    | mk r s2 =>
      rw [h3] at hl
      have hend : ((do
          let h ← hashObject C dst t
          M.assert (h = ref)
          pure (some h) : G (Option Str)) s1).2 = s2 := by
        cases r with
        | error e => rw [M.bind_of_error h3]
        | ok y =>
          rw [M.bind_of_ok h3]
          by_cases hyr : y = ref
          · rw [decide_eq_true hyr]; rfl
          · rw [decide_eq_false hyr]; rfl
      rw [hend]
      rcases hl with hl | hl
      · exact Or.inl (by rw [hl, h1])
      · exact Or.inr ⟨t, by rw [hl, h1]⟩

/-- C61: the object of an immediate source is written as JSON, which reads back as the content. -/
theorem C61_immediate {j : Json} (hj : j.WF) (s : Repo) :
    ∃ t, Source.writeObject C (.immediate j) s = (.ok t, s) ∧ loads C.floats t = some j :=
  ⟨_, rfl, loads_dumps C.floats j hj⟩

/-- C61 does not hold for references by name: the call always fails. -/
theorem C61_name_fails {p dst : PPath} {ref : Str} (hh : isHash ref = false) (s : Repo) :
    ∃ e, (Source.copyObject C dst (.localGit p ref) s).1 = .error e := by
  obtain ⟨t, s1, h1, _, _, _, _, _, hrun⟩ := copy_run (C := C) p dst ref s
  rw [hrun]
  cases h3 : hashObject C dst t s1 with
  | mk r s2 =>
    cases r with
    | error e => exact ⟨e, by rw [M.bind_of_error h3]⟩
    | ok y =>
      rw [M.bind_of_ok h3]
      have hyr : y ≠ ref := by
        rintro rfl
        rw [(hashObject_ok h3).1, C.valid] at hh
        cases hh
      rw [decide_eq_false hyr]
      exact ⟨.assertion, rfl⟩

/-- A copy of a text that does not have the hash `ref`, while git works -/
theorem copy_wrong {dst : PPath} {ref t : Str} {s1 : Repo} (hf : s1.faults = [])
    (hd : shellPlain dst.purePosixStr = true) (hne : C.hash (.blob t) ≠ ref) :
    (do let h ← hashObject C dst t
        M.assert (h = ref)
        pure (some h) : G (Option Str)) s1 =
      (.error .assertion, ⟨.save dst.purePosixStr (.blob t) :: s1.log, []⟩) := by
  have hho : hashObject C dst t s1 = (.ok (C.hash (.blob t)), ⟨.save dst.purePosixStr (.blob t) :: s1.log, []⟩) := by
    obtain ⟨L, fs⟩ := s1
    simp only at hf
    subst hf
    unfold hashObject gitCmd
    simp [hd]
  rw [M.bind_of_ok hho, decide_eq_false hne]
  rfl

/-- C61: a copy by name fails after the object was stored in the destination. -/
theorem C61_name_stored {p dst : PPath} {ref t : Str} {s : Repo} (hf : s.faults = [])
    (hp : shellPlain p.purePosixStr = true) (hd : shellPlain dst.purePosixStr = true)
    (hr : shellPlain ref = true) (hh : isHash ref = false) (h : BlobAt C s.log p ref t) :
    Source.copyObject C dst (.localGit p ref) s =
      (.error .assertion, ⟨.save dst.purePosixStr (.blob t) :: s.log, []⟩) := by
  obtain ⟨t1, s1, h1, _, hfa, hsame, _, _, hrun⟩ := copy_run (C := C) p dst ref s
  have := hsame hf hp hr t h
  subst this
  rw [hrun, copy_wrong (hfa hf) hd ?_, h1]
  intro h'
  rw [← h', C.valid] at hh
  cases hh

/-- C61: where the source repository does not have the object, or the source repository's path or
the reference is not a word for the shell (a blank in a path), the call fails, and leaves an empty
blob in the destination. -/
theorem C61_missing {p dst : PPath} {ref : Str} {s : Repo} (hf : s.faults = [])
    (hd : shellPlain dst.purePosixStr = true)
    (hno : (∀ t, ¬ BlobAt C s.log p ref t) ∨ shellPlain p.purePosixStr = false ∨ shellPlain ref = false)
    (hne : C.hash (.blob []) ≠ ref) :
    Source.copyObject C dst (.localGit p ref) s =
      (.error .assertion, ⟨.save dst.purePosixStr (.blob []) :: s.log, []⟩) := by
  obtain ⟨t, s1, h1, _, hfa, _, hnone, hpl, hrun⟩ := copy_run (C := C) p dst ref s
  have ht : t = [] := by
    rcases hno with hno | hno | hno
    · exact hnone hno
    · exact hpl (by rw [hno]; rfl)
    · exact hpl (by rw [hno, Bool.and_false])
  subst ht
  rw [hrun, copy_wrong (hfa hf) hd hne, h1]

/-- C61: a reference to the empty blob is copied although the source repository does not have it. -/
theorem C61_empty {p dst : PPath} {s : Repo} (hf : s.faults = [])
    (hd : shellPlain dst.purePosixStr = true) (hno : ∀ t, ¬ BlobAt C s.log p (C.hash (.blob [])) t) :
    (Source.copyObject C dst (.localGit p (C.hash (.blob []))) s).1 = .ok (some (C.hash (.blob []))) := by
  obtain ⟨t, s1, h1, _, hfa, _, hnone, _, hrun⟩ := copy_run (C := C) p dst (C.hash (.blob [])) s
  have := hnone hno
  subst this
  have hho : hashObject C dst [] s1 = (.ok (C.hash (.blob [])), ⟨.save dst.purePosixStr (.blob []) :: s1.log, []⟩) := by
    have hf1 := hfa hf
    obtain ⟨L, fs⟩ := s1
    simp only at hf1
    subst hf1
    unfold hashObject gitCmd
    simp [hd]
  rw [hrun, M.bind_of_ok hho, decide_eq_true rfl]
  rfl

theorem not_shellPlain {x : Str} (h : ' ' ∈ x) : shellPlain x = false := by
  unfold shellPlain
  rw [List.all_eq_false]
  exact ⟨' ', h, by decide⟩

/-- C61: with a blank in the path of the source repository its objects can never be written to a file,
and with a blank in the path of the destination nothing can ever be copied; no repository is changed. -/
theorem C61_blank {p q : PPath} (hp : ' ' ∈ p.purePosixStr) (ref : Str) (s : Repo) :
    (∃ e, (Source.writeObject C (.localGit p ref) s).1 = .error e) ∧
    (∃ e, (Source.copyObject C p (.localGit q ref) s).1 = .error e) ∧
    (Source.copyObject C p (.localGit q ref) s).2.log = s.log := by
  have hn := not_shellPlain hp
  refine ⟨?_, ?_⟩
  · rcases catBlob_cases (C := C) p ref s with ⟨t, _, _, h⟩ | h
    · rw [hn] at h; cases h
    · exact ⟨_, h⟩
  · obtain ⟨t, s1, h1, _, _, _, _, _, hrun⟩ := copy_run (C := C) q p ref s
    rw [hrun]
    have hl : (hashObject C p t s1).2.log = s1.log := by
      obtain ⟨k, h⟩ := gitCmd_log (fun _ : Log => if shellPlain p.purePosixStr then
        ([.save p.purePosixStr (.blob t)], .ok (C.hash (.blob t))) else (([] : List GitOp), .error PyErr.runtime)) s1
      exact h.trans (by simp [hn])
    cases h3 : hashObject C p t s1 with
    | mk r s2 =>
      rw [h3] at hl
      cases r with
      | error e => rw [M.bind_of_error h3]; exact ⟨⟨e, rfl⟩, hl.trans h1⟩
      | ok y =>
        have := (gitCmd_ok h3).1
        simp [hn] at this

/-! ### Examples: a repository with one blob, and a name for it -/

/-- A repository at `/src` -/
def srcPath : PPath := ⟨['/'], [c!"src"]⟩

/-- A repository at `/a b` -/
def blankPath : PPath := ⟨['/'], [c!"a b"]⟩

/-- An empty repository at `/dst` -/
def dstPath : PPath := ⟨['/'], [c!"dst"]⟩

/-- Two repositories with one blob and a name for it -/
def blobRepo : Repo :=
  ⟨[.setRef c!"/src" c!"refs/x" (sampleHash (.blob c!"text")), .save c!"/a b" (.blob c!"text"),
    .save c!"/src" (.blob c!"text")], []⟩

/-- The blob is copied, and can be written from the copy. -/
example : ∃ s', Source.copyObject sampleCfg dstPath (.localGit srcPath (sampleHash (.blob c!"text"))) blobRepo =
    (.ok (some (sampleHash (.blob c!"text"))), s') ∧ s'.log ≠ blobRepo.log := by
  obtain ⟨s', h, _⟩ := C61_works_partial (C := sampleCfg) (p := srcPath) (dst := dstPath)
    (ref := sampleHash (.blob c!"text")) (t := c!"text") (s := blobRepo) rfl (by decide +kernel)
    (by decide +kernel) (by decide +kernel) (sampleHash_valid _) (by unfold BlobAt; decide +kernel)
  refine ⟨s', h, ?_⟩
  have hs : s' = (Source.copyObject sampleCfg dstPath
    (.localGit srcPath (sampleHash (.blob c!"text"))) blobRepo).2 := by rw [h]
  rw [hs]
  decide +kernel

/-- By name, the copy fails. -/
example : Source.copyObject sampleCfg dstPath (.localGit srcPath c!"refs/x") blobRepo =
    (.error .assertion, ⟨.save c!"/dst" (.blob c!"text") :: blobRepo.log, []⟩) :=
  C61_name_stored rfl (by decide +kernel) (by decide +kernel) (by decide +kernel) (by decide +kernel)
    (by unfold BlobAt; decide +kernel)

/-- From a repository with a blank in its path, the copy of a blob that is there fails. -/
example : BlobAt sampleCfg blobRepo.log blankPath (sampleHash (.blob c!"text")) c!"text" ∧
    Source.copyObject sampleCfg dstPath (.localGit blankPath (sampleHash (.blob c!"text"))) blobRepo =
    (.error .assertion, ⟨.save c!"/dst" (.blob []) :: blobRepo.log, []⟩) :=
  ⟨by unfold BlobAt; decide +kernel,
    C61_missing rfl (by decide +kernel) (Or.inr (Or.inl (by decide +kernel))) (by decide +kernel)⟩

/-- Into such a repository nothing is copied. -/
example : ∃ e, (Source.copyObject sampleCfg blankPath (.localGit srcPath (sampleHash (.blob c!"text"))) blobRepo).1 = .error e :=
  (C61_blank (by decide +kernel) _ _).2.1

end MM
