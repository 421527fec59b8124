/-
C47: reading from remote repositories.
-/
import Verif.LocalCache
import Verif.Example

namespace MM

/-- What a name or a hash stands for in a remote repository: the object it holds, or, for a hash
that it does not hold (any more), an object with this hash that it held before. -/
def HasOrHad (C : Cfg) (ever : Realm → GitObj → Prop) (L : Log) (R : Realm) (loc : Str) (o : GitObj) : Prop :=
  resolve C L R loc = some o ∨
    (isHash loc = true ∧ findObj C L R loc = none ∧ ever R o ∧ C.hash o = loc)

/-- C47: in every history of remote repositories and reads, with any outcome of the git commands, a
successful read of a text gives the text of the object that this remote holds for the name or the
hash; for a hash that is gone in the remote, that of the object which the remote itself held. -/
theorem C47 {C : Cfg} {K : CacheCfg} {names : List Realm} {ever : Realm → GitObj → Prop} {s s' : CacheState}
    (hK : Remotes K names) (hs : Cached C K names ever s) {R : Realm} (hR : R ∈ names)
    (hc : ∀ o o', ever R o → ever R o' → C.hash o = C.hash o' → o = o') {loc v : Str}
    (h : loadStr C K R loc s = (.ok v, s')) :
    ∃ t, HasOrHad C ever s.repo.log R loc (.blob t) ∧ v = gitText t := by
  unfold loadStr at h
  obtain ⟨d, s1, h1, h2⟩ := M.bind_ok h
  obtain ⟨_, h2⟩ := onDir_run h2
  have h3 := (gitCmd_ok h2).1
  unfold textAt at h3
  cases hr : resolve C s1.repo.log d loc with
  | none => simp only [hr] at h3; cases h3
  | some o =>
    simp only [hr] at h3
    cases o with
    | tree es => cases h3
    | blob t => cases h3; exact ⟨t, adapt_resolve hK hs hR hc h1 hr, rfl⟩

/-- C47 for JSON documents. -/
theorem C47_json {C : Cfg} {K : CacheCfg} {names : List Realm} {ever : Realm → GitObj → Prop} {s s' : CacheState}
    (hK : Remotes K names) (hs : Cached C K names ever s) {R : Realm} (hR : R ∈ names)
    (hc : ∀ o o', ever R o → ever R o' → C.hash o = C.hash o' → o = o') {loc : Str} {j : Json}
    (h : loadJson C K R loc s = (.ok j, s')) :
    ∃ t, HasOrHad C ever s.repo.log R loc (.blob t) ∧ loads C.floats (gitText t) = some j := by
  unfold loadJson at h
  obtain ⟨d, s1, h1, h2⟩ := M.bind_ok h
  have hd : Ref.isRemote d = false := by
    rw [adaptForRemote_ok h1, if_pos (hK.remote R hR)]; exact hK.cache R hR
  rw [loadStr_local C K hd] at h2
  obtain ⟨v, s2, h2, h4⟩ := M.bind_ok h2
  obtain ⟨_, h2⟩ := onDir_run h2
  have h3 := (gitCmd_ok h2).1
  unfold textAt at h3
  cases hr : resolve C s1.repo.log d loc with
  | none => simp only [hr] at h3; cases h3
  | some o =>
    simp only [hr] at h3
    cases o with
    | tree es => cases h3
    | blob t =>
      cases h3
      refine ⟨t, adapt_resolve hK hs hR hc h1 hr, ?_⟩
      cases hj : loads C.floats (gitText t) with
      | none => rw [hj] at h4; cases h4
      | some j' => rw [hj] at h4; cases h4; rfl

/-- C47 for trees. -/
theorem C47_tree {C : Cfg} {K : CacheCfg} {names : List Realm} {ever : Realm → GitObj → Prop} {s s' : CacheState}
    (hK : Remotes K names) (hs : Cached C K names ever s) {R : Realm} (hR : R ∈ names)
    (hc : ∀ o o', ever R o → ever R o' → C.hash o = C.hash o' → o = o') {loc : Str} {es : List TreeEntry}
    (h : loadTree C K R loc s = (.ok es, s')) : HasOrHad C ever s.repo.log R loc (.tree es) := by
  unfold loadTree at h
  obtain ⟨d, s1, h1, h2⟩ := M.bind_ok h
  obtain ⟨_, h2⟩ := onDir_run h2
  have h3 := (gitCmd_ok h2).1
  simp only at h3
  unfold treeAt at h3
  cases hr : resolve C s1.repo.log d loc with
  | none => simp only [hr] at h3; cases h3
  | some o =>
    simp only [hr] at h3
    cases o with
    | blob t => cases h3
    | tree es' => cases h3; exact adapt_resolve hK hs hR hc h1 hr

/-- C47 for named references: they are always taken from the current state of the remote. -/
theorem C47_names {C : Cfg} {ever : Realm → GitObj → Prop} {L : Log} {R : Realm} {loc : Str} {o : GitObj}
    (h : HasOrHad C ever L R loc o) (hl : isHash loc = false) :
    ∃ x, refOf L R loc = some x ∧ findObj C L R x = some o := by
  rcases h with h | ⟨h, _⟩
  · unfold resolve at h
    rw [if_neg (by rw [hl]; exact Bool.false_ne_true)] at h
    cases hr : refOf L R loc with
    | none => rw [hr] at h; cases h
    | some x => rw [hr] at h; exact ⟨x, rfl, h⟩
  · rw [hl] at h; cases h

theorem hasOrHad_resolve {C : Cfg} {ever : Realm → GitObj → Prop} {L : Log} {R : Realm} {loc : Str} {o : GitObj}
    (hk : ∀ o, ever R o → Stored L R o) (h : HasOrHad C ever L R loc o) : resolve C L R loc = some o := by
  rcases h with h | ⟨_, h, he, rfl⟩
  · exact h
  · have := findObj_isSome (C := C) (hk o he)
    rw [h] at this; cases this

/-- C47 for the objects of the model: if the remote has lost nothing, a successful read of an object
of any class through the cache gives what a direct read of the remote gives. -/
theorem C47_objects {C : Cfg} {K : CacheCfg} {names : List Realm} {ever : Realm → GitObj → Prop} {s s' : CacheState}
    (hK : Remotes K names) (hs : Cached C K names ever s) {R : Realm} (hR : R ∈ names)
    (hc : ∀ o o', ever R o → ever R o' → C.hash o = C.hash o' → o = o')
    (hk : ∀ o, ever R o → Stored s.repo.log R o) {k : Kind} {loc : Str} {b : Body Link}
    (h : decodeVia C K R k loc s = (.ok b, s')) : decode C s.repo.log R k loc = .ok b := by
  have text : ∀ {loc v s1}, loadStr C K R loc s = (.ok v, s1) → textAt C s.repo.log R loc = .ok v := by
    intro loc v s1 h
    obtain ⟨t, h1, rfl⟩ := C47 hK hs hR hc h
    unfold textAt
    rw [hasOrHad_resolve hk h1]
  have json : ∀ {j s1}, loadJson C K R loc s = (.ok j, s1) → jsonAt C s.repo.log R loc = .ok j := by
    intro j s1 h
    obtain ⟨t, h1, h2⟩ := C47_json hK hs hR hc h
    unfold jsonAt textAt
    rw [hasOrHad_resolve hk h1]
    simp only [h2]
  have tree : ∀ {es s1}, loadTree C K R loc s = (.ok es, s1) → treeAt C s.repo.log R loc = .ok es := by
    intro es s1 h
    unfold treeAt
    rw [hasOrHad_resolve hk (C47_tree hK hs hR hc h)]
  cases k with
  | text =>
    unfold decodeVia at h
    obtain ⟨v, s1, h1, h2⟩ := M.bind_ok h
    cases h2
    simp [decode, text h1, bind, Except.bind]
  | metadata =>
    unfold decodeVia at h
    obtain ⟨v, s1, h1, h2⟩ := M.bind_ok h
    obtain ⟨ref, s2, h2, h3⟩ := M.bind_ok h2
    obtain ⟨e2, rfl⟩ := M.ofExcept_eq_ok h2
    cases hl : ref.loc with
    | none => simp only [hl] at h3; cases h3
    | some loc' =>
      simp only [hl] at h3
      obtain ⟨v', s3, h3, h4⟩ := M.bind_ok h3
      obtain ⟨m, s4, h4, h5⟩ := M.bind_ok h4
      obtain ⟨e4, rfl⟩ := M.ofExcept_eq_ok h4
      cases h5
      have hs2 : Cached C K names ever s2 := by
        have := Cached.str loc hs hR
        rwa [h1] at this
      have hsame : ∀ x, resolve C s2.repo.log R x = resolve C s.repo.log R x := by
        obtain ⟨ops, e1, e2⟩ := loadStr_log C K R loc s
        rw [h1] at e1
        simp only at e1
        have ne := hK.path_ne hR hR
        have hf : ∀ x, findObj C s2.repo.log R x = findObj C s.repo.log R x := by
          intro x
          rw [e1]
          clear e1 h1
          induction ops with
          | nil => rfl
          | cons op ops ih =>
            have ih := ih fun op h => e2 op (List.mem_cons_of_mem _ h)
            rcases (e2 op (List.mem_cons_self ..)).2 with ⟨o, rfl, _⟩ | ⟨x', rfl, _⟩
            · simp only [List.cons_append, findObj]
              rw [if_neg (fun hc => ne hc.1)]
              exact ih
            · exact ih
        have hn : ∀ x, refOf s2.repo.log R x = refOf s.repo.log R x := by
          intro x
          rw [e1]
          rcases refOf_brings (r := R) (n := x) (fun op hop => (e2 op hop).2) with h | ⟨h, _⟩
          · exact h
          · exact absurd h.symm ne
        intro x
        unfold resolve
        rw [hn x]
        split
        · exact hf x
        · split
          · exact hf _
          · rfl
      obtain ⟨t, h6, rfl⟩ := C47 hK hs2 hR hc h3
      have hk2 : ∀ o, ever R o → Stored s2.repo.log R o := by
        intro o ho
        obtain ⟨ops, e1, _⟩ := loadStr_log C K R loc s
        rw [h1] at e1
        simp only at e1
        rw [e1]
        exact stored_append (hk o ho)
      have h7 : textAt C s.repo.log R loc' = .ok (gitText t) := by
        have := hasOrHad_resolve hk2 h6
        rw [hsame] at this
        unfold textAt
        rw [this]
      simp [decode, text h1, e2, hl, h7, e4, bind, Except.bind]
  | mtree leaf =>
    unfold decodeVia at h
    obtain ⟨es, s1, h1, h2⟩ := M.bind_ok h
    obtain ⟨es', s2, h2, h3⟩ := M.bind_ok h2
    obtain ⟨e2, rfl⟩ := M.ofExcept_eq_ok h2
    cases h3
    simp [decode, tree h1, e2, bind, Except.bind]
  | mrr =>
    unfold decodeVia at h
    obtain ⟨j, s1, h1, h2⟩ := M.bind_ok h
    obtain ⟨e2, rfl⟩ := M.ofExcept_eq_ok h2
    simp [decode, json h1, e2, bind, Except.bind]
  | vlist =>
    unfold decodeVia at h
    obtain ⟨j, s1, h1, h2⟩ := M.bind_ok h
    obtain ⟨ks, s2, h2, h3⟩ := M.bind_ok h2
    obtain ⟨e2, rfl⟩ := M.ofExcept_eq_ok h2
    cases h3
    simp [decode, json h1, e2, bind, Except.bind]
  | tvl =>
    unfold decodeVia at h
    obtain ⟨j, s1, h1, h2⟩ := M.bind_ok h
    obtain ⟨ks, s2, h2, h3⟩ := M.bind_ok h2
    obtain ⟨e2, rfl⟩ := M.ofExcept_eq_ok h2
    cases h3
    simp [decode, json h1, e2, bind, Except.bind]
  | uuidset =>
    unfold decodeVia at h
    obtain ⟨es, s1, h1, h2⟩ := M.bind_ok h
    obtain ⟨es', s2, h2, h3⟩ := M.bind_ok h2
    obtain ⟨e2, rfl⟩ := M.ofExcept_eq_ok h2
    obtain ⟨ks, s3, h3, h4⟩ := M.bind_ok h3
    obtain ⟨e3, rfl⟩ := M.ofExcept_eq_ok h3
    cases h4
    simp [decode, tree h1, e2, e3, bind, Except.bind]

theorem sameAt_brings {L ops : Log} {d R r : Realm} {loc : Str} (hb : ∀ op ∈ ops, Brings L d R loc op) (hr : r ≠ d) :
    SameAt L (ops ++ L) r := by
  refine ⟨fun o => ⟨fun ho => ?_, fun ho => stored_append ho⟩, fun n => ?_⟩
  · rcases stored_brings hb ho with h | ⟨h, _⟩
    · exact h
    · exact absurd h hr
  · rcases refOf_brings (r := r) (n := n) hb with h | ⟨h, _⟩
    · exact h
    · exact absurd h hr

/-- C47, the caches do not mix: a read of a text, a JSON document or a tree, with any outcome, changes
no repository besides the cache of the remote that is read, in particular no remote repository and no
cache of another one. -/
theorem C47_separate (C : Cfg) (K : CacheCfg) {R : Realm} (hl : Ref.isRemote (K.path R) = false) (loc : Str)
    (s : CacheState) {r : Realm} (hr : r ≠ K.path R) :
    SameAt s.repo.log (loadStr C K R loc s).2.repo.log r ∧
    SameAt s.repo.log (loadJson C K R loc s).2.repo.log r ∧
    SameAt s.repo.log (loadTree C K R loc s).2.repo.log r := by
  obtain ⟨ops1, h1, b1⟩ := loadStr_log C K R loc s
  obtain ⟨ops2, h2, b2⟩ := loadJson_log C K R hl loc s
  obtain ⟨ops3, h3, b3⟩ := loadTree_log C K R loc s
  rw [h1, h2, h3]
  exact ⟨sameAt_brings (fun op h => (b1 op h).2) hr, sameAt_brings (fun op h => (b2 op h).2) hr,
    sameAt_brings (fun op h => (b3 op h).2) hr⟩

/-- C47 for local repositories: reading changes nothing, and gives the local content. -/
theorem C47_local (C : Cfg) (K : CacheCfg) {r : Realm} (hl : Ref.isRemote r = false) (loc : Str)
    {s s' : CacheState} {o : Except PyErr Str} (h : loadStr C K r loc s = (o, s')) :
    s'.repo.log = s.repo.log ∧ ∀ v, o = .ok v → textAt C s.repo.log r loc = .ok v := by
  obtain ⟨ops, h1, h2⟩ := loadStr_log C K r loc s
  rw [h] at h1
  refine ⟨?_, ?_⟩
  · cases ops with
    | nil => exact h1
    | cons op ops =>
      have := (h2 op (List.mem_cons_self ..)).1
      rw [hl] at this; cases this
  · rintro v rfl
    rw [loadStr_local C K hl] at h
    exact (gitCmd_ok (onDir_run h).2).1

/-- C47, which repositories are remote: those whose name begins like an address of git; a repository is
either remote or local. -/
theorem C47_classes (R : Realm) :
    (Ref.isRemote R = true ↔ ∃ p ∈ [c!"git@", c!"git:", c!"http:", c!"https:", c!"ssh:"], ∃ t, R = p ++ t) ∧
    (Ref.isLocal R = true ↔ ¬ ∃ p ∈ [c!"git@", c!"git:", c!"http:", c!"https:", c!"ssh:"], ∃ t, R = p ++ t) := by
  have h : Ref.isRemote R = true ↔
      ∃ p ∈ [c!"git@", c!"git:", c!"http:", c!"https:", c!"ssh:"], ∃ t, R = p ++ t := by
    unfold Ref.isRemote
    rw [List.any_eq_true]
    refine exists_congr fun p => and_congr_right fun _ => ?_
    rw [startsWith, List.isPrefixOf_iff_prefix]
    exact ⟨fun ⟨t, h⟩ => ⟨t, h.symm⟩, fun ⟨t, h⟩ => ⟨t, h.symm⟩⟩
  refine ⟨h, ?_⟩
  rw [← h, Ref.isLocal]
  cases Ref.isRemote R <;> simp

/-- C47: absolute paths are local; in particular the caches are if they are kept below an absolute path. -/
theorem C47_absolute (K : CacheCfg) {t : Str} (hb : K.base = '/' :: t) (R : Realm) :
    Ref.isLocal K.base = true ∧ Ref.isLocal (K.path R) = true := by
  have h : ∀ u : Str, Ref.isLocal ('/' :: u) = true := by
    intro u
    rw [(C47_classes _).2]
    rintro ⟨p, hp, v, hv⟩
    simp only [List.mem_cons, List.not_mem_nil, or_false] at hp
    rcases hp with rfl | rfl | rfl | rfl | rfl <;> simp at hv
  unfold CacheCfg.path
  rw [hb]
  exact ⟨h _, h _⟩

/-- An address of each kind, and a path that only looks like one. -/
example : Ref.isRemote c!"git@host:repo" = true ∧ Ref.isRemote c!"https://host/repo" = true ∧
    Ref.isLocal c!"/git@host" = true ∧ Ref.isLocal c!"gitrepo" = true := by decide

/-- C47: after a successful read of a remote its cache is there and is a repository, so that later
reads do not initialise it again. -/
theorem C47_kept {C : Cfg} {K : CacheCfg} {R : Realm} {loc v : Str} {s s' : CacheState}
    (hr : Ref.isRemote R = true) (h : loadStr C K R loc s = (.ok v, s')) :
    K.path R ∈ s'.dirs ∧ K.path R ∉ s'.broken := by
  have hon : ∀ {α : Type} (d : Realm) (g : G α) (s : CacheState),
      (onDir d g s).2.dirs = s.dirs ∧ (onDir d g s).2.broken = s.broken := by
    intro α d g s
    unfold onDir
    split <;> exact ⟨rfl, rfl⟩
  unfold loadStr at h
  obtain ⟨d, s1, h1, h2⟩ := M.bind_ok h
  have hd : d = K.path R := by rw [adaptForRemote_ok h1, if_pos hr]
  subst hd
  have hk := hon (K.path R) (gitLoadStr C (K.path R) loc) s1
  rw [h2] at hk
  refine ⟨?_, hk.2 ▸ (onDir_run h2).1⟩
  rw [hk.1]
  unfold adaptForRemote at h1
  rw [if_pos hr] at h1
  obtain ⟨_, s2, h3, h4⟩ := M.bind_ok h1
  cases h4
  unfold cacheObject at h3
  obtain ⟨_, s3, h5, h6⟩ := M.bind_ok h3
  have hm : K.path R ∈ s3.dirs := by
    unfold ensureCache gitInit at h5
    split at h5
    · cases h5; assumption
    · split at h5 <;> cases h5 <;> exact List.mem_cons_self
  split at h6
  · have := hon (K.path R) (gitFetch C (K.path R) R loc (some loc)) s3
    rw [h6] at this
    rw [this.1]; exact hm
  · obtain ⟨b, s4, h7, h8⟩ := M.bind_ok h6
    have h4 : s4.dirs = s3.dirs := by
      unfold existsLocally at h7
      have := hon (K.path R) (gitCmd fun L => ([], .ok (resolve C L (K.path R) loc).isSome)) s3
      split at h7
      · rename_i he; rw [he] at this; cases h7; exact this.1
      · rename_i he; rw [he] at this; cases h7; exact this.1
    split at h8
    · cases h8; rw [h4]; exact hm
    · have := hon (K.path R) (gitFetch C (K.path R) R loc none) s4
      rw [h8] at this
      rw [this.1, h4]; exact hm

/-- C47, reading works: if git works, the cache is not a broken repository, and the remote holds the
object with all its parts, then reading it through the cache gives exactly what a direct read of the
remote gives. -/
theorem C47_works {C : Cfg} {K : CacheCfg} {names : List Realm} {ever : Realm → GitObj → Prop} {s : CacheState}
    (hK : Remotes K names) (hs : Cached C K names ever s) {R : Realm} (hR : R ∈ names)
    (hc : ∀ o o', ever R o → ever R o' → C.hash o = C.hash o' → o = o')
    (hf : s.repo.faults = []) (hb : K.path R ∉ s.broken) {loc h : Str}
    (hl : isHash loc = true ∧ h = loc ∨ startsWith loc c!"refs" = true ∧ refOf s.repo.log R loc = some h)
    (hw : Whole C s.repo.log R h) :
    (loadStr C K R loc s).1 = textAt C s.repo.log R loc ∧
    (loadTree C K R loc s).1 = treeAt C s.repo.log R loc := by
  have hh : fetchHash s.repo.log R loc = some h := by
    unfold fetchHash
    rcases hl with ⟨hl, rfl⟩ | ⟨hl, hr⟩
    · rw [if_pos hl]
    · rw [if_neg (by rw [refs_not_hash hl]; exact Bool.false_ne_true)]; exact hr
  have hfo : ∃ o, resolve C s.repo.log R loc = some o := by
    have : ∃ o, findObj C s.repo.log R h = some o := by
      cases hw with
      | blob hf => exact ⟨_, hf⟩
      | tree hf _ => exact ⟨_, hf⟩
    unfold resolve
    rcases hl with ⟨hl, rfl⟩ | ⟨hl, hr⟩
    · rw [if_pos hl]; exact this
    · rw [if_neg (by rw [refs_not_hash hl]; exact Bool.false_ne_true), hr]; exact this
  obtain ⟨s1, h1, h2, h3, h4⟩ := adapt_works (K := K) (hK.remote R hR) hf hb
    (hl.elim (fun h => .inr h.1) fun h => .inl h.1) hh hw
  obtain ⟨o, ho⟩ := hfo
  have hsame : resolve C s1.repo.log (K.path R) loc = resolve C s.repo.log R loc := by
    cases hr : resolve C s1.repo.log (K.path R) loc with
    | none => rw [hr] at h4; cases h4
    | some o' =>
      rcases adapt_resolve hK hs hR hc h1 hr with hx | ⟨hx, hn, _⟩
      · exact hx.symm
      · rw [resolve_hash hx, hn] at ho; cases ho
  have hb1 : K.path R ∉ s1.broken := by rw [h3]; exact hb
  constructor
  · unfold loadStr
    rw [M.bind_of_ok h1]
    unfold gitLoadStr
    rw [onDir_nofault hb1 h2]
    simp only [textAt, hsame]
  · unfold loadTree
    rw [M.bind_of_ok h1, onDir_nofault hb1 h2]
    simp only [treeAt, hsame]

/-- A finding: if `git init` of a cache ends too early, so that the directory is there but is not a
repository, then all later reads from this remote fail, however well git works by then. -/
theorem C47_stuck (C : Cfg) (K : CacheCfg) {R : Realm} (hr : Ref.isRemote R = true) (loc : Str) {s : CacheState}
    (hd : K.path R ∈ s.dirs) (hb : K.path R ∈ s.broken) : loadStr C K R loc s = (.error .runtime, s) := by
  have hon : ∀ {α : Type} (g : G α), onDir (K.path R) g s = (.error .runtime, s) := by
    intro α g; unfold onDir; rw [if_pos hb]
  have he : ensureCache K R s = (.ok (), s) := by unfold ensureCache; rw [if_pos hd]
  have hco : cacheObject C K R loc s = (.error .runtime, s) := by
    unfold cacheObject
    rw [M.bind_of_ok he]
    split
    · exact hon _
    · have hx : existsLocally C (K.path R) loc s = (.ok false, s) := by
        unfold existsLocally; rw [hon]
      rw [M.bind_of_ok hx]
      exact hon _
  unfold loadStr adaptForRemote
  rw [if_pos hr]
  exact M.bind_of_error (M.bind_of_error hco)

/-! ### Cases -/

/-- Two remotes. -/
def remoteA : Realm := c!"https://a.example/x"
def remoteB : Realm := c!"https://b.example/x"

/-- Caches below a directory; instead of the SHA-256 the name itself. -/
def sampleCaches : CacheCfg := ⟨c!"/cache", fun s => s⟩

def remoteName : Str := c!"refs/datalad/object-references"

/-- A file tree with one element, which a name points to, in the one remote; another tree under the
same name in the other one. -/
def remoteTree : GitObj := .tree [⟨false, sampleHash (.blob c!"one"), c!"x"⟩]
def remoteTree' : GitObj := .tree [⟨false, sampleHash (.blob c!"two"), c!"x"⟩]

def remoteLog : Log :=
  [.setRef remoteB remoteName (sampleHash remoteTree'), .save remoteB remoteTree', .save remoteB (.blob c!"two"),
   .setRef remoteA remoteName (sampleHash remoteTree), .save remoteA remoteTree, .save remoteA (.blob c!"one")]

/-- No caches yet. -/
def remoteState : CacheState := ⟨⟨remoteLog, []⟩, [], []⟩

theorem sample_remotes : Remotes sampleCaches [remoteA, remoteB] :=
  ⟨by decide, by decide, by decide⟩

/-- No change of the log concerns a repository. -/
def untouched (L : Log) (d : Realm) : Bool :=
  L.all fun | .save r _ => r != d | .setRef r _ _ => r != d | .delRef r _ => r != d

theorem of_untouched {L : Log} {d : Realm} (h : untouched L d = true) :
    (∀ o, ¬ Stored L d o) ∧ ∀ n, refOf L d n = none := by
  constructor
  · intro o ho
    have := List.all_eq_true.mp h _ ho
    simp at this
  · intro n
    induction L with
    | nil => rfl
    | cons op L ih =>
      simp only [untouched, List.all_cons, Bool.and_eq_true] at h
      have ih := ih h.2
      cases op with
      | save r o => exact ih
      | setRef r m x =>
        have := h.1
        simp only [bne_iff_ne, ne_eq] at this
        simp only [refOf]; rw [if_neg fun hc => this hc.1]; exact ih
      | delRef r m =>
        have := h.1
        simp only [bne_iff_ne, ne_eq] at this
        simp only [refOf]; rw [if_neg fun hc => this hc.1]; exact ih

theorem remote_start : Cached sampleCfg sampleCaches [remoteA, remoteB]
    (fun r o => Stored remoteState.repo.log r o) remoteState := by
  refine .start fun R hR => of_untouched ?_
  have : ∀ R ∈ [remoteA, remoteB], untouched remoteLog (sampleCaches.path R) = true := by decide
  exact this R hR

/-- The first read of the name, from both remotes. -/
def remoteRead : CacheState :=
  (loadTree sampleCfg sampleCaches remoteB remoteName (loadTree sampleCfg sampleCaches remoteA remoteName remoteState).2).2

/-- The one remote stores a text and gives it the name. -/
def remoteAdded : List GitOp :=
  [.setRef remoteA remoteName (sampleHash (.blob c!"three")), .save remoteA (.blob c!"three")]

def remoteMoved : CacheState := { remoteRead with repo := ⟨remoteAdded ++ remoteRead.repo.log, []⟩ }

theorem remote_moved : Cached sampleCfg sampleCaches [remoteA, remoteB]
    (fun r o => Stored remoteLog r o ∨ Stored (remoteAdded ++ remoteRead.repo.log) r o) remoteMoved := by
  refine .change _ [] (.tree _ (.tree _ remote_start (by decide)) (by decide)) fun R hR => ?_
  have hu : untouched remoteAdded (sampleCaches.path R) = true := by
    have : ∀ R ∈ [remoteA, remoteB], untouched remoteAdded (sampleCaches.path R) = true := by decide
    exact this R hR
  refine ⟨fun o => ⟨fun ho => ?_, fun ho => List.mem_append_right _ ho⟩, fun n => ?_⟩
  · rcases List.mem_append.mp ho with ho | ho
    · exact absurd ho ((of_untouched hu).1 o)
    · exact ho
  · have hne : remoteA ≠ sampleCaches.path R := by
      have : ∀ R ∈ [remoteA, remoteB], remoteA ≠ sampleCaches.path R := by decide
      exact this R hR
    simp only [remoteAdded, List.cons_append, List.nil_append, refOf]
    rw [if_neg fun hc => hne hc.1]

/-- The objects that the first remote has held. -/
def remoteObjs : List GitObj := [.blob c!"one", remoteTree, .blob c!"three"]

/-- All objects in a repository are in the list. -/
def heldOnly (L : Log) (d : Realm) (os : List GitObj) : Bool :=
  L.all fun | .save r o => r != d || os.contains o | _ => true

theorem of_heldOnly {L : Log} {d : Realm} {os : List GitObj} (h : heldOnly L d os = true) {o : GitObj}
    (ho : Stored L d o) : o ∈ os := by
  have := List.all_eq_true.mp h _ ho
  simpa using this

theorem remote_distinct : ∀ o o', (Stored remoteLog remoteA o ∨ Stored (remoteAdded ++ remoteRead.repo.log) remoteA o) →
    (Stored remoteLog remoteA o' ∨ Stored (remoteAdded ++ remoteRead.repo.log) remoteA o') →
    sampleCfg.hash o = sampleCfg.hash o' → o = o' := by
  have h1 : heldOnly remoteLog remoteA remoteObjs = true := by decide +kernel
  have h2 : heldOnly (remoteAdded ++ remoteRead.repo.log) remoteA remoteObjs = true := by decide +kernel
  have h3 : ∀ o ∈ remoteObjs, ∀ o' ∈ remoteObjs, sampleCfg.hash o = sampleCfg.hash o' → o = o' := by decide +kernel
  intro o o' ho ho'
  exact h3 o (ho.elim (of_heldOnly h1) (of_heldOnly h2)) o' (ho'.elim (of_heldOnly h1) (of_heldOnly h2))

/-- The reads: the name gives the tree of the remote that is read; after the one remote has given the
name to a text, that text; and the old tree is still found by its hash. -/
theorem remote_reads :
    (loadTree sampleCfg sampleCaches remoteA remoteName remoteState).1.toOption =
      some [⟨false, sampleHash (.blob c!"one"), c!"x"⟩] ∧
    (loadTree sampleCfg sampleCaches remoteB remoteName
        (loadTree sampleCfg sampleCaches remoteA remoteName remoteState).2).1.toOption =
      some [⟨false, sampleHash (.blob c!"two"), c!"x"⟩] ∧
    (loadStr sampleCfg sampleCaches remoteA remoteName remoteMoved).1.toOption = some c!"three" ∧
    (loadTree sampleCfg sampleCaches remoteA (sampleHash remoteTree) remoteMoved).1.toOption =
      some [⟨false, sampleHash (.blob c!"one"), c!"x"⟩] := by decide +kernel

theorem of_toOption {σ α : Type} {p : Except PyErr α × σ} {a : α} (h : p.1.toOption = some a) : p = (.ok a, p.2) := by
  cases p with
  | mk x s => cases x with
    | error e => cases h
    | ok b => cases h; rfl

/-- The theorems apply to these reads. -/
example : (∃ t, HasOrHad sampleCfg (fun r o => Stored remoteLog r o ∨ Stored (remoteAdded ++ remoteRead.repo.log) r o)
      remoteMoved.repo.log remoteA remoteName (.blob t) ∧ c!"three" = gitText t) ∧
    HasOrHad sampleCfg (fun r o => Stored remoteLog r o ∨ Stored (remoteAdded ++ remoteRead.repo.log) r o)
      remoteMoved.repo.log remoteA (sampleHash remoteTree) (.tree [⟨false, sampleHash (.blob c!"one"), c!"x"⟩]) :=
  ⟨C47 sample_remotes remote_moved (by decide) remote_distinct (of_toOption remote_reads.2.2.1),
   C47_tree sample_remotes remote_moved (by decide) remote_distinct (of_toOption remote_reads.2.2.2)⟩

/-- The first read makes the cache, and the cache is kept; here the commands are listed as working ones. -/
example : ∃ s' : CacheState, loadStr sampleCfg sampleCaches remoteA (sampleHash (.blob c!"one"))
      { remoteState with repo := ⟨remoteState.repo.log, [.none, .none, .none]⟩ } = (.ok c!"one", s') ∧
    sampleCaches.path remoteA ∉ remoteState.dirs ∧ sampleCaches.path remoteA ∈ s'.dirs := by
  have h : (loadStr sampleCfg sampleCaches remoteA (sampleHash (.blob c!"one"))
      { remoteState with repo := ⟨remoteState.repo.log, [.none, .none, .none]⟩ }).1.toOption = some c!"one" := by
    decide +kernel
  exact ⟨_, of_toOption h, by decide, (C47_kept (by decide) (of_toOption h)).1⟩

/-- The remote holds the tree as a whole. -/
example : (loadTree sampleCfg sampleCaches remoteA remoteName remoteState).1 = treeAt sampleCfg remoteLog remoteA remoteName := by
  have hb : findObj sampleCfg remoteLog remoteA (sampleHash (.blob c!"one")) = some (.blob c!"one") := by decide +kernel
  have ht : findObj sampleCfg remoteLog remoteA (sampleHash remoteTree) = some remoteTree := by decide +kernel
  have hw : Whole sampleCfg remoteLog remoteA (sampleHash remoteTree) := by
    refine .tree ht fun e he => ?_
    rcases List.mem_cons.mp he with rfl | he
    · exact .blob hb
    · cases he
  have hc : ∀ o o', Stored remoteLog remoteA o → Stored remoteLog remoteA o' →
      sampleCfg.hash o = sampleCfg.hash o' → o = o' := fun o o' h h' => remote_distinct o o' (.inl h) (.inl h')
  exact (C47_works sample_remotes remote_start (by decide) hc rfl (by decide) (.inr ⟨by decide, by decide +kernel⟩) hw).2

/-- An object of the model: the tree is read as a file tree. -/
example : ∃ b, (decodeVia sampleCfg sampleCaches remoteA (.mtree .metadata) remoteName remoteState).1.toOption = some b ∧
    b.kids.length = 1 ∧ decode sampleCfg remoteLog remoteA (.mtree .metadata) remoteName = .ok b := by
  have h : ((decodeVia sampleCfg sampleCaches remoteA (.mtree .metadata) remoteName remoteState).1.toOption.map
      fun b => b.kids.length) = some 1 := by decide +kernel
  cases hx : (decodeVia sampleCfg sampleCaches remoteA (.mtree .metadata) remoteName remoteState).1.toOption with
  | none => rw [hx] at h; cases h
  | some b =>
    rw [hx] at h
    refine ⟨b, rfl, by simpa using h, ?_⟩
    have hc : ∀ o o', Stored remoteLog remoteA o → Stored remoteLog remoteA o' →
        sampleCfg.hash o = sampleCfg.hash o' → o = o' := fun o o' h h' => remote_distinct o o' (.inl h) (.inl h')
    exact C47_objects sample_remotes remote_start (by decide) hc (fun o ho => ho) (of_toOption hx)

/-- Reading from the one remote leaves the cache of the other one alone. -/
example : SameAt remoteRead.repo.log (loadStr sampleCfg sampleCaches remoteA remoteName remoteRead).2.repo.log
    (sampleCaches.path remoteB) :=
  (C47_separate sampleCfg sampleCaches (by decide) remoteName remoteRead (by decide)).1

/-- A cache that `git init` did not finish: the first read fails, and so do all later ones. -/
example : ∃ s : CacheState, (loadStr sampleCfg sampleCaches remoteA remoteName ⟨⟨remoteLog, [.fail 1]⟩, [], []⟩) = (.error .runtime, s) ∧
    s.repo.faults = [] ∧ ∀ loc, loadStr sampleCfg sampleCaches remoteA loc s = (.error .runtime, s) :=
  ⟨⟨⟨remoteLog, []⟩, [sampleCaches.path remoteA], [sampleCaches.path remoteA]⟩, rfl, rfl, fun loc =>
    C47_stuck sampleCfg sampleCaches (by decide) loc (List.mem_cons_self ..) (List.mem_cons_self ..)⟩

end MM
