/-
Reading from remote repositories: every remote has a local repository as its
cache, into which an object is fetched before it is read
(`mapper/gitmapper/localcache.py`, `adapt_for_remote` and `git_fetch_*` in
`gitbackend/subprocess.py`).
-/
import Verif.Mapper
import Mathlib.Data.List.Nodup
import Batteries.Data.List.Perm

namespace MM

/-- Where the caches are: the base directory (localcache.py 18-21) and the SHA-256 of
a name (localcache.py 24-25), which the model leaves open. -/
structure CacheCfg where
  base : Str
  sha : Str → Str

/-- `get_repo_cache_path`, `get_cache_realm` (localcache.py 28-29, 56-57) -/
def CacheCfg.path (K : CacheCfg) (remote : Realm) : Realm := K.base ++ c!"/" ++ K.sha remote

/-- All repositories, the cache directories that exist, and those of them in which
`git init` did not come to its end, so that they are not repositories. -/
structure CacheState where
  repo : Repo
  dirs : List Realm
  broken : List Realm
  deriving Repr

/-- Code that runs git commands with a directory as its repository: every command
fails if the directory is not a repository. -/
def onDir {α : Type} (d : Realm) (g : G α) : M CacheState α := fun s =>
  if d ∈ s.broken then (.error .runtime, s)
  else ((g s.repo).1, { s with repo := (g s.repo).2 })

/-- `git_init` (subprocess.py 95-97).  A failing command may have created the
directory already. -/
def gitInit (d : Realm) : M CacheState Unit := fun s =>
  match s.repo.faults with
  | .fail 0 :: fs => (.error .runtime, { s with repo := ⟨s.repo.log, fs⟩ })
  | .fail (_ + 1) :: fs =>
    (.error .runtime, ⟨⟨s.repo.log, fs⟩, d :: s.dirs, d :: s.broken⟩)
  | .none :: fs => (.ok (), ⟨⟨s.repo.log, fs⟩, d :: s.dirs, s.broken⟩)
  | [] => (.ok (), ⟨⟨s.repo.log, []⟩, d :: s.dirs, s.broken⟩)

/-- `ensure_cache_exists` (localcache.py 32-35) -/
def ensureCache (K : CacheCfg) (remote : Realm) : M CacheState Unit := fun s =>
  if K.path remote ∈ s.dirs then (.ok (), s) else gitInit (K.path remote) s

/-- `git_object_exists_locally` (subprocess.py 100-103): a command that fails for
another reason means "not there". -/
def existsLocally (C : Cfg) (d : Realm) (loc : Str) : M CacheState Bool := fun s =>
  match onDir d (gitCmd fun L => ([], .ok (resolve C L d loc).isSome)) s with
  | (.ok b, s') => (.ok b, s')
  | (.error _, s') => (.ok false, s')

/-- The objects that git transfers for an object: the object and all that is below it
if it is a tree, the parts before the whole.  `none` if one is missing.  The number
bounds the depth. -/
def pack (C : Cfg) (L : Log) (r : Realm) : Nat → Str → Option (List GitObj)
  | 0, _ => none
  | n + 1, h => match findObj C L r h with
    | none => none
    | some (.blob s) => some [.blob s]
    | some (.tree es) =>
      (es.mapM fun e => pack C L r n e.hash).map fun ps => ps.flatten ++ [.tree es]

/-- The hash that an argument of `git fetch` stands for in the remote repository: a
full hash (which the remote must be willing to give out) or a named reference. -/
def fetchHash (L : Log) (r : Realm) (loc : Str) : Option Str :=
  if isHash loc then some loc else refOf L r loc

/-- `git fetch` as a command on the repositories: the objects are stored, then the
local reference is set, by force.  git transfers only what is missing; storing an
object twice makes no difference here. -/
def fetchCmd (C : Cfg) (d remote : Realm) (loc : Str) (name : Option Str) (L : Log) :
    List GitOp × Except PyErr Unit :=
  match fetchHash L remote loc with
  | none => ([], .error .runtime)
  | some h => match pack C L remote (L.length + 1) h with
    | none => ([], .error .runtime)
    | some os => (os.map (.save d) ++ (name.map fun n => .setRef d n h).toList, .ok ())

/-- `git_fetch_reference` and `git_fetch_object` (subprocess.py 188-213) -/
def gitFetch (C : Cfg) (d remote : Realm) (loc : Str) (name : Option Str) : G Unit :=
  gitCmd (fetchCmd C d remote loc name)

/-- `cache_object` (localcache.py 38-53) -/
def cacheObject (C : Cfg) (K : CacheCfg) (remote : Realm) (loc : Str) : M CacheState Unit := do
  ensureCache K remote
  if startsWith loc c!"refs" then
    onDir (K.path remote) (gitFetch C (K.path remote) remote loc (some loc))
  else do
    let there ← existsLocally C (K.path remote) loc
    if there then pure ()
    else onDir (K.path remote) (gitFetch C (K.path remote) remote loc none)

/-- `adapt_for_remote` (subprocess.py 72-81) -/
def adaptForRemote (C : Cfg) (K : CacheCfg) (r : Realm) (loc : Str) : M CacheState Realm :=
  if Ref.isRemote r then do
    cacheObject C K r loc
    pure (K.path r)
  else pure r

/-- `git_load_str` (subprocess.py 84-87) -/
def loadStr (C : Cfg) (K : CacheCfg) (r : Realm) (loc : Str) : M CacheState Str := do
  let d ← adaptForRemote C K r loc
  onDir d (gitLoadStr C d loc)

/-- `git_load_json` (subprocess.py 90-92); `git_load_str` adapts once more. -/
def loadJson (C : Cfg) (K : CacheCfg) (r : Realm) (loc : Str) : M CacheState Json := do
  let d ← adaptForRemote C K r loc
  let s ← loadStr C K d loc
  M.ofExcept (match loads C.floats s with | some j => .ok j | none => .error .value)

/-- `git_read_tree_node`, `git_ls_tree` (subprocess.py 106-116) -/
def loadTree (C : Cfg) (K : CacheCfg) (r : Realm) (loc : Str) : M CacheState (List TreeEntry) := do
  let d ← adaptForRemote C K r loc
  onDir d (gitCmd fun L => ([], treeAt C L d loc))

/-- `map_in_impl` of the mapper of a class (see `decode`), with the caches of remote
repositories. -/
def decodeVia (C : Cfg) (K : CacheCfg) (r : Realm) (k : Kind) (loc : Str) :
    M CacheState (Body Link) :=
  match k with
  | .text => do
    let s ← loadStr C K r loc
    pure ⟨.text (some s), []⟩
  | .metadata => do
    let s ← loadStr C K r loc
    let ref ← M.ofExcept (Ref.fromText C.floats s)
    match ref.loc with
    | none => M.raise .type
    | some loc' =>
      let s' ← loadStr C K r loc'
      let m ← M.ofExcept (Sets.fromText C.floats s')
      pure ⟨.metadata m, []⟩
  | .mtree leaf => do
    let es ← loadTree C K r loc
    let es' ← M.ofExcept (readTree es)
    pure ⟨.mtree leaf, fromItems (es'.map (childOf leaf))⟩
  | .mrr => do
    let j ← loadJson C K r loc
    M.ofExcept (mrrFromJson j)
  | .vlist => do
    let j ← loadJson C K r loc
    let ks ← M.ofExcept (vrecsFromJson j)
    pure ⟨.vlist, ks⟩
  | .tvl => do
    let j ← loadJson C K r loc
    let ks ← M.ofExcept (vrecsFromJson j)
    pure ⟨.tvl, ks⟩
  | .uuidset => do
    let es ← loadTree C K r loc
    let es' ← M.ofExcept (rawTree es)
    let ks ← M.ofExcept (eachOk uuidEntry es')
    pure ⟨.uuidset, fromItems ks⟩

/-! ### What a fetch brings -/

theorem mapM_some {α β : Type} {f : α → Option β} : ∀ {l : List α} {bs : List β},
    l.mapM f = some bs → ∀ b ∈ bs, ∃ a ∈ l, f a = some b
  | [], bs, h => by
    simp at h; subst h; intro b hb; cases hb
  | a :: l, bs, h => by
    rw [List.mapM_cons] at h
    cases ha : f a with
    | none => rw [ha] at h; cases h
    | some b0 =>
      rw [ha] at h
      cases hl : l.mapM f with
      | none => rw [hl] at h; cases h
      | some bs0 =>
        rw [hl] at h
        cases h
        intro b hb
        rcases List.mem_cons.mp hb with rfl | hb
        · exact ⟨a, List.mem_cons_self .., ha⟩
        · obtain ⟨a', ha', hf⟩ := mapM_some hl b hb
          exact ⟨a', List.mem_cons_of_mem _ ha', hf⟩

theorem mapM_isSome {α β : Type} {f : α → Option β} : ∀ {l : List α},
    (∀ a ∈ l, (f a).isSome = true) → (l.mapM f).isSome = true
  | [], _ => rfl
  | a :: l, h => by
    rw [List.mapM_cons]
    have ha := h a (List.mem_cons_self ..)
    have hl := mapM_isSome (f := f) fun b hb => h b (List.mem_cons_of_mem _ hb)
    cases hfa : f a with
    | none => rw [hfa] at ha; cases ha
    | some b =>
      cases hfl : l.mapM f with
      | none => rw [hfl] at hl; cases hl
      | some bs => rfl

/-- All that is transferred is stored in the remote, and the object itself is in it. -/
theorem pack_spec {C : Cfg} {L : Log} {r : Realm} : ∀ {n : Nat} {h : Str} {os : List GitObj},
    pack C L r n h = some os →
      (∀ o ∈ os, Stored L r o) ∧ ∃ o, findObj C L r h = some o ∧ o ∈ os
  | 0, _, _, h => by cases h
  | n + 1, h, os, hp => by
    unfold pack at hp
    cases hf : findObj C L r h with
    | none => rw [hf] at hp; cases hp
    | some o =>
      rw [hf] at hp
      cases o with
      | blob s =>
        cases hp
        refine ⟨fun o ho => ?_, _, rfl, List.mem_cons_self ..⟩
        rcases List.mem_cons.mp ho with rfl | ho
        · exact (findObj_stored hf).1
        · cases ho
      | tree es =>
        cases hm : es.mapM fun e => pack C L r n e.hash with
        | none => simp only [hm] at hp; cases hp
        | some ps =>
          simp only [hm] at hp
          cases hp
          refine ⟨fun o ho => ?_, _, rfl, by simp⟩
          rcases List.mem_append.mp ho with ho | ho
          · obtain ⟨p, hp, ho⟩ := List.mem_flatten.mp ho
            obtain ⟨e, he, hpe⟩ := mapM_some hm p hp
            exact (pack_spec hpe).1 o ho
          · rcases List.mem_cons.mp ho with rfl | ho
            · exact (findObj_stored hf).1
            · cases ho

/-- The remote holds the object with this hash and all that is below it. -/
inductive Whole (C : Cfg) (L : Log) (r : Realm) : Str → Prop
  | blob {h s} (hf : findObj C L r h = some (.blob s)) : Whole C L r h
  | tree {h es} (hf : findObj C L r h = some (.tree es)) (hk : ∀ e ∈ es, Whole C L r e.hash) :
    Whole C L r h

/-- Some hash is that of an entry of a tree. -/
def Under (C : Cfg) (L : Log) (r : Realm) (a h : Str) : Prop :=
  ∃ es, findObj C L r h = some (.tree es) ∧ ∃ e ∈ es, e.hash = a

theorem Whole.acc {C : Cfg} {L : Log} {r : Realm} {h : Str} (w : Whole C L r h) :
    Acc (Under C L r) h := by
  induction w with
  | blob hf =>
    refine ⟨_, fun a ⟨es, he, _⟩ => ?_⟩
    rw [hf] at he; cases he
  | tree hf _ ih =>
    refine ⟨_, fun a ⟨es, he, e, hm, ha⟩ => ?_⟩
    rw [hf] at he; cases he
    subst ha
    exact ih e hm

theorem acc_transGen_irrefl {α : Type} {R : α → α → Prop} {a : α} (h : Acc R a) :
    ¬ Relation.TransGen R a a := by
  have h' : Acc (Relation.TransGen R) a := h.transGen
  induction h' with
  | intro a ha ih => exact fun ht => ih a ht h ht

theorem pack_mono {C : Cfg} {L : Log} {r : Realm} : ∀ {n m : Nat} {h : Str}, n ≤ m →
    (pack C L r n h).isSome = true → (pack C L r m h).isSome = true
  | 0, _, _, _, hs => by cases hs
  | n + 1, 0, _, hnm, _ => by omega
  | n + 1, m + 1, h, hnm, hs => by
    unfold pack at hs ⊢
    cases hf : findObj C L r h with
    | none => rw [hf] at hs; cases hs
    | some o =>
      rw [hf] at hs
      cases o with
      | blob s => rfl
      | tree es =>
        simp only [Option.isSome_map] at hs ⊢
        refine mapM_isSome fun e he => ?_
        cases hm : es.mapM fun e => pack C L r n e.hash with
        | none => rw [hm] at hs; cases hs
        | some ps =>
          refine pack_mono (n := n) (by omega) ?_
          clear hs hf
          induction es generalizing ps with
          | nil => cases he
          | cons e0 es ih =>
            rw [List.mapM_cons] at hm
            cases ha : pack C L r n e0.hash with
            | none => simp only [ha] at hm; cases hm
            | some b =>
              simp only [ha] at hm
              rcases List.mem_cons.mp he with rfl | he
              · simp [ha]
              · cases hl : es.mapM fun e => pack C L r n e.hash with
                | none => simp only [hl] at hm; cases hm
                | some ps' => exact ih he ps' hl

/-- The depth is bounded by the number of stored objects. -/
theorem Whole.chain {C : Cfg} {L : Log} {r : Realm} {h : Str} (w : Whole C L r h) :
    ∃ l : List GitObj, l.Nodup ∧ (∀ o ∈ l, Stored L r o ∧
      (C.hash o = h ∨ Relation.TransGen (Under C L r) (C.hash o) h)) ∧
      (pack C L r l.length h).isSome = true := by
  induction w with
  | @blob h s hf =>
    refine ⟨[.blob s], List.nodup_singleton _, fun o ho => ?_, ?_⟩
    · rcases List.mem_cons.mp ho with rfl | ho
      · exact ⟨(findObj_stored hf).1, .inl (findObj_stored hf).2⟩
      · cases ho
    · simp [pack, hf]
  | @tree h es hf hk ih =>
    have hw : Acc (Under C L r) h := (Whole.tree hf hk).acc
    have key : ∀ es' : List TreeEntry, (∀ e ∈ es', e ∈ es) → ∃ l : List GitObj, l.Nodup ∧
        (∀ o ∈ l, Stored L r o ∧ Relation.TransGen (Under C L r) (C.hash o) h) ∧
        ∀ e ∈ es', (pack C L r l.length e.hash).isSome = true := by
      intro es'
      induction es' with
      | nil =>
        exact fun _ => ⟨[], List.nodup_nil, (fun o ho => by cases ho), (fun e he => by cases he)⟩
      | cons e es' ih' =>
        intro hs
        obtain ⟨l1, n1, h1, p1⟩ := ih' fun e' he' => hs e' (List.mem_cons_of_mem _ he')
        have hem := hs e (List.mem_cons_self ..)
        obtain ⟨l2, n2, h2, p2⟩ := ih e hem
        have hu : Under C L r e.hash h := ⟨es, hf, e, hem, rfl⟩
        by_cases hle : l1.length ≤ l2.length
        · refine ⟨l2, n2, fun o ho => ⟨(h2 o ho).1, ?_⟩, fun e' he' => ?_⟩
          · rcases (h2 o ho).2 with hh | hh
            · rw [hh]; exact .single hu
            · exact hh.tail hu
          · rcases List.mem_cons.mp he' with rfl | he'
            · exact p2
            · exact pack_mono hle (p1 e' he')
        · refine ⟨l1, n1, h1, fun e' he' => ?_⟩
          rcases List.mem_cons.mp he' with rfl | he'
          · exact pack_mono (by omega) p2
          · exact p1 e' he'
    obtain ⟨l, n, hl, hp⟩ := key es fun e he => he
    have hst := findObj_stored hf
    refine ⟨.tree es :: l, List.nodup_cons.mpr ⟨fun hm => ?_, n⟩, fun o ho => ?_, ?_⟩
    · have := (hl _ hm).2
      rw [hst.2] at this
      exact acc_transGen_irrefl hw this
    · rcases List.mem_cons.mp ho with rfl | ho
      · exact ⟨hst.1, .inl hst.2⟩
      · exact ⟨(hl o ho).1, .inr (hl o ho).2⟩
    · simp only [List.length_cons]
      unfold pack
      rw [hf]
      simp only [Option.isSome_map]
      exact mapM_isSome hp

theorem length_of_stored {L : Log} {r : Realm} {l : List GitObj} (hn : l.Nodup)
    (hs : ∀ o ∈ l, Stored L r o) : l.length ≤ L.length := by
  have hn' : (l.map (GitOp.save r)).Nodup :=
    hn.map fun a b h => by injection h
  have := (List.subperm_of_subset (l₂ := L) hn' fun x hx => by
    obtain ⟨o, ho, rfl⟩ := List.mem_map.mp hx
    exact hs o ho).length_le
  simpa using this

/-- What is whole in the remote can be transferred. -/
theorem Whole.pack {C : Cfg} {L : Log} {r : Realm} {h : Str} (w : Whole C L r h) :
    (pack C L r (L.length + 1) h).isSome = true := by
  obtain ⟨l, hn, hl, hp⟩ := w.chain
  exact pack_mono (by have := length_of_stored hn fun o ho => (hl o ho).1; omega) hp

/-! ### The changes a read makes -/

/-- The changes that a read from a remote makes: objects of the remote are stored in
its cache, and one named reference is set there. -/
def Brings (L : Log) (d remote : Realm) (loc : Str) (op : GitOp) : Prop :=
  (∃ o, op = .save d o ∧ Stored L remote o) ∨
    (∃ h, op = .setRef d loc h ∧ startsWith loc c!"refs" = true)

theorem onDir_run {α : Type} {d : Realm} {g : G α} {s s' : CacheState} {a : α}
    (h : onDir d g s = (.ok a, s')) : d ∉ s.broken ∧ g s.repo = (.ok a, s'.repo) := by
  unfold onDir at h
  split at h
  · cases h
  · rename_i hb
    refine ⟨hb, ?_⟩
    injection h with h1 h2
    subst h2
    exact Prod.ext h1 rfl

theorem gitInit_log (d : Realm) (s : CacheState) : (gitInit d s).2.repo.log = s.repo.log := by
  unfold gitInit; split <;> rfl

theorem ensureCache_log (K : CacheCfg) (r : Realm) (s : CacheState) :
    (ensureCache K r s).2.repo.log = s.repo.log := by
  unfold ensureCache; split
  · rfl
  · exact gitInit_log _ s

theorem onDir_read_log {α : Type} (d : Realm) (f : Log → Except PyErr α) (s : CacheState) :
    (onDir d (gitCmd fun L => ([], f L)) s).2.repo.log = s.repo.log := by
  unfold onDir; split
  · rfl
  · obtain ⟨k, hk⟩ := gitCmd_log (fun L => (([] : List GitOp), f L)) s.repo
    simpa using hk

theorem existsLocally_log (C : Cfg) (d : Realm) (loc : Str) (s : CacheState) :
    (existsLocally C d loc s).2.repo.log = s.repo.log := by
  have h := onDir_read_log d (fun L => .ok (resolve C L d loc).isSome) s
  unfold existsLocally
  cases hx : onDir d (gitCmd fun L => ([], .ok (resolve C L d loc).isSome)) s with
  | mk a s' => rw [hx] at h; cases a <;> exact h

theorem onDir_fetch_log (C : Cfg) (d remote : Realm) (loc : Str) (name : Option Str)
    (hn : ∀ n, name = some n → n = loc ∧ startsWith loc c!"refs" = true) (s : CacheState) :
    ∃ ops, (onDir d (gitFetch C d remote loc name) s).2.repo.log = ops ++ s.repo.log ∧
      ∀ op ∈ ops, Brings s.repo.log d remote loc op := by
  unfold onDir; split
  · exact ⟨[], rfl, fun op h => by cases h⟩
  · unfold gitFetch
    obtain ⟨k, hk⟩ := gitCmd_log (fetchCmd C d remote loc name) s.repo
    refine ⟨_, hk, fun op hop => ?_⟩
    have hop := List.mem_of_mem_take (List.mem_reverse.mp hop)
    unfold fetchCmd at hop
    cases hf : fetchHash s.repo.log remote loc with
    | none => simp only [hf] at hop; cases hop
    | some h =>
      simp only [hf] at hop
      cases hp : pack C s.repo.log remote (s.repo.log.length + 1) h with
      | none => simp only [hp] at hop; cases hop
      | some os =>
        simp only [hp] at hop
        rcases List.mem_append.mp hop with hop | hop
        · obtain ⟨o, ho, rfl⟩ := List.mem_map.mp hop
          exact .inl ⟨o, rfl, (pack_spec hp).1 o ho⟩
        · cases name with
          | none => cases hop
          | some n =>
            rcases List.mem_cons.mp hop with rfl | hop
            · obtain ⟨rfl, hs⟩ := hn n rfl
              exact .inr ⟨h, rfl, hs⟩
            · cases hop

theorem cacheObject_log (C : Cfg) (K : CacheCfg) (remote : Realm) (loc : Str) (s : CacheState) :
    ∃ ops, (cacheObject C K remote loc s).2.repo.log = ops ++ s.repo.log ∧
      ∀ op ∈ ops, Brings s.repo.log (K.path remote) remote loc op := by
  have he := ensureCache_log K remote s
  unfold cacheObject
  cases hx : ensureCache K remote s with
  | mk a s1 =>
    rw [hx] at he
    cases a with
    | error e => rw [M.bind_of_error hx]; exact ⟨[], he, fun op h => by cases h⟩
    | ok u =>
      rw [M.bind_of_ok hx]
      simp only at he
      by_cases hr : startsWith loc c!"refs" = true
      · rw [if_pos hr, ← he]
        exact onDir_fetch_log C _ remote loc (some loc) (fun n h => by cases h; exact ⟨rfl, hr⟩) s1
      · rw [if_neg hr]
        have hl := existsLocally_log C (K.path remote) loc s1
        cases hy : existsLocally C (K.path remote) loc s1 with
        | mk b s2 =>
          rw [hy] at hl
          simp only at hl
          cases b with
          | error e => rw [M.bind_of_error hy]; exact ⟨[], hl.trans he, fun op h => by cases h⟩
          | ok b =>
            rw [M.bind_of_ok hy]
            cases b with
            | true => exact ⟨[], hl.trans he, fun op h => by cases h⟩
            | false =>
              rw [← he, ← hl]
              exact onDir_fetch_log C _ remote loc none (fun n h => by cases h) s2

theorem adaptForRemote_log (C : Cfg) (K : CacheCfg) (r : Realm) (loc : Str) (s : CacheState) :
    ∃ ops, (adaptForRemote C K r loc s).2.repo.log = ops ++ s.repo.log ∧
      ∀ op ∈ ops, Ref.isRemote r = true ∧ Brings s.repo.log (K.path r) r loc op := by
  unfold adaptForRemote
  split
  · rename_i hr
    obtain ⟨ops, h1, h2⟩ := cacheObject_log C K r loc s
    refine ⟨ops, ?_, fun op hop => ⟨hr, h2 op hop⟩⟩
    cases hx : cacheObject C K r loc s with
    | mk a s1 =>
      rw [hx] at h1
      cases a with
      | error e => rw [M.bind_of_error hx]; exact h1
      | ok u => rw [M.bind_of_ok hx]; exact h1
  · exact ⟨[], rfl, fun op h => by cases h⟩

theorem adaptForRemote_ok {C : Cfg} {K : CacheCfg} {r d : Realm} {loc : Str} {s s' : CacheState}
    (h : adaptForRemote C K r loc s = (.ok d, s')) :
    d = if Ref.isRemote r = true then K.path r else r := by
  unfold adaptForRemote at h
  split at h
  · rename_i hr
    obtain ⟨_, s1, _, h⟩ := M.bind_ok h
    cases h; rw [if_pos hr]
  · rename_i hr
    cases h; rw [if_neg hr]

theorem loadStr_log (C : Cfg) (K : CacheCfg) (r : Realm) (loc : Str) (s : CacheState) :
    ∃ ops, (loadStr C K r loc s).2.repo.log = ops ++ s.repo.log ∧
      ∀ op ∈ ops, Ref.isRemote r = true ∧ Brings s.repo.log (K.path r) r loc op := by
  obtain ⟨ops, h1, h2⟩ := adaptForRemote_log C K r loc s
  refine ⟨ops, ?_, h2⟩
  unfold loadStr
  cases hx : adaptForRemote C K r loc s with
  | mk a s1 =>
    rw [hx] at h1
    cases a with
    | error e => rw [M.bind_of_error hx]; exact h1
    | ok d =>
      rw [M.bind_of_ok hx]
      exact (onDir_read_log d (fun L => textAt C L d loc) s1).trans h1

theorem loadTree_log (C : Cfg) (K : CacheCfg) (r : Realm) (loc : Str) (s : CacheState) :
    ∃ ops, (loadTree C K r loc s).2.repo.log = ops ++ s.repo.log ∧
      ∀ op ∈ ops, Ref.isRemote r = true ∧ Brings s.repo.log (K.path r) r loc op := by
  obtain ⟨ops, h1, h2⟩ := adaptForRemote_log C K r loc s
  refine ⟨ops, ?_, h2⟩
  unfold loadTree
  cases hx : adaptForRemote C K r loc s with
  | mk a s1 =>
    rw [hx] at h1
    cases a with
    | error e => rw [M.bind_of_error hx]; exact h1
    | ok d =>
      rw [M.bind_of_ok hx]
      exact (onDir_read_log d (fun L => treeAt C L d loc) s1).trans h1

theorem loadStr_local (C : Cfg) (K : CacheCfg) {r : Realm} (hr : Ref.isRemote r = false) (loc : Str) :
    loadStr C K r loc = onDir r (gitLoadStr C r loc) := by
  unfold loadStr adaptForRemote
  rw [if_neg (by rw [hr]; exact Bool.false_ne_true)]
  rfl

theorem loadJson_log (C : Cfg) (K : CacheCfg) (r : Realm) (hl : Ref.isRemote (K.path r) = false)
    (loc : Str) (s : CacheState) :
    ∃ ops, (loadJson C K r loc s).2.repo.log = ops ++ s.repo.log ∧
      ∀ op ∈ ops, Ref.isRemote r = true ∧ Brings s.repo.log (K.path r) r loc op := by
  obtain ⟨ops, h1, h2⟩ := adaptForRemote_log C K r loc s
  refine ⟨ops, ?_, h2⟩
  unfold loadJson
  cases hx : adaptForRemote C K r loc s with
  | mk a s1 =>
    rw [hx] at h1
    cases a with
    | error e => rw [M.bind_of_error hx]; exact h1
    | ok d =>
      rw [M.bind_of_ok hx]
      have hd : Ref.isRemote d = false := by
        have := adaptForRemote_ok hx
        split at this
        · rw [this]; exact hl
        · rename_i hr; rw [this]; simpa using hr
      rw [loadStr_local C K hd]
      have hlog := onDir_read_log d (fun L => textAt C L d loc) s1
      cases hy : onDir d (gitLoadStr C d loc) s1 with
      | mk b s2 =>
        have hlog : s2.repo.log = s1.repo.log := by
          unfold gitLoadStr at hy; rw [hy] at hlog; exact hlog
        cases b with
        | error e => rw [M.bind_of_error hy]; exact hlog.trans h1
        | ok t =>
          rw [M.bind_of_ok hy]
          have : ∀ (x : Except PyErr Json), ((M.ofExcept x : M CacheState Json) s2).2 = s2 := by
            intro x; cases x <;> rfl
          rw [this]
          exact hlog.trans h1

/-! ### Histories of remotes and their caches -/

/-- A repository has the same objects and names before and after. -/
def SameAt (L L' : Log) (d : Realm) : Prop :=
  (∀ o, Stored L' d o ↔ Stored L d o) ∧ ∀ n, refOf L' d n = refOf L d n

/-- The histories of some remote repositories and their caches.  The caches start
empty.  Then the repositories change in any way (objects may also vanish), only not
the caches, and objects are read from the remotes, with any outcome.  The relation
`ever` tells what each repository has held so far. -/
inductive Cached (C : Cfg) (K : CacheCfg) (names : List Realm) :
    (Realm → GitObj → Prop) → CacheState → Prop
  | start {s : CacheState}
      (h : ∀ R ∈ names, (∀ o, ¬ Stored s.repo.log (K.path R) o) ∧
        ∀ n, refOf s.repo.log (K.path R) n = none) :
      Cached C K names (fun r o => Stored s.repo.log r o) s
  | change {ever : Realm → GitObj → Prop} {s : CacheState} (L' : Log) (fs : List Fault)
      (h : Cached C K names ever s) (hk : ∀ R ∈ names, SameAt s.repo.log L' (K.path R)) :
      Cached C K names (fun r o => ever r o ∨ Stored L' r o) { s with repo := ⟨L', fs⟩ }
  | str {ever : Realm → GitObj → Prop} {s : CacheState} {R : Realm} (loc : Str)
      (h : Cached C K names ever s) (hR : R ∈ names) :
      Cached C K names ever (loadStr C K R loc s).2
  | json {ever : Realm → GitObj → Prop} {s : CacheState} {R : Realm} (loc : Str)
      (h : Cached C K names ever s) (hR : R ∈ names) :
      Cached C K names ever (loadJson C K R loc s).2
  | tree {ever : Realm → GitObj → Prop} {s : CacheState} {R : Realm} (loc : Str)
      (h : Cached C K names ever s) (hR : R ∈ names) :
      Cached C K names ever (loadTree C K R loc s).2

/-- The names are those of remote repositories, the caches are local, and the names
have different SHA-256 values. -/
structure Remotes (K : CacheCfg) (names : List Realm) : Prop where
  remote : ∀ R ∈ names, Ref.isRemote R = true
  cache : ∀ R ∈ names, Ref.isRemote (K.path R) = false
  apart : ∀ R ∈ names, ∀ R' ∈ names, K.sha R = K.sha R' → R = R'

theorem Remotes.path_ne {K : CacheCfg} {names : List Realm} (hK : Remotes K names) {R R' : Realm}
    (hR : R ∈ names) (hR' : R' ∈ names) : K.path R ≠ R' := by
  intro h
  have h1 := hK.cache R hR
  rw [h, hK.remote R' hR'] at h1
  cases h1

theorem Remotes.path_inj {K : CacheCfg} {names : List Realm} (hK : Remotes K names) {R R' : Realm}
    (hR : R ∈ names) (hR' : R' ∈ names) (h : K.path R = K.path R') : R = R' :=
  hK.apart R hR R' hR' (List.append_cancel_left h)

/-- A cache holds only what its remote has held, and names that begin with "refs". -/
structure CacheInv (K : CacheCfg) (names : List Realm) (ever : Realm → GitObj → Prop) (L : Log) :
    Prop where
  now : ∀ R ∈ names, ∀ o, Stored L R o → ever R o
  cached : ∀ R ∈ names, ∀ o, Stored L (K.path R) o → ever R o
  refs : ∀ R ∈ names, ∀ n h, refOf L (K.path R) n = some h → startsWith n c!"refs" = true

theorem refOf_brings {L K : Log} {d remote r : Realm} {loc n : Str}
    (h : ∀ op ∈ K, Brings L d remote loc op) :
    refOf (K ++ L) r n = refOf L r n ∨
      (r = d ∧ n = loc ∧ startsWith loc c!"refs" = true) := by
  induction K with
  | nil => exact .inl rfl
  | cons op K ih =>
    have ih := ih fun op' h' => h op' (List.mem_cons_of_mem _ h')
    rcases h op (List.mem_cons_self ..) with ⟨o, rfl, _⟩ | ⟨h', rfl, hs⟩
    · exact ih
    · simp only [List.cons_append, refOf]
      split
      · rename_i hc; exact .inr ⟨hc.1.symm, hc.2.symm, hs⟩
      · exact ih

theorem stored_brings {L K : Log} {d remote r : Realm} {loc : Str} {o : GitObj}
    (h : ∀ op ∈ K, Brings L d remote loc op) (hs : Stored (K ++ L) r o) :
    Stored L r o ∨ (r = d ∧ Stored L remote o) := by
  rcases List.mem_append.mp hs with hm | hm
  · rcases h _ hm with ⟨o', he, ho⟩ | ⟨h', he, _⟩
    · cases he; exact .inr ⟨rfl, ho⟩
    · cases he
  · exact .inl hm

theorem CacheInv.brings {K : CacheCfg} {names : List Realm} {ever : Realm → GitObj → Prop}
    {L ops : Log} (hK : Remotes K names) (hi : CacheInv K names ever L) {R : Realm} (hR : R ∈ names)
    {loc : Str} (hb : ∀ op ∈ ops, Brings L (K.path R) R loc op) :
    CacheInv K names ever (ops ++ L) where
  now R' hR' o ho := by
    rcases stored_brings hb ho with h | ⟨h, _⟩
    · exact hi.now R' hR' o h
    · exact absurd h.symm (hK.path_ne hR hR')
  cached R' hR' o ho := by
    rcases stored_brings hb ho with h | ⟨h, hs⟩
    · exact hi.cached R' hR' o h
    · rw [hK.path_inj hR' hR h]; exact hi.now R hR o hs
  refs R' hR' n h hr := by
    rcases refOf_brings (r := K.path R') (n := n) hb with h' | ⟨_, h', hs⟩
    · rw [h'] at hr; exact hi.refs R' hR' n h hr
    · rw [h']; exact hs

theorem Cached.inv {C : Cfg} {K : CacheCfg} {names : List Realm} {ever : Realm → GitObj → Prop}
    {s : CacheState} (hK : Remotes K names) (h : Cached C K names ever s) :
    CacheInv K names ever s.repo.log := by
  induction h with
  | start h =>
    exact {
      now := fun R hR o ho => ho
      cached := fun R hR o ho => absurd ho ((h R hR).1 o)
      refs := fun R hR n h' hr => by rw [(h R hR).2 n] at hr; cases hr }
  | change L' fs h hk ih =>
    exact {
      now := fun R hR o ho => .inr ho
      cached := fun R hR o ho => .inl (ih.cached R hR o (((hk R hR).1 o).mp ho))
      refs := fun R hR n h' hr => ih.refs R hR n h' (by rw [← (hk R hR).2 n]; exact hr) }
  | @str ever s R loc h hR ih =>
    obtain ⟨ops, h1, h2⟩ := loadStr_log C K R loc s
    rw [h1]; exact ih.brings hK hR fun op hop => (h2 op hop).2
  | @json ever s R loc h hR ih =>
    obtain ⟨ops, h1, h2⟩ := loadJson_log C K R (hK.cache R hR) loc s
    rw [h1]; exact ih.brings hK hR fun op hop => (h2 op hop).2
  | @tree ever s R loc h hR ih =>
    obtain ⟨ops, h1, h2⟩ := loadTree_log C K R loc s
    rw [h1]; exact ih.brings hK hR fun op hop => (h2 op hop).2

/-! ### What a successful read gives -/

theorem refs_not_hash {loc : Str} (h : startsWith loc c!"refs" = true) : isHash loc = false := by
  unfold startsWith at h
  rw [List.isPrefixOf_iff_prefix] at h
  obtain ⟨t, rfl⟩ := h
  unfold isHash
  have : (c!"refs" ++ t).all (fun c => (hexVal c).isSome) = false := rfl
  rw [this, Bool.and_false]

theorem fetchCmd_ok {C : Cfg} {d remote : Realm} {loc : Str} {name : Option Str} {L : Log}
    (h : (fetchCmd C d remote loc name L).2 = .ok ()) :
    ∃ (hh : Str) (os : List GitObj) (o : GitObj), fetchHash L remote loc = some hh ∧ findObj C L remote hh = some o ∧ o ∈ os ∧
      (∀ o ∈ os, Stored L remote o) ∧
      (fetchCmd C d remote loc name L).1 =
        os.map (.save d) ++ (name.map fun n => .setRef d n hh).toList := by
  unfold fetchCmd at h ⊢
  cases hf : fetchHash L remote loc with
  | none => simp only [hf] at h; cases h
  | some hh =>
    simp only [hf] at h ⊢
    cases hp : pack C L remote (L.length + 1) hh with
    | none => simp only [hp] at h; cases h
    | some os =>
      obtain ⟨h1, o, h2, h3⟩ := pack_spec hp
      exact ⟨hh, os, o, rfl, h2, h3, h1, rfl⟩

/-- After a successful `cache_object` of a name, the cache has the name with the hash
it has in the remote, and the remote has the object. -/
theorem cacheObject_name {C : Cfg} {K : CacheCfg} {R : Realm} {loc : Str} {s s' : CacheState}
    (hl : startsWith loc c!"refs" = true) (h : cacheObject C K R loc s = (.ok (), s')) :
    ∃ hh o, refOf s.repo.log R loc = some hh ∧ findObj C s.repo.log R hh = some o ∧
      refOf s'.repo.log (K.path R) loc = some hh := by
  unfold cacheObject at h
  obtain ⟨_, s1, h1, h⟩ := M.bind_ok h
  have e1 := ensureCache_log K R s
  rw [h1] at e1
  simp only at e1
  rw [if_pos hl] at h
  obtain ⟨_, hg⟩ := onDir_run h
  unfold gitFetch at hg
  obtain ⟨h2, h3⟩ := gitCmd_ok hg
  obtain ⟨hh, os, o, hf, ho, _, _, hops⟩ := fetchCmd_ok h2
  rw [hops, e1] at h3
  rw [e1] at hf ho
  refine ⟨hh, o, ?_, ho, ?_⟩
  · unfold fetchHash at hf
    rwa [if_neg (by rw [refs_not_hash hl]; exact Bool.false_ne_true)] at hf
  · rw [h3]
    simp [refOf]

/-- What a read through the cache finds is what the remote has for the name or the
hash, or for a hash what it had. -/
theorem adapt_resolve {C : Cfg} {K : CacheCfg} {names : List Realm}
    {ever : Realm → GitObj → Prop} {s s' : CacheState} (hK : Remotes K names)
    (hs : Cached C K names ever s) {R d : Realm} (hR : R ∈ names)
    (hc : ∀ o o', ever R o → ever R o' → C.hash o = C.hash o' → o = o') {loc : Str} {o : GitObj}
    (h : adaptForRemote C K R loc s = (.ok d, s')) (hr : resolve C s'.repo.log d loc = some o) :
    resolve C s.repo.log R loc = some o ∨
      (isHash loc = true ∧ findObj C s.repo.log R loc = none ∧ ever R o ∧ C.hash o = loc) := by
  have hi := hs.inv hK
  have hd : d = K.path R := by
    rw [adaptForRemote_ok h, if_pos (hK.remote R hR)]
  subst hd
  obtain ⟨ops, h1, h2⟩ := adaptForRemote_log C K R loc s
  rw [h] at h1
  have hi' : CacheInv K names ever s'.repo.log := by
    rw [h1]; exact hi.brings hK hR fun op hop => (h2 op hop).2
  have hfound : ∀ hh o', findObj C s'.repo.log (K.path R) hh = some o →
      findObj C s.repo.log R hh = some o' → o' = o := by
    intro hh o' hf hf'
    obtain ⟨a1, a2⟩ := findObj_stored hf
    obtain ⟨b1, b2⟩ := findObj_stored hf'
    exact hc o' o (hi.now R hR o' b1) (hi'.cached R hR o a1) (by rw [a2, b2])
  unfold resolve at hr ⊢
  by_cases hh : isHash loc = true
  · rw [if_pos hh] at hr ⊢
    cases hf : findObj C s.repo.log R loc with
    | some o' => rw [hfound _ _ hr hf]; exact .inl rfl
    | none =>
      obtain ⟨a1, a2⟩ := findObj_stored hr
      exact .inr ⟨hh, rfl, hi'.cached R hR o a1, a2⟩
  · rw [if_neg hh] at hr ⊢
    cases hn : refOf s'.repo.log (K.path R) loc with
    | none => rw [hn] at hr; cases hr
    | some h' =>
      rw [hn] at hr
      simp only at hr
      have hl := hi'.refs R hR loc h' hn
      have hco : cacheObject C K R loc s = (.ok (), s') := by
        unfold adaptForRemote at h
        rw [if_pos (hK.remote R hR)] at h
        obtain ⟨u, s1, hx, h⟩ := M.bind_ok h
        cases h
        exact hx
      obtain ⟨hh', o', hr1, hf1, hr2⟩ := cacheObject_name hl hco
      rw [hn] at hr2
      cases hr2
      rw [hr1]
      simp only
      rw [hf1, hfound _ _ hr hf1]
      exact .inl rfl

/-! ### When everything works -/

theorem onDir_nofault {α : Type} {d : Realm} {cmd : Log → List GitOp × Except PyErr α}
    {s : CacheState} (hb : d ∉ s.broken) (hf : s.repo.faults = []) :
    onDir d (gitCmd cmd) s =
      ((cmd s.repo.log).2, { s with repo := ⟨(cmd s.repo.log).1.reverse ++ s.repo.log, []⟩ }) := by
  unfold onDir
  rw [if_neg hb]
  unfold gitCmd
  rw [hf]

theorem ensureCache_nofault {K : CacheCfg} {R : Realm} {s : CacheState} (hf : s.repo.faults = []) :
    ∃ dirs, ensureCache K R s = (.ok (), ⟨⟨s.repo.log, []⟩, dirs, s.broken⟩) := by
  unfold ensureCache
  split
  · refine ⟨s.dirs, ?_⟩
    rw [← hf]
  · unfold gitInit
    rw [hf]
    exact ⟨_, rfl⟩

/-- A fetch of an object that the remote has as a whole works. -/
theorem fetchCmd_works {C : Cfg} {d R : Realm} {loc h : Str} {name : Option Str} {L : Log}
    (hf : fetchHash L R loc = some h) (hw : Whole C L R h) :
    (fetchCmd C d R loc name L).2 = .ok () := by
  unfold fetchCmd
  rw [hf]
  have := hw.pack
  cases hp : MM.pack C L R (L.length + 1) h with
  | none => rw [hp] at this; cases this
  | some os => simp only [hp]

/-- If git works and the remote has all of the object, then the cache has it after
`cache_object`. -/
theorem cacheObject_works {C : Cfg} {K : CacheCfg} {R : Realm} {loc h : Str} {s : CacheState}
    (hf : s.repo.faults = []) (hb : K.path R ∉ s.broken)
    (hl : startsWith loc c!"refs" = true ∨ isHash loc = true)
    (hh : fetchHash s.repo.log R loc = some h) (hw : Whole C s.repo.log R h) :
    ∃ s', cacheObject C K R loc s = (.ok (), s') ∧ s'.repo.faults = [] ∧ s'.broken = s.broken ∧
      (resolve C s'.repo.log (K.path R) loc).isSome = true := by
  obtain ⟨dirs, he⟩ := ensureCache_nofault (K := K) (R := R) hf
  have fetched : ∀ (name : Option Str) (d' : List Realm),
      (name = some loc ∧ startsWith loc c!"refs" = true ∨ name = none ∧ isHash loc = true) →
      ∃ s', onDir (K.path R) (gitFetch C (K.path R) R loc name)
          ⟨⟨s.repo.log, []⟩, d', s.broken⟩ = (.ok (), s') ∧
        s'.repo.faults = [] ∧ s'.broken = s.broken ∧
        (resolve C s'.repo.log (K.path R) loc).isSome = true := by
    intro name d' hn
    have hok := fetchCmd_works (d := K.path R) (name := name) hh hw
    obtain ⟨h', os, o, hf1, hf2, hm, _, hops⟩ := fetchCmd_ok hok
    rw [hh] at hf1
    cases hf1
    refine ⟨⟨⟨(fetchCmd C (K.path R) R loc name s.repo.log).1.reverse ++ s.repo.log, []⟩, d',
      s.broken⟩, ?_, rfl, rfl, ?_⟩
    · unfold gitFetch
      rw [onDir_nofault (by exact hb) rfl]
      simp only [hok]
    · simp only [hops]
      have hst : ∀ rest : Log, Stored ((os.map (GitOp.save (K.path R)) ++ rest).reverse ++
          s.repo.log) (K.path R) o := by
        intro rest
        unfold Stored
        simp only [List.mem_append, List.mem_reverse, List.mem_map]
        exact .inl (.inl ⟨o, hm, rfl⟩)
      have hho := (findObj_stored hf2).2
      rcases hn with ⟨rfl, hl⟩ | ⟨rfl, hl⟩
      · have hfo := findObj_isSome (C := C) (hst ((some loc).map fun n => GitOp.setRef (K.path R) n h).toList)
        unfold resolve
        rw [if_neg (by rw [refs_not_hash hl]; exact Bool.false_ne_true)]
        have : refOf ((os.map (GitOp.save (K.path R)) ++
            ((some loc).map fun n => GitOp.setRef (K.path R) n h).toList).reverse ++ s.repo.log)
            (K.path R) loc = some h := by simp [refOf]
        rw [hho] at hfo
        rw [this]
        exact hfo
      · have hfo := findObj_isSome (C := C) (hst ((none : Option Str).map fun n => GitOp.setRef (K.path R) n h).toList)
        have : h = loc := by
          unfold fetchHash at hh; rw [if_pos hl] at hh; cases hh; rfl
        subst this
        rw [resolve_hash hl, ← hho]
        exact hfo
  unfold cacheObject
  rw [M.bind_of_ok he]
  by_cases hr : startsWith loc c!"refs" = true
  · rw [if_pos hr]
    exact fetched _ dirs (.inl ⟨rfl, hr⟩)
  · rw [if_neg hr]
    have hhash : isHash loc = true := hl.resolve_left hr
    have hex : existsLocally C (K.path R) loc ⟨⟨s.repo.log, []⟩, dirs, s.broken⟩ =
        (.ok (resolve C s.repo.log (K.path R) loc).isSome, ⟨⟨s.repo.log, []⟩, dirs, s.broken⟩) := by
      unfold existsLocally
      rw [onDir_nofault (by exact hb) rfl]
      rfl
    rw [M.bind_of_ok hex]
    cases hc : (resolve C s.repo.log (K.path R) loc).isSome with
    | true => exact ⟨_, rfl, rfl, rfl, hc⟩
    | false => exact fetched _ dirs (.inr ⟨rfl, hhash⟩)

theorem adapt_works {C : Cfg} {K : CacheCfg} {R : Realm} {loc h : Str} {s : CacheState}
    (hrem : Ref.isRemote R = true) (hf : s.repo.faults = []) (hb : K.path R ∉ s.broken)
    (hl : startsWith loc c!"refs" = true ∨ isHash loc = true)
    (hh : fetchHash s.repo.log R loc = some h) (hw : Whole C s.repo.log R h) :
    ∃ s', adaptForRemote C K R loc s = (.ok (K.path R), s') ∧ s'.repo.faults = [] ∧
      s'.broken = s.broken ∧ (resolve C s'.repo.log (K.path R) loc).isSome = true := by
  obtain ⟨s', h1, h2, h3, h4⟩ := cacheObject_works hf hb hl hh hw
  refine ⟨s', ?_, h2, h3, h4⟩
  unfold adaptForRemote
  rw [if_pos hrem, M.bind_of_ok h1]
  rfl

end MM
