/-
Adding paths to a stored tree: `mapper/gitmapper/treeupdater.py`.
-/
import Verif.Frame

namespace MM

/-- `PathInfo` (treeupdater.py 56-82): an object and the path it is to be added under.
`isTree` stands for `EntryType.Directory`. -/
structure PathInfo where
  elements : List Str
  hash : Str
  isTree : Bool
  deriving DecidableEq

namespace PathInfo

/-- `first` (treeupdater.py 69-70); only used for paths that are not empty. -/
def first (i : PathInfo) : Str := i.elements.headD []

/-- `is_leaf` (treeupdater.py 75-76) -/
def isLeaf (i : PathInfo) : Bool := i.elements.length == 1

/-- `stripped_by(1)` (treeupdater.py 78-82) -/
def stripped (i : PathInfo) : PathInfo := ⟨i.elements.drop 1, i.hash, i.isTree⟩

/-- `DirEntry(...)` for a leaf (treeupdater.py 205-208) -/
def entry (i : PathInfo) : TreeEntry := ⟨i.isTree, i.hash, i.first⟩

end PathInfo

/-- One line in `_get_dir` (treeupdater.py 136-147): everything but a blob is a
directory, and the name stays as git prints it. -/
def dirLine (l : Str) : Except PyErr TreeEntry := do
  let (_, ty, hash, name) ← splitLstreeLine l
  if hash.length = 40 then .ok ⟨ty ≠ c!"blob", hash, name⟩ else .error .value

/-- `_get_dir` (treeupdater.py 136-147) -/
def getDir (C : Cfg) (r : Realm) (loc : Str) : G (List TreeEntry) :=
  gitCmd fun L => ([], do
    let es ← treeAt C L r loc
    eachOk dirLine (splitlines (catTree es)))

/-- `_write_dir` (treeupdater.py 150-153) with `git_save_tree_node`
(gitbackend/subprocess.py 149-158) -/
def writeDir (C : Cfg) (r : Realm) (es : List TreeEntry) : G Str :=
  gitCmd fun _ => match mktree (rawSpec es) with
    | some es' => ([.save r (.tree es')], .ok (C.hash (.tree es')))
    | none => ([], .error .runtime)

/-- The paths that are not leaves -/
def deepInfos (infos : List PathInfo) : List PathInfo := infos.filter fun i => !i.isLeaf

/-- `directory_infos` (treeupdater.py 177-186).  `path_info not in leaf_infos` holds
exactly for the paths that are not leaves. -/
def dirInfos (infos : List PathInfo) : List (Str × List PathInfo) :=
  fromItems ((deepInfos infos).map fun i =>
    (i.first, ((deepInfos infos).filter fun j => j.first = i.first).map PathInfo.stripped))

/-- The loop over the leaves (treeupdater.py 193-208) -/
def addLeaves (table : List (Str × TreeEntry)) :
    List PathInfo → List (Str × TreeEntry) → Except PyErr (List (Str × TreeEntry))
  | [], acc => .ok acc
  | i :: is, acc => match dget table i.first with
    | some e => if e.isTree = i.isTree then addLeaves table is (dset acc i.first i.entry) else .error .value
    | none => addLeaves table is (dset acc i.first i.entry)

/-- The entries of the directory with a name (treeupdater.py 212-219) -/
def subDir (C : Cfg) (r : Realm) (table : List (Str × TreeEntry)) (n : Str) : G (List TreeEntry) :=
  match dget table n with
  | some e => if e.isTree then getDir C r e.hash else M.raise .value
  | none => pure []

/-- The loop over the directories (treeupdater.py 211-229); `rec` is `add_paths`. -/
def addDirs (C : Cfg) (rec : List PathInfo → List TreeEntry → G Str) (r : Realm)
    (table : List (Str × TreeEntry)) :
    List (Str × List PathInfo) → List (Str × TreeEntry) → G (List (Str × TreeEntry))
  | [], acc => pure acc
  | (n, subs) :: ds, acc => do
    let es ← subDir C r table n
    let h ← rec subs es
    addDirs C rec r table ds (dset acc n ⟨true, h, n⟩)

/-- `_check_entries_validity` (treeupdater.py 94-133): no name is used for a leaf and a
directory, and no name for two leaves. -/
def validInfos (infos : List PathInfo) : Bool :=
  ((infos.filter PathInfo.isLeaf).all fun i => !(dkeys (dirInfos infos)).contains i.first) &&
    decide (((infos.filter PathInfo.isLeaf).map PathInfo.first).Nodup)

/-- `add_paths` (treeupdater.py 156-231).  An empty path is an `IndexError`.  The first
argument plays the role of the recursion limit of Python. -/
def addPaths (C : Cfg) : Nat → Realm → List PathInfo → List TreeEntry → G Str
  | 0, _, _, _ => M.raise .recursion
  | n + 1, r, infos, root => do
    let table := fromItems (root.map fun e => (e.name, e))
    if infos.any fun i => i.elements.isEmpty then M.raise .index
    else if validInfos infos then do
      let acc ← M.ofExcept (addLeaves table (infos.filter PathInfo.isLeaf) table)
      let acc ← addDirs C (addPaths C n r) r table (dirInfos infos) acc
      writeDir C r (acc.map Prod.snd)
    else M.raise .value

/-! ### What a stored tree holds -/

/-- The entries of a tree by name: type (`true` for a tree) and hash. -/
def byName (es : List TreeEntry) : List (Str × (Bool × Str)) :=
  es.map fun e => (e.name, e.isTree, e.hash)

/-- The entry at a path below the given entries: its type and hash.  The inner nodes are
taken from the repository. -/
def entryAt (C : Cfg) (L : Log) (r : Realm) : List TreeEntry → List Str → Option (Bool × Str)
  | _, [] => none
  | es, [n] => dget (byName es) n
  | es, n :: m :: p => match dget (byName es) n with
    | some (true, h) => match findObj C L r h with
      | some (.tree es') => entryAt C L r es' (m :: p)
      | _ => none
    | _ => none

/-- Trees as git keeps them: hashes are valid, names are different and hold no slash
and no NUL. -/
structure WellTree (es : List TreeEntry) : Prop where
  hashes : ∀ e ∈ es, isHash e.hash = true
  names : ∀ e ∈ es, '/' ∉ e.name ∧ '\x00' ∉ e.name
  nodup : (es.map TreeEntry.name).Nodup

/-- All trees of a repository are well-formed. -/
def WellTrees (L : Log) (r : Realm) : Prop := ∀ es, Stored L r (.tree es) → WellTree es

/-- A path info as the callers build them: a valid hash, and names of printable ASCII
characters without quotes, backslashes and slashes. -/
structure WellInfo (i : PathInfo) : Prop where
  hash : isHash i.hash = true
  plain : ∀ n ∈ i.elements, gitQuote n = n ∧ '/' ∉ n

/-! ### Lemmas on tables -/

/-- The table that the code makes for entries with the given real names -/
def tab (d : List (Str × (Bool × Str))) : List (Str × TreeEntry) :=
  d.map fun x => (gitQuote x.1, ⟨x.2.1, x.2.2, gitQuote x.1⟩)

/-- The entries with their real names -/
def ents (d : List (Str × (Bool × Str))) : List TreeEntry := d.map fun x => ⟨x.2.1, x.2.2, x.1⟩

theorem byName_ents (d : List (Str × (Bool × Str))) : byName (ents d) = d := by
  unfold byName ents
  rw [List.map_map]
  conv => rhs; rw [← List.map_id d]
  apply List.map_congr_left
  intro a _
  rfl

theorem ents_byName (es : List TreeEntry) : ents (byName es) = es := by
  unfold byName ents
  rw [List.map_map]
  conv => rhs; rw [← List.map_id es]
  apply List.map_congr_left
  intro a _
  rfl

theorem tab_values (d : List (Str × (Bool × Str))) :
    (tab d).map Prod.snd = (ents d).map TreeEntry.raw := by
  unfold tab ents
  rw [List.map_map, List.map_map]
  rfl

theorem dkeys_byName (es : List TreeEntry) : dkeys (byName es) = es.map TreeEntry.name := by
  unfold dkeys byName
  rw [List.map_map]
  rfl

theorem nodup_quoted {l : List Str} (h : l.Nodup) : (l.map gitQuote).Nodup := by
  induction l with
  | nil => simp
  | cons a l ih =>
    rw [List.nodup_cons] at h
    rw [List.map_cons, List.nodup_cons]
    refine ⟨?_, ih h.2⟩
    intro hm
    obtain ⟨b, hb, he⟩ := List.mem_map.mp hm
    rw [gitQuote_injective he] at hb
    exact h.1 hb

theorem table_raw {es : List TreeEntry} (h : (es.map TreeEntry.name).Nodup) :
    fromItems ((es.map TreeEntry.raw).map fun e => (e.name, e)) = tab (byName es) := by
  have e : ((es.map TreeEntry.raw).map fun e => (e.name, e)) = tab (byName es) := by
    unfold tab byName
    rw [List.map_map, List.map_map]
    rfl
  rw [e]
  refine fromItems_nodup ?_
  have : dkeys (tab (byName es)) = (es.map TreeEntry.name).map gitQuote := by
    unfold dkeys tab byName
    rw [List.map_map, List.map_map, List.map_map]
    rfl
  rw [this]
  exact nodup_quoted h

theorem dget_tab (d : List (Str × (Bool × Str))) (n : Str) :
    dget (tab d) (gitQuote n) = (dget d n).map fun x => ⟨x.1, x.2, gitQuote n⟩ := by
  induction d with
  | nil => rfl
  | cons x d ih =>
    obtain ⟨m, v⟩ := x
    have e : tab ((m, v) :: d) = (gitQuote m, (⟨v.1, v.2, gitQuote m⟩ : TreeEntry)) :: tab d := rfl
    rw [e, dget_cons, dget_cons]
    by_cases h : m = n
    · subst h; simp
    · rw [if_neg h, if_neg (fun h' => h (gitQuote_injective h')), ih]

theorem dset_tab (d : List (Str × (Bool × Str))) (n : Str) (t : Bool) (h : Str) :
    dset (tab d) (gitQuote n) ⟨t, h, gitQuote n⟩ = tab (dset d n (t, h)) := by
  induction d with
  | nil => rfl
  | cons x d ih =>
    obtain ⟨m, v⟩ := x
    have e : tab ((m, v) :: d) = (gitQuote m, (⟨v.1, v.2, gitQuote m⟩ : TreeEntry)) :: tab d := rfl
    rw [e]
    unfold dset
    by_cases hm : m = n
    · subst hm; simp [tab]
    · rw [if_neg hm, if_neg (fun h' => hm (gitQuote_injective h')), ih]; rfl

/-- Tables that stand for well-formed trees -/
structure WellDict (d : List (Str × (Bool × Str))) : Prop where
  hashes : ∀ x ∈ d, isHash x.2.2 = true
  names : ∀ x ∈ d, '/' ∉ x.1 ∧ '\x00' ∉ x.1
  nodup : (dkeys d).Nodup

theorem WellTree.dict {es : List TreeEntry} (h : WellTree es) : WellDict (byName es) := by
  refine ⟨?_, ?_, by rw [dkeys_byName]; exact h.nodup⟩
  · intro x hx
    obtain ⟨e, he, rfl⟩ := List.mem_map.mp hx
    exact h.hashes e he
  · intro x hx
    obtain ⟨e, he, rfl⟩ := List.mem_map.mp hx
    exact h.names e he

theorem WellDict.tree {d : List (Str × (Bool × Str))} (h : WellDict d) : WellTree (ents d) := by
  refine ⟨?_, ?_, ?_⟩
  · intro e he
    obtain ⟨x, hx, rfl⟩ := List.mem_map.mp he
    exact h.hashes x hx
  · intro e he
    obtain ⟨x, hx, rfl⟩ := List.mem_map.mp he
    exact h.names x hx
  · have : (ents d).map TreeEntry.name = dkeys d := by
      unfold ents dkeys; rw [List.map_map]; rfl
    rw [this]; exact h.nodup

theorem mem_dset_cases {α β : Type} [DecidableEq α] {d : List (α × β)} {k : α} {v : β} {x : α × β}
    (h : x ∈ dset d k v) : x ∈ d ∨ x = (k, v) := by
  induction d with
  | nil => simp [dset] at h; exact Or.inr h
  | cons y d ih =>
    obtain ⟨k', v'⟩ := y
    unfold dset at h
    split at h
    · rename_i hk
      rcases List.mem_cons.mp h with h | h
      · subst hk; exact Or.inr h
      · exact Or.inl (List.mem_cons_of_mem _ h)
    · rcases List.mem_cons.mp h with h | h
      · exact Or.inl (by rw [h]; exact List.mem_cons_self ..)
      · rcases ih h with h | h
        · exact Or.inl (List.mem_cons_of_mem _ h)
        · exact Or.inr h

theorem WellDict.dset {d : List (Str × (Bool × Str))} (hd : WellDict d) {n h : Str} {t : Bool}
    (hh : isHash h = true) (hn : '/' ∉ n ∧ '\x00' ∉ n) : WellDict (MM.dset d n (t, h)) := by
  refine ⟨?_, ?_, nodup_dset hd.nodup _ _⟩
  · intro x hx
    rcases mem_dset_cases hx with hx | rfl
    · exact hd.hashes x hx
    · exact hh
  · intro x hx
    rcases mem_dset_cases hx with hx | rfl
    · exact hd.names x hx
    · exact hn

theorem WellTree.perm {es fs : List TreeEntry} (h : WellTree es) (hp : fs.Perm es) : WellTree fs :=
  ⟨fun e he => h.hashes e (hp.mem_iff.mp he), fun e he => h.names e (hp.mem_iff.mp he),
    (hp.map _).nodup_iff.mpr h.nodup⟩

/-- The order of the entries does not matter. -/
theorem byName_perm {es fs : List TreeEntry} (h : WellTree es) (hp : fs.Perm es) (n : Str) :
    dget (byName fs) n = dget (byName es) n := by
  have hf := (h.perm hp).dict.nodup
  have he := h.dict.nodup
  have hpp : (byName fs).Perm (byName es) := hp.map _
  cases hd : dget (byName es) n with
  | some v => exact dget_of_mem hf (hpp.mem_iff.mpr (mem_of_dget hd))
  | none =>
    rw [dget_eq_none] at hd ⊢
    intro hm
    apply hd
    obtain ⟨x, hx, rfl⟩ := List.mem_map.mp hm
    exact List.mem_map.mpr ⟨x, hpp.mem_iff.mp hx, rfl⟩

theorem plain_nul {n : Str} (h : gitQuote n = n) : '\x00' ∉ n := by
  rw [← h]; exact gitQuote_nul n

/-! ### The parts of `add_paths` -/

theorem dirLine_spec {e : TreeEntry} (hh : isHash e.hash = true) :
    dirLine (specLine e (gitQuote e.name)) = .ok e.raw := by
  unfold dirLine
  rw [bind_of_eq_ok _ (splitLstreeLine_spec hh)]
  have := (isHash_cons hh).1
  obtain ⟨t, h, n⟩ := e
  simp only at this ⊢
  rw [if_pos this]
  cases t <;> rfl

theorem dirLines_ok {es : List TreeEntry} (hh : ∀ e ∈ es, isHash e.hash = true) :
    eachOk dirLine (splitlines (catTree es)) = .ok (es.map TreeEntry.raw) := by
  rw [splitlines_catTree hh]
  exact eachOk_ok (all2_map (R := fun a b => dirLine a = .ok b)
    (f := fun e => specLine e (gitQuote e.name)) (g := TreeEntry.raw) (l := es)
    (fun e he => dirLine_spec (hh e he)))

theorem treeAt_ok {C : Cfg} {L : Log} {r : Realm} {loc : Str} {es : List TreeEntry}
    (h : treeAt C L r loc = .ok es) : resolve C L r loc = some (.tree es) := by
  unfold treeAt at h
  split at h
  · rename_i es' e; cases h; exact e
  · cases h
  · cases h

theorem resolve_is_stored {C : Cfg} {L : Log} {r : Realm} {loc : Str} {o : GitObj}
    (h : resolve C L r loc = some o) : Stored L r o := by
  unfold resolve at h
  split at h
  · exact (findObj_stored h).1
  · split at h
    · exact (findObj_stored h).1
    · cases h

theorem getDir_ok {C : Cfg} {r : Realm} {loc : Str} {s s' : Repo} {root : List TreeEntry}
    (hw : WellTrees s.log r) (h : getDir C r loc s = (.ok root, s')) :
    ∃ es, resolve C s.log r loc = some (.tree es) ∧ WellTree es ∧ root = es.map TreeEntry.raw ∧
      s'.log = s.log := by
  obtain ⟨h1, h2⟩ := gitCmd_ok h
  simp only at h1 h2
  cases ht : treeAt C s.log r loc with
  | error e => rw [ht] at h1; cases h1
  | ok es =>
    rw [bind_of_eq_ok _ ht] at h1
    have hres := treeAt_ok ht
    have hwt := hw es (resolve_is_stored hres)
    rw [dirLines_ok hwt.hashes] at h1
    cases h1
    exact ⟨es, hres, hwt, rfl, by rw [h2]; rfl⟩

theorem writeDir_ok {C : Cfg} {r : Realm} {d : List (Str × (Bool × Str))} {s s' : Repo} {h : Str}
    (hd : WellDict d) (hw : writeDir C r ((tab d).map Prod.snd) s = (.ok h, s')) :
    h = C.hash (.tree (sortEntries (ents d))) ∧
      s'.log = .save r (.tree (sortEntries (ents d))) :: s.log := by
  obtain ⟨h1, h2⟩ := gitCmd_ok hw
  rw [tab_values] at h1 h2
  by_cases hne : ents d = []
  · rw [hne] at h1
    have : mktree (rawSpec (([] : List TreeEntry).map TreeEntry.raw)) = none := by decide
    rw [this] at h1
    cases h1
  · rw [mktree_rawSpec hne hd.tree.hashes hd.tree.names] at h1 h2
    simp only at h1 h2
    cases h1
    exact ⟨rfl, h2⟩

theorem addLeaves_ok {table : List (Str × TreeEntry)} : ∀ {is : List PathInfo}
    {d : List (Str × (Bool × Str))} {acc : List (Str × TreeEntry)},
    (∀ i ∈ is, WellInfo i ∧ i.isLeaf = true) → (is.map PathInfo.first).Nodup → WellDict d →
    addLeaves table is (tab d) = .ok acc →
    ∃ d', acc = tab d' ∧ WellDict d' ∧
      (∀ i ∈ is, dget d' i.first = some (i.isTree, i.hash)) ∧
      (∀ n, n ∉ is.map PathInfo.first → dget d' n = dget d n) ∧
      (∀ i ∈ is, ∀ e, dget table i.first = some e → e.isTree = i.isTree) := by
  intro is
  induction is with
  | nil =>
    intro d acc _ _ hd h
    cases h
    exact ⟨d, rfl, hd, (fun i hi => by cases hi), fun n _ => rfl, (fun i hi => by cases hi)⟩
  | cons i is ih =>
    intro d acc hi hn hd h
    rw [List.map_cons, List.nodup_cons] at hn
    obtain ⟨hwi, hl⟩ := hi i (List.mem_cons_self ..)
    have hmem : i.first ∈ i.elements := by
      unfold PathInfo.isLeaf at hl
      unfold PathInfo.first
      cases he : i.elements with
      | nil => rw [he] at hl; simp at hl
      | cons a l => simp
    obtain ⟨hq, hsl⟩ := hwi.plain _ hmem
    have hds : dset (tab d) i.first i.entry = tab (dset d i.first (i.isTree, i.hash)) := by
      have := dset_tab d i.first i.isTree i.hash
      rw [hq] at this
      exact this
    have hd' := hd.dset (t := i.isTree) hwi.hash ⟨hsl, plain_nul hq⟩
    have key : addLeaves table is (tab (dset d i.first (i.isTree, i.hash))) = .ok acc ∧
        (∀ e, dget table i.first = some e → e.isTree = i.isTree) := by
      unfold addLeaves at h
      cases hg : dget table i.first with
      | none => rw [hg] at h; simp only at h; rw [hds] at h; exact ⟨h, (fun e he => by cases he)⟩
      | some e =>
        rw [hg] at h
        simp only at h
        split at h
        · rename_i ht; rw [hds] at h; exact ⟨h, fun e' he => by cases he; exact ht⟩
        · cases h
    obtain ⟨d', h1, h2, h3, h4, h5⟩ := ih (fun x hx => hi x (List.mem_cons_of_mem _ hx)) hn.2 hd' key.1
    refine ⟨d', h1, h2, ?_, ?_, ?_⟩
    · intro x hx
      rcases List.mem_cons.mp hx with rfl | hx
      · rw [h4 _ hn.1, dget_dset, if_pos rfl]
      · exact h3 x hx
    · intro n hnm
      rw [List.map_cons, List.mem_cons, not_or] at hnm
      rw [h4 n hnm.2, dget_dset_ne _ _ (fun e => hnm.1 e.symm)]
    · intro x hx
      rcases List.mem_cons.mp hx with rfl | hx
      · exact key.2
      · exact h5 x hx

theorem mem_deepInfos {infos : List PathInfo} {i : PathInfo} :
    i ∈ deepInfos infos ↔ i ∈ infos ∧ i.isLeaf = false := by
  unfold deepInfos; rw [List.mem_filter]; simp

theorem dirInfos_mem {infos : List PathInfo} {n : Str} {subs : List PathInfo}
    (h : (n, subs) ∈ dirInfos infos) :
    subs = ((deepInfos infos).filter fun j => j.first = n).map PathInfo.stripped := by
  obtain ⟨i, _, he⟩ := List.mem_map.mp (mem_fromItems h)
  injection he with h1 h2
  subst h1
  exact h2.symm

theorem dkeys_fromItems {α β : Type} [DecidableEq α] (l : List (α × β)) (k : α) :
    k ∈ dkeys (fromItems l) ↔ k ∈ dkeys l := by
  have : ∀ (l acc : List (α × β)), k ∈ dkeys (l.foldl (fun acc e => dset acc e.1 e.2) acc) ↔
      k ∈ dkeys acc ∨ k ∈ dkeys l := by
    intro l
    induction l with
    | nil => intro acc; simp [dkeys]
    | cons e l ih =>
      intro acc
      rw [List.foldl_cons, ih, dkeys_dset]
      have hc : dkeys (e :: l) = e.1 :: dkeys l := rfl
      rw [hc, List.mem_cons]
      split
      · rename_i hm
        constructor
        · rintro (h | h)
          · exact Or.inl h
          · exact Or.inr (Or.inr h)
        · rintro (h | h | h)
          · exact Or.inl h
          · subst h; exact Or.inl hm
          · exact Or.inr h
      · rw [List.mem_append, List.mem_singleton, or_assoc]
  have := this l []
  simpa [dkeys, fromItems] using this

theorem dirInfos_key {infos : List PathInfo} {n : Str} :
    n ∈ dkeys (dirInfos infos) ↔ ∃ i ∈ deepInfos infos, i.first = n := by
  unfold dirInfos
  rw [dkeys_fromItems]
  unfold dkeys
  rw [List.map_map]
  constructor
  · intro h
    obtain ⟨i, hi, rfl⟩ := List.mem_map.mp h
    exact ⟨i, hi, rfl⟩
  · rintro ⟨i, hi, rfl⟩
    exact List.mem_map.mpr ⟨i, hi, rfl⟩

theorem mem_subs {infos : List PathInfo} {n : Str} {subs : List PathInfo}
    (h : (n, subs) ∈ dirInfos infos) {j : PathInfo} :
    j ∈ subs ↔ ∃ i ∈ infos, i.isLeaf = false ∧ i.first = n ∧ j = i.stripped := by
  rw [dirInfos_mem h]
  constructor
  · intro hj
    obtain ⟨i, hi, rfl⟩ := List.mem_map.mp hj
    obtain ⟨h1, h2⟩ := List.mem_filter.mp hi
    obtain ⟨h3, h4⟩ := mem_deepInfos.mp h1
    exact ⟨i, h3, h4, by simpa using h2, rfl⟩
  · rintro ⟨i, h1, h2, h3, rfl⟩
    exact List.mem_map.mpr ⟨i, List.mem_filter.mpr ⟨mem_deepInfos.mpr ⟨h1, h2⟩, by simpa using h3⟩, rfl⟩

/-- The paths do not contradict each other or the tree: no path is empty or given twice,
no path runs through another one or through a file, and nothing of another type is
replaced. -/
structure Clear (C : Cfg) (L : Log) (r : Realm) (infos : List PathInfo) (es : List TreeEntry) : Prop where
  nonempty : ∀ i ∈ infos, i.elements ≠ []
  nodup : (infos.map PathInfo.elements).Nodup
  apart : ∀ i ∈ infos, ∀ j ∈ infos, i.elements <+: j.elements → i.elements = j.elements
  kinds : ∀ i ∈ infos, ∀ t h, entryAt C L r es i.elements = some (t, h) → t = i.isTree
  runs : ∀ i ∈ infos, ∀ q t, i.elements = q ++ t → q ≠ [] → t ≠ [] →
    ∀ b h, entryAt C L r es q = some (b, h) → b = true

/-- The entries `es'` are the entries `es` with the paths added, in all states of the
repository from `L1` on. -/
def Merged (C : Cfg) (L1 : Log) (r : Realm) (infos : List PathInfo) (es es' : List TreeEntry) : Prop :=
  ∀ L, Grows L1 L → CollisionFree C L →
    (∀ i ∈ infos, entryAt C L r es' i.elements = some (i.isTree, i.hash)) ∧
    (∀ i ∈ infos, ∀ q s, i.elements = q ++ s → q ≠ [] → s ≠ [] →
      ∃ h, entryAt C L r es' q = some (true, h)) ∧
    (∀ p, (∀ i ∈ infos, ¬ i.elements <+: p ∧ ¬ p <+: i.elements) →
      entryAt C L r es' p = entryAt C L r es p) ∧
    Clear C L r infos es

theorem Merged.later {C : Cfg} {L1 L2 : Log} {r : Realm} {infos : List PathInfo}
    {es es' : List TreeEntry} (h : Merged C L1 r infos es es') (hg : Grows L1 L2) :
    Merged C L2 r infos es es' := fun L hL hc => h L (hg.trans hL) hc

/-- What a call of `add_paths` gives. -/
structure Adds (C : Cfg) (r : Realm) (infos : List PathInfo) (es : List TreeEntry) (s s' : Repo)
    (h : Str) : Prop where
  grows : Grows s.log s'.log
  well : WellTrees s'.log r
  tree : ∃ es', h = C.hash (.tree es') ∧ Stored s'.log r (.tree es') ∧ Merged C s'.log r infos es es'

/-- What was done for a directory. -/
def DirDone (C : Cfg) (L1 : Log) (r : Realm) (dT : List (Str × (Bool × Str))) (d : List (Str × (Bool × Str)))
    (n : Str) (subs : List PathInfo) : Prop :=
  ∃ es0 es1, dget d n = some (true, C.hash (.tree es1)) ∧ Stored L1 r (.tree es1) ∧
    Merged C L1 r subs es0 es1 ∧
    ((dget dT n = none ∧ es0 = []) ∨ ∃ h, dget dT n = some (true, h) ∧
      ∀ L, Grows L1 L → CollisionFree C L → findObj C L r h = some (.tree es0))

theorem WellTree.nil : WellTree [] := ⟨by simp, by simp, by simp⟩

theorem subDir_ok {C : Cfg} {r : Realm} {dT : List (Str × (Bool × Str))} (hT : WellDict dT) {n : Str}
    (hq : gitQuote n = n) {s s' : Repo} {root : List TreeEntry} (hw : WellTrees s.log r)
    (h : subDir C r (tab dT) n s = (.ok root, s')) :
    s'.log = s.log ∧ ∃ es0, root = es0.map TreeEntry.raw ∧ WellTree es0 ∧
      ((dget dT n = none ∧ es0 = []) ∨ ∃ h, dget dT n = some (true, h) ∧
        ∀ L, Grows s.log L → CollisionFree C L → findObj C L r h = some (.tree es0)) := by
  unfold subDir at h
  have hg := dget_tab dT n
  rw [hq] at hg
  rw [hg] at h
  cases hd : dget dT n with
  | none =>
    rw [hd] at h
    cases h
    exact ⟨rfl, [], rfl, WellTree.nil, Or.inl ⟨rfl, rfl⟩⟩
  | some x =>
    obtain ⟨t, hs⟩ := x
    rw [hd] at h
    simp only [Option.map_some] at h
    cases t with
    | false => cases h
    | true =>
      simp only [if_true] at h
      obtain ⟨es, h1, h2, h3, h4⟩ := getDir_ok hw h
      have hh := hT.hashes _ (mem_of_dget hd)
      rw [resolve_hash hh] at h1
      exact ⟨h4, es, h3, h2, Or.inr ⟨hs, rfl, fun L hL hc => findObj_mono hL hc h1⟩⟩

theorem addDirs_ok {C : Cfg} {r : Realm} {rec : List PathInfo → List TreeEntry → G Str}
    (hrec : ∀ infos es s h s', (∀ i ∈ infos, WellInfo i) → WellTrees s.log r → WellTree es →
      rec infos (es.map TreeEntry.raw) s = (.ok h, s') → Adds C r infos es s s' h)
    {dT : List (Str × (Bool × Str))} (hT : WellDict dT) :
    ∀ {ds : List (Str × List PathInfo)} {d : List (Str × (Bool × Str))} {s s' : Repo}
      {acc : List (Str × TreeEntry)},
    (∀ x ∈ ds, gitQuote x.1 = x.1 ∧ '/' ∉ x.1 ∧ ∀ i ∈ x.2, WellInfo i) → (dkeys ds).Nodup →
    WellDict d → WellTrees s.log r →
    addDirs C rec r (tab dT) ds (tab d) s = (.ok acc, s') →
    ∃ d', acc = tab d' ∧ WellDict d' ∧ Grows s.log s'.log ∧ WellTrees s'.log r ∧
      (∀ n, n ∉ dkeys ds → dget d' n = dget d n) ∧
      ∀ x ∈ ds, DirDone C s'.log r dT d' x.1 x.2 := by
  intro ds
  induction ds with
  | nil =>
    intro d s s' acc _ _ hd hw h
    cases h
    exact ⟨d, rfl, hd, Grows.refl _, hw, fun _ _ => rfl, (fun x hx => by cases hx)⟩
  | cons x ds ih =>
    intro d s s' acc hx hn hd hw h
    obtain ⟨n, subs⟩ := x
    obtain ⟨hq, hsl, hwi⟩ := hx (n, subs) (List.mem_cons_self ..)
    simp only at hq hsl hwi
    have hk : dkeys ((n, subs) :: ds) = n :: dkeys ds := rfl
    rw [hk, List.nodup_cons] at hn
    unfold addDirs at h
    obtain ⟨root, s1, h1, h⟩ := M.bind_ok h
    obtain ⟨hlog, es0, rfl, hes0, hold⟩ := subDir_ok hT hq hw h1
    obtain ⟨hash, s2, h2, h⟩ := M.bind_ok h
    obtain ⟨g1, w1, es1, rfl, st1, m1⟩ := hrec subs es0 s1 hash s2 hwi (by rw [hlog]; exact hw) hes0 h2
    have hds := dset_tab d n true (C.hash (.tree es1))
    rw [hq] at hds
    rw [hds] at h
    obtain ⟨d', e1, e2, e3, e4, e5, e6⟩ := ih (fun y hy => hx y (List.mem_cons_of_mem _ hy)) hn.2
      (hd.dset (C.valid _) ⟨hsl, plain_nul hq⟩) w1 h
    rw [hlog] at g1
    refine ⟨d', e1, e2, g1.trans e3, e4, ?_, ?_⟩
    · intro m hm
      rw [hk, List.mem_cons, not_or] at hm
      rw [e5 m hm.2, dget_dset_ne _ _ (fun e => hm.1 e.symm)]
    · intro y hy
      rcases List.mem_cons.mp hy with rfl | hy
      · refine ⟨es0, es1, ?_, e3 _ _ st1, m1.later e3, ?_⟩
        · show dget d' n = _
          rw [e5 n hn.1, dget_dset_self]
        · rcases hold with h0 | ⟨h0, h3, h4⟩
          · exact Or.inl h0
          · exact Or.inr ⟨h0, h3, fun L hL hc => h4 L (g1.trans (e3.trans hL)) hc⟩
      · exact e6 y hy

theorem entryAt_cons {C : Cfg} {L : Log} {r : Realm} {es es' : List TreeEntry} {n h : Str}
    (h1 : dget (byName es) n = some (true, h)) (h2 : findObj C L r h = some (.tree es'))
    {p : List Str} (hp : p ≠ []) : entryAt C L r es (n :: p) = entryAt C L r es' p := by
  cases p with
  | nil => exact absurd rfl hp
  | cons m p => rw [entryAt, h1]; simp only; rw [h2]

theorem entryAt_none {C : Cfg} {L : Log} {r : Realm} {es : List TreeEntry} {n : Str}
    (h1 : dget (byName es) n = none) (p : List Str) : entryAt C L r es (n :: p) = none := by
  cases p with
  | nil => rw [entryAt, h1]
  | cons m p => rw [entryAt, h1]

theorem entryAt_same {C : Cfg} {L : Log} {r : Realm} {es fs : List TreeEntry} {n : Str}
    (h1 : dget (byName es) n = dget (byName fs) n) (p : List Str) :
    entryAt C L r es (n :: p) = entryAt C L r fs (n :: p) := by
  cases p with
  | nil => rw [entryAt, entryAt, h1]
  | cons m p => rw [entryAt, entryAt, h1]

theorem entryAt_nil {C : Cfg} {L : Log} {r : Realm} (p : List Str) : entryAt C L r [] p = none := by
  cases p with
  | nil => rfl
  | cons n p => exact entryAt_none rfl p

/-- A path that is not empty and not a leaf has two elements. -/
theorem deep_elements {i : PathInfo} (h1 : i.elements.isEmpty = false) (h2 : i.isLeaf = false) :
    ∃ m p, i.elements = i.first :: m :: p ∧ i.stripped.elements = m :: p := by
  unfold PathInfo.isLeaf at h2
  unfold PathInfo.first PathInfo.stripped
  cases he : i.elements with
  | nil => rw [he] at h1; cases h1
  | cons a l =>
    cases l with
    | nil => rw [he] at h2; cases h2
    | cons b l => exact ⟨b, l, rfl, rfl⟩

theorem leaf_elements {i : PathInfo} (h2 : i.isLeaf = true) : i.elements = [i.first] := by
  unfold PathInfo.isLeaf at h2
  unfold PathInfo.first
  cases he : i.elements with
  | nil => rw [he] at h2; cases h2
  | cons a l =>
    cases l with
    | nil => rfl
    | cons b l => rw [he] at h2; simp at h2

theorem validInfos_ok {infos : List PathInfo} (h : validInfos infos = true) :
    (∀ i ∈ infos, i.isLeaf = true → i.first ∉ dkeys (dirInfos infos)) ∧
      ((infos.filter PathInfo.isLeaf).map PathInfo.first).Nodup := by
  unfold validInfos at h
  rw [Bool.and_eq_true, List.all_eq_true, decide_eq_true_eq] at h
  refine ⟨?_, h.2⟩
  intro i hi hl hm
  have := h.1 i (List.mem_filter.mpr ⟨hi, hl⟩)
  simp [hm] at this

/-- Paths are different if leaves are different and paths below a directory are. -/
theorem nodup_paths {infos : List PathInfo} (hne : ∀ i ∈ infos, i.elements.isEmpty = false)
    (hl : ((infos.filter PathInfo.isLeaf).map PathInfo.first).Nodup)
    (hd : ∀ x ∈ dirInfos infos, (x.2.map PathInfo.elements).Nodup) :
    (infos.map PathInfo.elements).Nodup := by
  rw [List.nodup_iff_count]
  intro p
  rw [List.count, List.countP_map]
  by_cases hz : ∀ i ∈ infos, i.elements ≠ p
  · have : List.countP ((fun x => x == p) ∘ PathInfo.elements) infos = 0 := by
      rw [List.countP_eq_zero]
      intro i hi h
      exact hz i hi (by simpa using h)
    omega
  · obtain ⟨i, hi⟩ := Classical.not_forall.mp hz
    obtain ⟨hi, he⟩ := Classical.not_imp.mp hi
    rw [Classical.not_not] at he
    cases hli : i.isLeaf with
    | true =>
      have h1 := List.nodup_iff_count.mp hl i.first
      rw [List.count, List.countP_map, List.countP_filter] at h1
      refine Nat.le_trans (List.countP_mono_left ?_) h1
      intro j hj h
      have h2 : j.elements = p := by simpa using h
      rw [← he, leaf_elements hli] at h2
      simp [PathInfo.first, PathInfo.isLeaf, h2]
    | false =>
      obtain ⟨m, q, e1, e2⟩ := deep_elements (hne i hi) hli
      have hk : i.first ∈ dkeys (dirInfos infos) :=
        dirInfos_key.mpr ⟨i, mem_deepInfos.mpr ⟨hi, hli⟩, rfl⟩
      obtain ⟨y, hy, hy2⟩ := List.mem_map.mp hk
      obtain ⟨n, subs⟩ := y
      simp only at hy2
      subst hy2
      have h0 := hd _ hy
      simp only at h0
      have h1 := List.nodup_iff_count.mp h0 (m :: q)
      rw [dirInfos_mem hy, List.count, List.countP_map, List.countP_map, List.countP_filter] at h1
      unfold deepInfos at h1
      rw [List.countP_filter] at h1
      refine Nat.le_trans (List.countP_mono_left ?_) h1
      intro j hj h
      have h2 : j.elements = p := by simpa using h
      rw [← he, e1] at h2
      simp [PathInfo.first, PathInfo.isLeaf, PathInfo.stripped, h2]

/-- Successful calls of `add_paths` add the paths. -/
theorem addPaths_ok {C : Cfg} {r : Realm} (n : Nat) : ∀ (infos : List PathInfo) (es : List TreeEntry)
    (s : Repo) (h : Str) (s' : Repo), (∀ i ∈ infos, WellInfo i) → WellTrees s.log r → WellTree es →
    addPaths C n r infos (es.map TreeEntry.raw) s = (.ok h, s') → Adds C r infos es s s' h := by
  induction n with
  | zero => intro infos es s h s' _ _ _ hr; cases hr
  | succ n ih =>
    intro infos es s h s' hi hw hes hr
    unfold addPaths at hr
    rw [table_raw hes.nodup] at hr
    simp only at hr
    by_cases hem : (infos.any fun i => i.elements.isEmpty) = true
    · rw [if_pos hem] at hr; cases hr
    rw [if_neg hem] at hr
    have hne : ∀ i ∈ infos, i.elements.isEmpty = false := by
      intro i hi
      cases hx : i.elements.isEmpty with
      | false => rfl
      | true => exact absurd (List.any_eq_true.mpr ⟨i, hi, hx⟩) hem
    by_cases hv : ¬ validInfos infos = true
    · rw [if_neg hv] at hr; cases hr
    rw [Classical.not_not] at hv
    rw [if_pos hv] at hr
    obtain ⟨v1, v2⟩ := validInfos_ok hv
    obtain ⟨acc, s0, h0, hr⟩ := M.bind_ok hr
    obtain ⟨h1, hs0⟩ := M.ofExcept_eq_ok h0
    rw [hs0] at hr
    have hT := hes.dict
    obtain ⟨d1, rfl, a1, a2, a3, a4⟩ := addLeaves_ok
      (fun i hx => ⟨hi i (List.mem_filter.mp hx).1, (List.mem_filter.mp hx).2⟩) v2 hT h1
    obtain ⟨acc2, s1, h2, hr⟩ := M.bind_ok hr
    have hsubs : ∀ x ∈ dirInfos infos, gitQuote x.1 = x.1 ∧ '/' ∉ x.1 ∧ ∀ i ∈ x.2, WellInfo i := by
      intro x hx
      obtain ⟨m, subs⟩ := x
      have hk : m ∈ dkeys (dirInfos infos) := List.mem_map.mpr ⟨_, hx, rfl⟩
      obtain ⟨i, hi1, hi2⟩ := dirInfos_key.mp hk
      obtain ⟨hi3, hi4⟩ := mem_deepInfos.mp hi1
      obtain ⟨b, l, e1, e2⟩ := deep_elements (hne i hi3) hi4
      have hp := (hi i hi3).plain m (by rw [e1, hi2]; exact List.mem_cons_self ..)
      refine ⟨hp.1, hp.2, ?_⟩
      intro j hj
      obtain ⟨k, k1, _, _, rfl⟩ := (mem_subs hx).mp hj
      exact ⟨(hi k k1).hash, fun y hy => (hi k k1).plain y (List.mem_of_mem_drop hy)⟩
    obtain ⟨d2, rfl, b1, b2, b3, b4, b5⟩ := addDirs_ok ih hT hsubs (nodup_fromItems _) a1 hw h2
    obtain ⟨rfl, hlog⟩ := writeDir_ok b1 hr
    have hg : Grows s1.log s'.log := by rw [hlog]; exact fun _ _ hx => List.mem_cons_of_mem _ hx
    have hst : Stored s'.log r (.tree (sortEntries (ents d2))) := by
      rw [hlog]; exact List.mem_cons_self ..
    have hwell : WellTree (sortEntries (ents d2)) := b1.tree.perm (sortEntries_perm _)
    refine ⟨b2.trans hg, ?_, _, rfl, hst, ?_⟩
    · intro es' he
      unfold Stored at he
      rw [hlog] at he
      rcases List.mem_cons.mp he with he | he
      · cases he; exact hwell
      · exact b3 es' he
    · intro L hL hc
      have hget : ∀ m, dget (byName (sortEntries (ents d2))) m = dget d2 m := by
        intro m
        rw [byName_perm b1.tree (sortEntries_perm _), byName_ents]
      -- leaves
      have hleaf : ∀ i ∈ infos, i.isLeaf = true → dget d2 i.first = some (i.isTree, i.hash) := by
        intro i hx hl
        rw [b4 _ (v1 i hx hl)]
        exact a2 i (List.mem_filter.mpr ⟨hx, hl⟩)
      -- directories
      have hdir : ∀ x ∈ dirInfos infos, ∀ p, p ≠ [] → ∃ es0 es1,
          entryAt C L r (sortEntries (ents d2)) (x.1 :: p) = entryAt C L r es1 p ∧
          entryAt C L r es (x.1 :: p) = entryAt C L r es0 p ∧
          Merged C s1.log r x.2 es0 es1 ∧ (∃ h, dget d2 x.1 = some (true, h)) ∧
          ∀ b h, dget (byName es) x.1 = some (b, h) → b = true := by
        intro x hx p hp
        obtain ⟨es0, es1, c1, c2, c3, c4⟩ := b5 x hx
        refine ⟨es0, es1, ?_, ?_, c3, ⟨_, c1⟩, ?_⟩
        · exact entryAt_cons (by rw [hget]; exact c1)
            (findObj_of_stored hc (hL _ _ (hg _ _ c2))) hp
        · rcases c4 with ⟨c5, rfl⟩ | ⟨h0, c5, c6⟩
          · rw [entryAt_none c5, entryAt_nil]
          · exact entryAt_cons c5 (c6 L (hg.trans hL) hc) hp
        · intro b h hbh
          rcases c4 with ⟨c5, _⟩ | ⟨h0, c5, _⟩
          · rw [c5] at hbh; cases hbh
          · rw [c5] at hbh; cases hbh; rfl
      have hfind : ∀ i ∈ infos, i.isLeaf = false → ∃ subs, (i.first, subs) ∈ dirInfos infos ∧
          i.stripped ∈ subs := by
        intro i hx hl
        have hk : i.first ∈ dkeys (dirInfos infos) :=
          dirInfos_key.mpr ⟨i, mem_deepInfos.mpr ⟨hx, hl⟩, rfl⟩
        obtain ⟨y, hy, hy2⟩ := List.mem_map.mp hk
        obtain ⟨m, subs⟩ := y
        simp only at hy2
        subst hy2
        exact ⟨subs, hy, (mem_subs hy).mpr ⟨i, hx, hl, rfl, rfl⟩⟩
      refine ⟨?_, ?_, ?_, ?_⟩
      · intro i hx
        cases hl : i.isLeaf with
        | true =>
          rw [leaf_elements hl, entryAt, hget]
          exact hleaf i hx hl
        | false =>
          obtain ⟨b, l, e1, e2⟩ := deep_elements (hne i hx) hl
          obtain ⟨subs, f1, f2⟩ := hfind i hx hl
          obtain ⟨es0, es1, g1, _, g3, _⟩ := hdir _ f1 (b :: l) (by simp)
          rw [e1, g1, ← e2]
          exact (g3 L (hg.trans hL) hc).1 _ f2
      · intro i hx q t he hq ht
        cases hl : i.isLeaf with
        | true =>
          rw [leaf_elements hl] at he
          cases q with
          | nil => exact absurd rfl hq
          | cons a q =>
            rw [List.cons_append] at he
            injection he with _ he
            cases q with
            | nil => exact absurd he.symm ht
            | cons b q => cases he
        | false =>
          obtain ⟨b, l, e1, e2⟩ := deep_elements (hne i hx) hl
          obtain ⟨subs, f1, f2⟩ := hfind i hx hl
          rw [e1] at he
          cases q with
          | nil => exact absurd rfl hq
          | cons a q =>
            rw [List.cons_append] at he
            injection he with he1 he
            subst he1
            cases q with
            | nil =>
              obtain ⟨_, _, _, _, _, ⟨h0, g5⟩, _⟩ := hdir _ f1 [b] (by simp)
              exact ⟨h0, by rw [entryAt, hget]; exact g5⟩
            | cons c q =>
              obtain ⟨es0, es1, g1, _, g3, _⟩ := hdir _ f1 (c :: q) (by simp)
              simp only at g1
              rw [g1]
              exact (g3 L (hg.trans hL) hc).2.1 _ f2 (c :: q) t (by rw [e2, he]) (by simp) ht
      · intro p hp
        cases p with
        | nil => rfl
        | cons m p =>
          by_cases hk : m ∈ dkeys (dirInfos infos)
          · obtain ⟨y, hy, hy2⟩ := List.mem_map.mp hk
            obtain ⟨m', subs⟩ := y
            simp only at hy2
            subst hy2
            cases p with
            | nil =>
              exfalso
              obtain ⟨i, i1, i2⟩ := dirInfos_key.mp hk
              obtain ⟨i3, i4⟩ := mem_deepInfos.mp i1
              obtain ⟨b, l, e1, _⟩ := deep_elements (hne i i3) i4
              refine (hp i i3).2 ⟨b :: l, ?_⟩
              rw [e1, i2]
              rfl
            | cons c p =>
              obtain ⟨es0, es1, g1, g2, g3, _⟩ := hdir _ hy (c :: p) (by simp)
              simp only at g1 g2
              rw [g1, g2]
              refine (g3 L (hg.trans hL) hc).2.2.1 _ ?_
              intro j hj
              obtain ⟨i, i1, i2, i3, rfl⟩ := (mem_subs hy).mp hj
              obtain ⟨b, l, e1, e2⟩ := deep_elements (hne i i1) i2
              have := hp i i1
              rw [e1, i3] at this
              rw [e2]
              refine ⟨fun hx => this.1 ?_, fun hx => this.2 ?_⟩
              · exact (List.prefix_cons_inj _).mpr hx
              · exact (List.prefix_cons_inj _).mpr hx
          · refine entryAt_same ?_ p
            rw [hget, b4 m hk]
            refine a3 m ?_
            intro hm
            obtain ⟨i, i1, i2⟩ := List.mem_map.mp hm
            obtain ⟨i3, i4⟩ := List.mem_filter.mp i1
            refine (hp i i3).1 ?_
            rw [leaf_elements i4, i2]
            exact ⟨p, rfl⟩
      · have hcl : ∀ x ∈ dirInfos infos, ∃ es0, Clear C L r x.2 es0 ∧
            (∀ p, p ≠ [] → entryAt C L r es (x.1 :: p) = entryAt C L r es0 p) ∧
            ∀ b h, dget (byName es) x.1 = some (b, h) → b = true := by
          intro x hx
          obtain ⟨es0, es1, c1, c2, c3, c4⟩ := b5 x hx
          refine ⟨es0, (c3 L (hg.trans hL) hc).2.2.2, ?_, ?_⟩
          · intro p hp
            rcases c4 with ⟨c5, rfl⟩ | ⟨h0, c5, c6⟩
            · rw [entryAt_none c5, entryAt_nil]
            · exact entryAt_cons c5 (c6 L (hg.trans hL) hc) hp
          · intro b h hbh
            rcases c4 with ⟨c5, _⟩ | ⟨h0, c5, _⟩
            · rw [c5] at hbh; cases hbh
            · rw [c5] at hbh; cases hbh; rfl
        refine ⟨?_, ?_, ?_, ?_, ?_⟩
        · intro i hx he
          have := hne i hx
          rw [he] at this
          cases this
        · refine nodup_paths hne v2 ?_
          intro x hx
          obtain ⟨_, c1, _⟩ := hcl x hx
          exact c1.nodup
        · intro i hx j hy hpre
          cases hl : i.isLeaf with
          | true =>
            cases hlj : j.isLeaf with
            | true =>
              rw [leaf_elements hl, leaf_elements hlj] at hpre ⊢
              rw [List.cons_prefix_cons] at hpre
              rw [hpre.1]
            | false =>
              exfalso
              obtain ⟨b, l, e1, _⟩ := deep_elements (hne j hy) hlj
              rw [leaf_elements hl, e1, List.cons_prefix_cons] at hpre
              exact v1 i hx hl (dirInfos_key.mpr ⟨j, mem_deepInfos.mpr ⟨hy, hlj⟩, hpre.1.symm⟩)
          | false =>
            obtain ⟨b, l, e1, e2⟩ := deep_elements (hne i hx) hl
            cases hlj : j.isLeaf with
            | true =>
              rw [e1, leaf_elements hlj, List.cons_prefix_cons] at hpre
              obtain ⟨t, ht⟩ := hpre.2
              cases ht
            | false =>
              obtain ⟨b', l', e1', e2'⟩ := deep_elements (hne j hy) hlj
              rw [e1, e1', List.cons_prefix_cons] at hpre
              obtain ⟨subs, f1, f2⟩ := hfind i hx hl
              obtain ⟨es0, c1, _⟩ := hcl _ f1
              have f3 : j.stripped ∈ subs := (mem_subs f1).mpr ⟨j, hy, hlj, hpre.1.symm, rfl⟩
              have := c1.apart _ f2 _ f3 (by rw [e2, e2']; exact hpre.2)
              rw [e2, e2'] at this
              rw [e1, e1', hpre.1, this]
        · intro i hx t h he
          cases hl : i.isLeaf with
          | true =>
            rw [leaf_elements hl, entryAt] at he
            have hq := ((hi i hx).plain i.first (by rw [leaf_elements hl]; exact List.mem_cons_self ..)).1
            have hgt := dget_tab (byName es) i.first
            rw [hq, he] at hgt
            exact a4 i (List.mem_filter.mpr ⟨hx, hl⟩) _ hgt
          | false =>
            obtain ⟨b, l, e1, e2⟩ := deep_elements (hne i hx) hl
            obtain ⟨subs, f1, f2⟩ := hfind i hx hl
            obtain ⟨es0, c1, c2, _⟩ := hcl _ f1
            rw [e1, c2 _ (by simp), ← e2] at he
            exact c1.kinds _ f2 t h he
        · intro i hx q t he hq ht b h hb
          cases hl : i.isLeaf with
          | true =>
            exfalso
            rw [leaf_elements hl] at he
            have := congrArg List.length he
            cases q with
            | nil => exact hq rfl
            | cons a q =>
              cases t with
              | nil => exact ht rfl
              | cons a' t => simp at this
          | false =>
            obtain ⟨m, l, e1, e2⟩ := deep_elements (hne i hx) hl
            obtain ⟨subs, f1, f2⟩ := hfind i hx hl
            obtain ⟨es0, c1, c2, c3⟩ := hcl _ f1
            rw [e1] at he
            cases q with
            | nil => exact absurd rfl hq
            | cons a q =>
              rw [List.cons_append] at he
              injection he with he1 he
              subst he1
              cases q with
              | nil => exact c3 b h hb
              | cons c q =>
                rw [c2 _ (by simp)] at hb
                exact c1.runs _ f2 (c :: q) t (by rw [e2, he]) (by simp) ht b h hb

/-! ### Every outcome -/

/-- Only objects were stored, in the given repository. -/
def OnlySaves (r : Realm) (s s' : Repo) : Prop :=
  ∃ K, s'.log = K ++ s.log ∧ ∀ op ∈ K, ∃ o, op = .save r o

theorem OnlySaves.refl (r : Realm) (s : Repo) : OnlySaves r s s := ⟨[], rfl, by simp⟩

theorem OnlySaves.trans {r : Realm} {a b c : Repo} (h1 : OnlySaves r a b) (h2 : OnlySaves r b c) :
    OnlySaves r a c := by
  obtain ⟨K1, e1, f1⟩ := h1
  obtain ⟨K2, e2, f2⟩ := h2
  refine ⟨K2 ++ K1, by rw [e2, e1, List.append_assoc], ?_⟩
  intro op hop
  rcases List.mem_append.mp hop with h | h
  · exact f2 op h
  · exact f1 op h

theorem OnlySaves.grows {r : Realm} {s s' : Repo} (h : OnlySaves r s s') : Grows s.log s'.log := by
  obtain ⟨K, e, _⟩ := h
  rw [e]; exact grows_append K s.log

theorem OnlySaves.refs {r : Realm} {s s' : Repo} (h : OnlySaves r s s') : SameRefs s.log s'.log := by
  obtain ⟨K, e, f⟩ := h
  rw [e]
  exact sameRefs_append (fun op hop => ⟨r, f op hop⟩) _

theorem gitCmd_onlySaves {α : Type} {r : Realm} {cmd : Log → List GitOp × Except PyErr α}
    (h : ∀ L, ∀ op ∈ (cmd L).1, ∃ o, op = .save r o) : M.Keeps (gitCmd cmd) (OnlySaves r) := by
  intro s
  obtain ⟨k, hk⟩ := gitCmd_log cmd s
  exact ⟨_, hk, fun op hop => h _ op (List.mem_of_mem_take (List.mem_reverse.mp hop))⟩

theorem getDir_any (C : Cfg) (r r' : Realm) (loc : Str) : M.Keeps (getDir C r loc) (OnlySaves r') :=
  gitCmd_onlySaves (fun _ op h => by cases h)

theorem writeDir_any (C : Cfg) (r : Realm) (es : List TreeEntry) :
    M.Keeps (writeDir C r es) (OnlySaves r) := by
  refine gitCmd_onlySaves fun L op h => ?_
  split at h
  · rcases List.mem_cons.mp h with h | h
    · exact ⟨_, h⟩
    · cases h
  · cases h

theorem addDirs_any {C : Cfg} {r : Realm} {rec : List PathInfo → List TreeEntry → G Str}
    (hrec : ∀ infos es, M.Keeps (rec infos es) (OnlySaves r)) (table : List (Str × TreeEntry)) :
    ∀ ds acc, M.Keeps (addDirs C rec r table ds acc) (OnlySaves r) := by
  intro ds
  induction ds with
  | nil => intro acc; exact fun s => OnlySaves.refl r s
  | cons x ds ih =>
    intro acc
    obtain ⟨n, subs⟩ := x
    unfold addDirs
    refine M.Keeps.bind (R := OnlySaves r) (fun _ _ _ a b => a.trans b) ?_ fun es =>
      M.Keeps.bind (R := OnlySaves r) (fun _ _ _ a b => a.trans b) (hrec _ _) fun h => ih _
    unfold subDir
    cases dget table n with
    | none => exact fun s => OnlySaves.refl r s
    | some e =>
      simp only
      split
      · exact getDir_any C r r e.hash
      · exact fun s => OnlySaves.refl r s

/-- Whatever happens, `add_paths` only stores objects. -/
theorem addPaths_any (C : Cfg) (r : Realm) (n : Nat) :
    ∀ infos root, M.Keeps (addPaths C n r infos root) (OnlySaves r) := by
  induction n with
  | zero => intro infos root s; exact OnlySaves.refl r s
  | succ n ih =>
    intro infos root
    unfold addPaths
    simp only
    split
    · exact fun s => OnlySaves.refl r s
    · split
      · refine M.Keeps.bind (R := OnlySaves r) (fun _ _ _ a b => a.trans b)
          (M.Keeps.ofExcept (OnlySaves.refl r) _) fun acc =>
          M.Keeps.bind (R := OnlySaves r) (fun _ _ _ a b => a.trans b) (addDirs_any ih _ _ _) fun acc =>
          writeDir_any C r _
      · exact fun s => OnlySaves.refl r s

/-! ### When adding succeeds -/

/-- The paths can be added: no path is empty or given twice, no path runs through another
one or through a file, nothing of another type is replaced, and the directories along the
paths are stored. -/
structure Ready (C : Cfg) (L : Log) (r : Realm) (infos : List PathInfo) (es : List TreeEntry) : Prop where
  nonempty : ∀ i ∈ infos, i.elements ≠ []
  nodup : (infos.map PathInfo.elements).Nodup
  apart : ∀ i ∈ infos, ∀ j ∈ infos, i.elements <+: j.elements → i.elements = j.elements
  kinds : ∀ i ∈ infos, ∀ t h, entryAt C L r es i.elements = some (t, h) → t = i.isTree
  dirs : ∀ i ∈ infos, ∀ q t, i.elements = q ++ t → q ≠ [] → t ≠ [] →
    ∀ b h, entryAt C L r es q = some (b, h) → b = true ∧ ∃ es0, findObj C L r h = some (.tree es0)

/-- An entry that is found stays the same when more is stored. -/
theorem entryAt_found {C : Cfg} {L L' : Log} {r : Realm} (hg : Grows L L') (hc : CollisionFree C L') :
    ∀ (p : List Str) (es : List TreeEntry) (x : Bool × Str), entryAt C L r es p = some x →
      entryAt C L' r es p = some x := by
  intro p
  induction p with
  | nil => intro es x h; cases h
  | cons n p ih =>
    intro es x h
    cases p with
    | nil => exact h
    | cons m p =>
      cases hd : dget (byName es) n with
      | none => rw [entryAt_none hd] at h; cases h
      | some y =>
        obtain ⟨t, hh⟩ := y
        cases t with
        | false => rw [entryAt, hd] at h; cases h
        | true =>
          cases hf : findObj C L r hh with
          | none => rw [entryAt, hd] at h; simp only at h; rw [hf] at h; cases h
          | some o =>
            cases o with
            | blob b => rw [entryAt, hd] at h; simp only at h; rw [hf] at h; cases h
            | tree es0 =>
              rw [entryAt_cons hd hf (by simp)] at h
              rw [entryAt_cons hd (findObj_mono hg hc hf) (by simp)]
              exact ih es0 x h

/-- Along a path whose directories are stored, nothing changes when more is stored. -/
theorem entryAt_later {C : Cfg} {L L' : Log} {r : Realm} (hg : Grows L L') (hc : CollisionFree C L') :
    ∀ (q : List Str) (es : List TreeEntry),
    (∀ a b, q = a ++ b → a ≠ [] → b ≠ [] → ∀ h, entryAt C L r es a = some (true, h) →
      ∃ es0, findObj C L r h = some (.tree es0)) →
    entryAt C L' r es q = entryAt C L r es q := by
  intro q
  induction q with
  | nil => intro es _; rfl
  | cons n q ih =>
    intro es hst
    cases q with
    | nil => rfl
    | cons m q =>
      cases hd : dget (byName es) n with
      | none => rw [entryAt_none hd, entryAt_none hd]
      | some x =>
        obtain ⟨t, h⟩ := x
        cases t with
        | false => rw [entryAt, entryAt, hd]
        | true =>
          obtain ⟨es0, h0⟩ := hst [n] (m :: q) rfl (by simp) (by simp) h (by rw [entryAt, hd])
          rw [entryAt_cons hd h0 (by simp), entryAt_cons hd (findObj_mono hg hc h0) (by simp)]
          refine ih es0 ?_
          intro a b e ha hb h' he
          refine hst (n :: a) b (by rw [e]; rfl) (by simp) hb h' ?_
          rw [entryAt_cons hd h0 ha]
          exact he

theorem Ready.later {C : Cfg} {L L' : Log} {r : Realm} {infos : List PathInfo} {es : List TreeEntry}
    (h : Ready C L r infos es) (hg : Grows L L') (hc : CollisionFree C L') : Ready C L' r infos es := by
  have key : ∀ i ∈ infos, ∀ q t, i.elements = q ++ t → entryAt C L' r es q = entryAt C L r es q := by
    intro i hi q t he
    refine entryAt_later hg hc q es ?_
    intro a b e ha hb h0 h1
    exact (h.dirs i hi a (b ++ t) (by rw [he, e, List.append_assoc]) ha
      (fun hx => hb (List.append_eq_nil_iff.mp hx).1) true h0 h1).2
  refine ⟨h.nonempty, h.nodup, h.apart, ?_, ?_⟩
  · intro i hi t x hx
    rw [key i hi i.elements [] (by simp)] at hx
    exact h.kinds i hi t x hx
  · intro i hi q t he hq ht b x hx
    rw [key i hi q t he] at hx
    obtain ⟨h1, es0, h2⟩ := h.dirs i hi q t he hq ht b x hx
    exact ⟨h1, es0, findObj_mono hg hc h2⟩

theorem isEmpty_of_ne {i : PathInfo} (h : i.elements ≠ []) : i.elements.isEmpty = false := by
  cases he : i.elements with
  | nil => exact absurd he h
  | cons a l => rfl

/-- The paths below a directory can be added to it. -/
theorem Ready.sub {C : Cfg} {L : Log} {r : Realm} {infos : List PathInfo} {es es0 : List TreeEntry}
    (h : Ready C L r infos es) {n : Str} {subs : List PathInfo} (hs : (n, subs) ∈ dirInfos infos)
    (hent : ∀ p, p ≠ [] → entryAt C L r es (n :: p) = entryAt C L r es0 p) :
    Ready C L r subs es0 := by
  have hsub : ∀ j ∈ subs, ∃ i ∈ infos, ∃ m p, i.elements = n :: m :: p ∧ j.elements = m :: p ∧
      j.isTree = i.isTree := by
    intro j hj
    obtain ⟨i, h1, h2, h3, rfl⟩ := (mem_subs hs).mp hj
    obtain ⟨m, p, e1, e2⟩ := deep_elements (isEmpty_of_ne (h.nonempty i h1)) h2
    exact ⟨i, h1, m, p, by rw [e1, h3], e2, rfl⟩
  refine ⟨?_, ?_, ?_, ?_, ?_⟩
  · intro j hj
    obtain ⟨i, _, m, p, _, e2, _⟩ := hsub j hj
    rw [e2]; simp
  · rw [dirInfos_mem hs, List.map_map]
    have hp : infos.Pairwise fun a b => a.elements ≠ b.elements := List.pairwise_map.mp h.nodup
    refine List.pairwise_map.mpr ?_
    have hp2 := (hp.sublist (List.filter_sublist (l := infos) (p := fun i => !i.isLeaf))).sublist
      (List.filter_sublist (p := fun j => j.first = n))
    refine hp2.imp_of_mem ?_
    intro a b ha hb hab he
    obtain ⟨a1, a2⟩ := List.mem_filter.mp ha
    obtain ⟨b1, b2⟩ := List.mem_filter.mp hb
    obtain ⟨a3, a4⟩ := mem_deepInfos.mp a1
    obtain ⟨b3, b4⟩ := mem_deepInfos.mp b1
    obtain ⟨m, p, e1, e2⟩ := deep_elements (isEmpty_of_ne (h.nonempty a a3)) a4
    obtain ⟨m', p', e1', e2'⟩ := deep_elements (isEmpty_of_ne (h.nonempty b b3)) b4
    apply hab
    simp only [Function.comp] at he
    rw [e2, e2'] at he
    rw [e1, e1', he]
    have a5 : a.first = n := by simpa using a2
    have b5 : b.first = n := by simpa using b2
    rw [a5, b5]
  · intro j hj k hk hpre
    obtain ⟨i, i1, m, p, e1, e2, _⟩ := hsub j hj
    obtain ⟨i', i1', m', p', e1', e2', _⟩ := hsub k hk
    have := h.apart i i1 i' i1' (by
      rw [e1, e1']
      rw [e2, e2'] at hpre
      exact (List.prefix_cons_inj _).mpr hpre)
    rw [e1, e1'] at this
    rw [e2, e2']
    injection this
  · intro j hj t x hx
    obtain ⟨i, i1, m, p, e1, e2, e3⟩ := hsub j hj
    rw [e3]
    refine h.kinds i i1 t x ?_
    rw [e1, hent _ (by simp), ← e2]
    exact hx
  · intro j hj q t he hq ht b x hx
    obtain ⟨i, i1, m, p, e1, e2, _⟩ := hsub j hj
    refine h.dirs i i1 (n :: q) t ?_ (by simp) ht b x ?_
    · rw [e1, ← e2, he]; rfl
    · rw [hent q hq]; exact hx

theorem Ready.valid {C : Cfg} {L : Log} {r : Realm} {infos : List PathInfo} {es : List TreeEntry}
    (h : Ready C L r infos es) : validInfos infos = true := by
  unfold validInfos
  rw [Bool.and_eq_true, List.all_eq_true, decide_eq_true_eq]
  constructor
  · intro i hi
    obtain ⟨i1, i2⟩ := List.mem_filter.mp hi
    have : i.first ∉ dkeys (dirInfos infos) := by
      intro hm
      obtain ⟨j, j1, j2⟩ := dirInfos_key.mp hm
      obtain ⟨j3, j4⟩ := mem_deepInfos.mp j1
      obtain ⟨m, p, e1, _⟩ := deep_elements (isEmpty_of_ne (h.nonempty j j3)) j4
      have := h.apart i i1 j j3 (by rw [leaf_elements i2, e1, j2]; exact ⟨m :: p, rfl⟩)
      rw [leaf_elements i2, e1] at this
      have := congrArg List.length this
      simp at this
    simpa using this
  · have hp : infos.Pairwise fun a b => a.elements ≠ b.elements := List.pairwise_map.mp h.nodup
    refine List.pairwise_map.mpr ?_
    refine (hp.sublist (List.filter_sublist (p := PathInfo.isLeaf))).imp_of_mem ?_
    intro a b ha hb hab he
    apply hab
    rw [leaf_elements (List.mem_filter.mp ha).2, leaf_elements (List.mem_filter.mp hb).2, he]

theorem addLeaves_total {table : List (Str × TreeEntry)} : ∀ {is : List PathInfo}
    {acc : List (Str × TreeEntry)},
    (∀ i ∈ is, ∀ e, dget table i.first = some e → e.isTree = i.isTree) →
    ∃ acc', addLeaves table is acc = .ok acc' := by
  intro is
  induction is with
  | nil => intro acc _; exact ⟨acc, rfl⟩
  | cons i is ih =>
    intro acc h
    unfold addLeaves
    cases hg : dget table i.first with
    | none => exact ih fun x hx => h x (List.mem_cons_of_mem _ hx)
    | some e =>
      simp only
      rw [if_pos (h i (List.mem_cons_self ..) e hg)]
      exact ih fun x hx => h x (List.mem_cons_of_mem _ hx)

theorem gitCmd_works {α : Type} (cmd : Log → List GitOp × Except PyErr α) (s : Repo)
    (h : s.faults = []) : gitCmd cmd s = ((cmd s.log).2, ⟨(cmd s.log).1.reverse ++ s.log, []⟩) := by
  unfold gitCmd; rw [h]

theorem getDir_works {C : Cfg} {r : Realm} {loc : Str} {s : Repo} (hf : s.faults = []) {es : List TreeEntry}
    (hw : WellTree es) (h : resolve C s.log r loc = some (.tree es)) :
    getDir C r loc s = (.ok (es.map TreeEntry.raw), s) := by
  unfold getDir
  rw [gitCmd_works _ _ hf]
  have : treeAt C s.log r loc = .ok es := by unfold treeAt; rw [h]
  rw [bind_of_eq_ok _ this, dirLines_ok hw.hashes]
  cases s
  simp only at hf
  subst hf
  rfl

theorem writeDir_works {C : Cfg} {r : Realm} {d : List (Str × (Bool × Str))} {s : Repo}
    (hf : s.faults = []) (hd : WellDict d) (hne : d ≠ []) :
    ∃ h s', writeDir C r ((tab d).map Prod.snd) s = (.ok h, s') ∧ s'.faults = [] := by
  unfold writeDir
  rw [gitCmd_works _ _ hf, tab_values,
    mktree_rawSpec (by unfold ents; simpa using hne) hd.tree.hashes hd.tree.names]
  exact ⟨_, _, rfl, rfl⟩

theorem addDirs_works {C : Cfg} {r : Realm} {rec : List PathInfo → List TreeEntry → G Str}
    (hany : ∀ infos es, M.Keeps (rec infos es) (OnlySaves r))
    (hrec : ∀ infos es s h s', (∀ i ∈ infos, WellInfo i) → WellTrees s.log r → WellTree es →
      rec infos (es.map TreeEntry.raw) s = (.ok h, s') → Adds C r infos es s s' h)
    {P : List PathInfo → Prop}
    (hworks : ∀ infos es s, P infos → (∀ i ∈ infos, WellInfo i) → WellTrees s.log r → WellTree es →
      s.faults = [] → CollisionFree C (rec infos (es.map TreeEntry.raw) s).2.log →
      Ready C s.log r infos es →
      ∃ h s', rec infos (es.map TreeEntry.raw) s = (.ok h, s') ∧ s'.faults = [])
    {dT : List (Str × (Bool × Str))} (hT : WellDict dT) {L0 : Log} {infos0 : List PathInfo}
    {es0 : List TreeEntry} (hes : byName es0 = dT) (hready : Ready C L0 r infos0 es0) :
    ∀ {ds : List (Str × List PathInfo)} {d : List (Str × (Bool × Str))} {s : Repo},
    (∀ x ∈ ds, x ∈ dirInfos infos0 ∧ P x.2 ∧ gitQuote x.1 = x.1 ∧ '/' ∉ x.1 ∧ ∀ i ∈ x.2, WellInfo i) →
    WellDict d → WellTrees s.log r → s.faults = [] → Grows L0 s.log →
    CollisionFree C (addDirs C rec r (tab dT) ds (tab d) s).2.log →
    ∃ acc s', addDirs C rec r (tab dT) ds (tab d) s = (.ok acc, s') ∧ s'.faults = [] := by
  intro ds
  induction ds with
  | nil => intro d s _ _ _ hf _ _; exact ⟨_, _, rfl, hf⟩
  | cons x ds ih =>
    intro d s hx hd hw hf hg hc
    obtain ⟨n, subs⟩ := x
    obtain ⟨hmem, hP, hq, hsl, hwi⟩ := hx (n, subs) (List.mem_cons_self ..)
    simp only at hP hq hsl hwi
    have hcs : CollisionFree C s.log := hc.mono (addDirs_any hany _ _ _ s).grows
    have hk : n ∈ dkeys (dirInfos infos0) := List.mem_map.mpr ⟨_, hmem, rfl⟩
    obtain ⟨i, i1, i2⟩ := dirInfos_key.mp hk
    obtain ⟨i3, i4⟩ := mem_deepInfos.mp i1
    obtain ⟨m, p, e1, e2⟩ := deep_elements (isEmpty_of_ne (hready.nonempty i i3)) i4
    rw [i2] at e1
    -- the directory can be read
    have hsd : ∃ es1, subDir C r (tab dT) n s = (.ok (es1.map TreeEntry.raw), s) ∧ WellTree es1 ∧
        ∀ p, p ≠ [] → entryAt C s.log r es0 (n :: p) = entryAt C s.log r es1 p := by
      unfold subDir
      have hgt := dget_tab dT n
      rw [hq] at hgt
      rw [hgt]
      cases hdn : dget dT n with
      | none =>
        refine ⟨[], rfl, WellTree.nil, ?_⟩
        intro p hp
        rw [entryAt_none (by rw [hes]; exact hdn), entryAt_nil]
      | some y =>
        obtain ⟨t, hh⟩ := y
        have h0 : entryAt C L0 r es0 [n] = some (t, hh) := by rw [entryAt, hes]; exact hdn
        obtain ⟨rfl, es1, h1⟩ := hready.dirs i i3 [n] (m :: p) (by rw [e1]; rfl) (by simp) (by simp)
          t hh h0
        have h2 := findObj_mono hg hcs h1
        have hwt := hw es1 (findObj_stored h2).1
        refine ⟨es1, ?_, hwt, ?_⟩
        · simp only [Option.map_some, if_true]
          refine getDir_works hf hwt ?_
          rw [resolve_hash (hT.hashes _ (mem_of_dget hdn))]
          exact h2
        · intro p hp
          exact entryAt_cons (by rw [hes]; exact hdn) h2 hp
    obtain ⟨es1, h1, hwt, hent⟩ := hsd
    have hr1 : Ready C s.log r subs es1 := (hready.later hg hcs).sub hmem hent
    have hstep : addDirs C rec r (tab dT) ((n, subs) :: ds) (tab d) s =
        (rec subs (es1.map TreeEntry.raw) >>= fun h =>
          addDirs C rec r (tab dT) ds (dset (tab d) n ⟨true, h, n⟩)) s := by
      conv => lhs; unfold addDirs
      rw [M.bind_of_ok h1]
    rw [hstep] at hc ⊢
    have hcr : CollisionFree C (rec subs (es1.map TreeEntry.raw) s).2.log := by
      cases hrun : rec subs (es1.map TreeEntry.raw) s with
      | mk o s1 =>
        cases o with
        | error e => rw [M.bind_of_error hrun] at hc; exact hc
        | ok h =>
          rw [M.bind_of_ok hrun] at hc
          exact hc.mono (addDirs_any hany _ _ _ s1).grows
    obtain ⟨h, s1, h2, hf1⟩ := hworks subs es1 s hP hwi hw hwt hf hcr hr1
    obtain ⟨g1, w1, es2, rfl, _, _⟩ := hrec subs es1 s h s1 hwi hw hwt h2
    rw [M.bind_of_ok h2] at hc ⊢
    have hds := dset_tab d n true (C.hash (.tree es2))
    rw [hq] at hds
    rw [hds] at hc ⊢
    exact ih (fun y hy => hx y (List.mem_cons_of_mem _ hy)) (hd.dset (C.valid _) ⟨hsl, plain_nul hq⟩) w1
      hf1 (hg.trans g1) hc

/-- If the paths can be added, then they are, as long as git works. -/
theorem addPaths_works {C : Cfg} {r : Realm} (n : Nat) : ∀ (infos : List PathInfo) (es : List TreeEntry)
    (s : Repo), (∀ i ∈ infos, i.elements.length ≤ n) → infos ≠ [] ∨ es ≠ [] → 0 < n →
    (∀ i ∈ infos, WellInfo i) → WellTrees s.log r → WellTree es → s.faults = [] →
    CollisionFree C (addPaths C n r infos (es.map TreeEntry.raw) s).2.log →
    Ready C s.log r infos es →
    ∃ h s', addPaths C n r infos (es.map TreeEntry.raw) s = (.ok h, s') ∧ s'.faults = [] := by
  induction n with
  | zero => intro infos es s _ _ h; exact absurd h (by omega)
  | succ n ih =>
    intro infos es s hlen hnil _ hi hw hes hf hc hr
    have hem : ¬ (infos.any fun i => i.elements.isEmpty) = true := by
      intro h
      obtain ⟨i, h1, h2⟩ := List.any_eq_true.mp h
      rw [isEmpty_of_ne (hr.nonempty i h1)] at h2
      cases h2
    have hstep : addPaths C (n + 1) r infos (es.map TreeEntry.raw) =
        (M.ofExcept (addLeaves (tab (byName es)) (infos.filter PathInfo.isLeaf) (tab (byName es))) >>=
          fun acc => addDirs C (addPaths C n r) r (tab (byName es)) (dirInfos infos) acc >>= fun acc =>
          writeDir C r (acc.map Prod.snd)) := by
      conv => lhs; unfold addPaths
      rw [table_raw hes.nodup]
      simp only
      rw [if_neg hem, if_pos hr.valid]
    rw [hstep] at hc ⊢
    obtain ⟨v1, v2⟩ := validInfos_ok hr.valid
    have hT := hes.dict
    have hk : ∀ i ∈ infos.filter PathInfo.isLeaf, ∀ e, dget (tab (byName es)) i.first = some e →
        e.isTree = i.isTree := by
      intro i hx e he
      obtain ⟨x1, x2⟩ := List.mem_filter.mp hx
      have hq := ((hi i x1).plain i.first (by rw [leaf_elements x2]; exact List.mem_cons_self ..)).1
      have hgt := dget_tab (byName es) i.first
      rw [hq, he] at hgt
      cases hd : dget (byName es) i.first with
      | none => rw [hd] at hgt; cases hgt
      | some y =>
        rw [hd] at hgt
        cases hgt
        exact hr.kinds i x1 y.1 y.2 (by rw [leaf_elements x2, entryAt]; exact hd)
    obtain ⟨acc, h1⟩ := addLeaves_total (acc := tab (byName es)) hk
    obtain ⟨d1, rfl, a1, a2, a3, _⟩ := addLeaves_ok
      (fun i hx => ⟨hi i (List.mem_filter.mp hx).1, (List.mem_filter.mp hx).2⟩) v2 hT h1
    rw [M.bind_of_ok (by rw [h1]; rfl)] at hc ⊢
    have hsubs : ∀ x ∈ dirInfos infos, x ∈ dirInfos infos ∧
        (x.2 ≠ [] ∧ (∀ i ∈ x.2, i.elements.length ≤ n) ∧ 0 < n) ∧
        gitQuote x.1 = x.1 ∧ '/' ∉ x.1 ∧ ∀ i ∈ x.2, WellInfo i := by
      intro x hx
      obtain ⟨m, subs⟩ := x
      have hkk : m ∈ dkeys (dirInfos infos) := List.mem_map.mpr ⟨_, hx, rfl⟩
      obtain ⟨i, hi1, hi2⟩ := dirInfos_key.mp hkk
      obtain ⟨hi3, hi4⟩ := mem_deepInfos.mp hi1
      obtain ⟨b, l, e1, e2⟩ := deep_elements (isEmpty_of_ne (hr.nonempty i hi3)) hi4
      have hp := (hi i hi3).plain m (by rw [e1, hi2]; exact List.mem_cons_self ..)
      refine ⟨hx, ⟨?_, ?_, ?_⟩, hp.1, hp.2, ?_⟩
      · intro h0
        have : i.stripped ∈ subs := (mem_subs hx).mpr ⟨i, hi3, hi4, hi2, rfl⟩
        simp only at h0
        rw [h0] at this
        cases this
      · intro j hj
        obtain ⟨k, k1, _, _, rfl⟩ := (mem_subs hx).mp hj
        have := hlen k k1
        unfold PathInfo.stripped
        simp
        omega
      · have := hlen i hi3
        rw [e1] at this
        simp at this
        omega
      · intro j hj
        obtain ⟨k, k1, _, _, rfl⟩ := (mem_subs hx).mp hj
        exact ⟨(hi k k1).hash, fun y hy => (hi k k1).plain y (List.mem_of_mem_drop hy)⟩
    have hcd : CollisionFree C (addDirs C (addPaths C n r) r (tab (byName es)) (dirInfos infos) (tab d1) s).2.log := by
      cases hrun : addDirs C (addPaths C n r) r (tab (byName es)) (dirInfos infos) (tab d1) s with
      | mk o s1 =>
        cases o with
        | error e => rw [M.bind_of_error hrun] at hc; exact hc
        | ok h =>
          rw [M.bind_of_ok hrun] at hc
          exact hc.mono (writeDir_any C r _ s1).grows
    obtain ⟨acc2, s1, h2, hf1⟩ := addDirs_works (P := fun infos => infos ≠ [] ∧
        (∀ i ∈ infos, i.elements.length ≤ n) ∧ 0 < n) (addPaths_any C r n) (addPaths_ok n)
      (fun infos es s hP p1 p2 p3 p4 p5 p6 => ih infos es s hP.2.1 (Or.inl hP.1) hP.2.2 p1 p2 p3 p4 p5 p6)
      hT rfl hr hsubs a1 hw hf (Grows.refl _) hcd
    rw [M.bind_of_ok h2]
    obtain ⟨d2, rfl, b1, b2, b3, b4, b5⟩ := addDirs_ok (addPaths_ok n) hT
      (fun x hx => (hsubs x hx).2.2) (nodup_fromItems _) a1 hw h2
    refine writeDir_works hf1 b1 ?_
    rintro rfl
    -- the result is not empty
    have hzero : ∀ m, dget ([] : List (Str × (Bool × Str))) m = none := fun m => rfl
    by_cases hin : infos = []
    · rcases hnil with h | h
      · exact h hin
      · cases es with
        | nil => exact h rfl
        | cons e es =>
          have e1 := b4 e.name (by subst hin; simp [dirInfos, deepInfos, fromItems, dkeys])
          have e2 := a3 e.name (by subst hin; simp)
          rw [e2] at e1
          have : dget (byName (e :: es)) e.name = some (e.isTree, e.hash) := by
            have hb : byName (e :: es) = (e.name, e.isTree, e.hash) :: byName es := rfl
            rw [hb, dget_cons, if_pos rfl]
          rw [this, hzero] at e1
          cases e1
    · cases infos with
      | nil => exact hin rfl
      | cons i is =>
        cases hl : i.isLeaf with
        | true =>
          have e1 := b4 i.first (v1 i (List.mem_cons_self ..) hl)
          rw [a2 i (List.mem_filter.mpr ⟨List.mem_cons_self .., hl⟩), hzero] at e1
          cases e1
        | false =>
          have hkk : i.first ∈ dkeys (dirInfos (i :: is)) :=
            dirInfos_key.mpr ⟨i, mem_deepInfos.mpr ⟨List.mem_cons_self .., hl⟩, rfl⟩
          obtain ⟨y, hy, _⟩ := List.mem_map.mp hkk
          obtain ⟨_, _, c1, _⟩ := b5 y hy
          rw [hzero] at c1
          cases c1

end MM
