/-
C40: adding paths to a stored tree is a merge.
-/
import Verif.TreeUpdater
import Verif.Example
import Verif.Props.Names

namespace MM

/-- Below a file there is nothing. -/
theorem entryAt_below {C : Cfg} {L : Log} {r : Realm} : ∀ (p q : List Str) (es : List TreeEntry), q ≠ [] →
    (∀ h, entryAt C L r es p ≠ some (true, h)) → p ≠ [] → entryAt C L r es (p ++ q) = none := by
  intro p
  induction p with
  | nil => intro q es _ _ h; exact absurd rfl h
  | cons n p ih =>
    intro q es hq h _
    cases hd : dget (byName es) n with
    | none => exact entryAt_none hd _
    | some y =>
      obtain ⟨t, hh⟩ := y
      cases t with
      | false =>
        cases hr : p ++ q with
        | nil => exact absurd (List.append_eq_nil_iff.mp hr).2 hq
        | cons m l => rw [List.cons_append, hr, entryAt, hd]
      | true =>
        cases p with
        | nil => exact absurd (by rw [entryAt]; exact hd) (h hh)
        | cons m p =>
          rw [List.cons_append, List.cons_append, entryAt, hd]
          simp only
          cases hf : findObj C L r hh with
          | none => rfl
          | some o =>
            cases o with
            | blob b => rfl
            | tree es0 =>
              refine ih q es0 hq ?_ (by simp)
              intro h' he
              exact h h' (by rw [entryAt_cons hd hf (by simp)]; exact he)

/-- A tree is read (by hash or reference) and paths are added to it, as
`flush_object_references` does.  If this works, then the returned hash is the one of a
stored tree that holds, at every given path, an entry of the given type with the given
hash; above the given paths there are directories; and all paths that are neither above
nor below a given one have the entry that they had.  The entries that the old tree had
are still readable.  `entryAt` looks a path up in stored trees.

Partial: names that git prints in quotes are excluded, see `C40_false`. -/
theorem C40_merge_partial {C : Cfg} {r : Realm} {n : Nat} {infos : List PathInfo} {loc h : Str}
    {root : List TreeEntry} {s s1 s2 : Repo} (hw : WellTrees s.log r) (hi : ∀ i ∈ infos, WellInfo i)
    (h1 : getDir C r loc s = (.ok root, s1)) (h2 : addPaths C n r infos root s1 = (.ok h, s2))
    (hc : CollisionFree C s2.log) :
    ∃ old new, resolve C s.log r loc = some (.tree old) ∧ findObj C s2.log r h = some (.tree new) ∧
      (∀ i ∈ infos, entryAt C s2.log r new i.elements = some (i.isTree, i.hash)) ∧
      (∀ i ∈ infos, ∀ p q, i.elements = p ++ q → p ≠ [] → q ≠ [] →
        ∃ d, entryAt C s2.log r new p = some (true, d)) ∧
      (∀ p, (∀ i ∈ infos, ¬ i.elements <+: p ∧ ¬ p <+: i.elements) →
        entryAt C s2.log r new p = entryAt C s2.log r old p) ∧
      (∀ p x, entryAt C s.log r old p = some x → entryAt C s2.log r old p = some x) := by
  obtain ⟨old, e1, e2, rfl, e4⟩ := getDir_ok hw h1
  obtain ⟨g, w, new, rfl, st, m⟩ := addPaths_ok n infos old s1 h s2 hi (by rw [e4]; exact hw) e2 h2
  obtain ⟨m1, m2, m3, _⟩ := m s2.log (Grows.refl _) hc
  rw [e4] at g
  exact ⟨old, new, e1, findObj_of_stored hc st, m1, m2, m3, fun p x => entryAt_found g hc p old x⟩

/-- If all given paths are files, the new tree has exactly the old files and the new
ones, with the new hash where both have a file.

Partial: names that git prints in quotes are excluded, see `C40_false`. -/
theorem C40_files_partial {C : Cfg} {r : Realm} {n : Nat} {infos : List PathInfo} {loc h : Str}
    {root : List TreeEntry} {s s1 s2 : Repo} (hw : WellTrees s.log r) (hi : ∀ i ∈ infos, WellInfo i)
    (hf : ∀ i ∈ infos, i.isTree = false)
    (h1 : getDir C r loc s = (.ok root, s1)) (h2 : addPaths C n r infos root s1 = (.ok h, s2))
    (hc : CollisionFree C s2.log) :
    ∃ old new, resolve C s.log r loc = some (.tree old) ∧ findObj C s2.log r h = some (.tree new) ∧
      ∀ p f, entryAt C s2.log r new p = some (false, f) ↔
        (∃ i ∈ infos, i.elements = p ∧ i.hash = f) ∨
        ((∀ i ∈ infos, i.elements ≠ p) ∧ entryAt C s2.log r old p = some (false, f)) := by
  obtain ⟨old, e1, e2, rfl, e4⟩ := getDir_ok hw h1
  obtain ⟨g, w, new, rfl, st, m⟩ := addPaths_ok n infos old s1 h s2 hi (by rw [e4]; exact hw) e2 h2
  obtain ⟨m1, m2, m3, m4⟩ := m s2.log (Grows.refl _) hc
  refine ⟨old, new, e1, findObj_of_stored hc st, ?_⟩
  intro p f
  by_cases hz : ∀ i ∈ infos, i.elements ≠ p
  · have hno : ¬ ∃ i ∈ infos, i.elements = p ∧ i.hash = f := fun ⟨i, a, b, _⟩ => hz i a b
    have hkey : entryAt C s2.log r new p = some (false, f) ↔ entryAt C s2.log r old p = some (false, f) := by
      by_cases hap : ∀ i ∈ infos, ¬ i.elements <+: p ∧ ¬ p <+: i.elements
      · rw [m3 p hap]
      · obtain ⟨i, hx⟩ := Classical.not_forall.mp hap
        obtain ⟨hx, hy⟩ := Classical.not_imp.mp hx
        by_cases hup : p <+: i.elements
        · obtain ⟨q, hq⟩ := hup
          by_cases hpn : p = []
          · subst hpn; constructor <;> (intro h; cases h)
          · have hqn : q ≠ [] := by
              rintro rfl
              rw [List.append_nil] at hq
              exact hz i hx hq.symm
            constructor
            · intro hnew
              obtain ⟨d, hd⟩ := m2 i hx p q hq.symm hpn hqn
              rw [hd] at hnew; cases hnew
            · intro hold
              have := m4.runs i hx p q hq.symm hpn hqn false f hold
              cases this
        · have hdn : i.elements <+: p := Classical.not_not.mp fun hn => hy ⟨hn, hup⟩
          obtain ⟨q, hq⟩ := hdn
          have hqn : q ≠ [] := by
            rintro rfl
            rw [List.append_nil] at hq
            exact hz i hx hq
          have a : entryAt C s2.log r new p = none := by
            rw [← hq]
            refine entryAt_below _ _ _ hqn ?_ (m4.nonempty i hx)
            intro d hd
            rw [m1 i hx, hf i hx] at hd
            cases hd
          have b : entryAt C s2.log r old p = none := by
            rw [← hq]
            refine entryAt_below _ _ _ hqn ?_ (m4.nonempty i hx)
            intro d hd
            have := m4.kinds i hx true d hd
            rw [hf i hx] at this
            cases this
          rw [a, b]
    rw [hkey]
    exact ⟨fun h => Or.inr ⟨hz, h⟩, fun h => h.elim (fun h => absurd h hno) fun h => h.2⟩
  · obtain ⟨i, hx⟩ := Classical.not_forall.mp hz
    obtain ⟨hx, hy⟩ := Classical.not_imp.mp hx
    rw [Classical.not_not] at hy
    have hnew := m1 i hx
    rw [hy, hf i hx] at hnew
    rw [hnew]
    constructor
    · intro h
      injection h with h
      injection h with _ h
      exact Or.inl ⟨i, hx, hy, h⟩
    · rintro (⟨j, j1, j2, j3⟩ | ⟨a, _⟩)
      · have := m1 j j1
        rw [j2, hnew] at this
        injection this with this
        injection this with _ this
        rw [this, j3]
      · exact absurd hy (a i hx)

/-- Requests that contradict each other or the tree fail: an empty path, a path given
twice, a path above another one, a path through a file, a file in the place of a
directory or a directory in the place of a file (`Clear`).

Partial: names that git prints in quotes are excluded, see `C40_false`. -/
theorem C40_conflict_partial {C : Cfg} {r : Realm} {n : Nat} {infos : List PathInfo}
    {old : List TreeEntry} {s : Repo} (hw : WellTrees s.log r) (ho : WellTree old)
    (hi : ∀ i ∈ infos, WellInfo i)
    (hc : CollisionFree C (addPaths C n r infos (old.map TreeEntry.raw) s).2.log)
    (hbad : ¬ Clear C s.log r infos old) :
    ∃ e, (addPaths C n r infos (old.map TreeEntry.raw) s).1 = .error e := by
  cases hr : addPaths C n r infos (old.map TreeEntry.raw) s with
  | mk o s' =>
    cases o with
    | error e => exact ⟨e, rfl⟩
    | ok h =>
      exfalso
      rw [hr] at hc
      obtain ⟨g, _, _, _, _, m⟩ := addPaths_ok n infos old s h s' hi hw ho hr
      obtain ⟨_, _, _, m4⟩ := m s'.log (Grows.refl _) hc
      refine hbad ⟨m4.nonempty, m4.nodup, m4.apart, ?_, ?_⟩
      · intro i hx t d he
        exact m4.kinds i hx t d (entryAt_found g hc _ _ _ he)
      · intro i hx p q e hp hq t d he
        exact m4.runs i hx p q e hp hq t d (entryAt_found g hc _ _ _ he)

/-- Requests that do not contradict each other or the tree succeed, if all git commands
work, the directories along the paths are stored, and the recursion limit of Python is
not reached.

Partial: names that git prints in quotes are excluded, see `C40_false`. -/
theorem C40_succeeds_partial {C : Cfg} {r : Realm} {n : Nat} {infos : List PathInfo}
    {old : List TreeEntry} {s : Repo} (hw : WellTrees s.log r) (ho : WellTree old)
    (hi : ∀ i ∈ infos, WellInfo i) (hne : infos ≠ []) (hn : ∀ i ∈ infos, i.elements.length ≤ n)
    (hf : s.faults = []) (hgood : Clear C s.log r infos old)
    (hdirs : ∀ i ∈ infos, ∀ p q, i.elements = p ++ q → q ≠ [] →
      ∀ d, entryAt C s.log r old p = some (true, d) → ∃ es, findObj C s.log r d = some (.tree es))
    (hc : CollisionFree C (addPaths C n r infos (old.map TreeEntry.raw) s).2.log) :
    ∃ h, (addPaths C n r infos (old.map TreeEntry.raw) s).1 = .ok h := by
  have hpos : 0 < n := by
    cases infos with
    | nil => exact absurd rfl hne
    | cons i is =>
      have h1 := hn i (List.mem_cons_self ..)
      have h2 := hgood.nonempty i (List.mem_cons_self ..)
      cases he : i.elements with
      | nil => exact absurd he h2
      | cons a l => rw [he] at h1; simp at h1; omega
  obtain ⟨h, s', e, _⟩ := addPaths_works n infos old s hn (Or.inl hne) hpos hi hw ho hf hc
    ⟨hgood.nonempty, hgood.nodup, hgood.apart, hgood.kinds, fun i hx p q e hp hq t d he => by
      have ht := hgood.runs i hx p q e hp hq t d he
      subst ht
      exact ⟨rfl, hdirs i hx p q e hq d he⟩⟩
  exact ⟨h, by rw [e]⟩

/-- Whatever the paths and the entries are and however the call ends, no reference of any
repository changes and nothing that is stored is lost. -/
theorem C40_refs {C : Cfg} {r : Realm} {n : Nat} {infos : List PathInfo} {root : List TreeEntry}
    {s : Repo} :
    (∀ r' name, refOf (addPaths C n r infos root s).2.log r' name = refOf s.log r' name) ∧
    (∀ r' o, Stored s.log r' o → Stored (addPaths C n r infos root s).2.log r' o) :=
  ⟨(addPaths_any C r n infos root s).refs, (addPaths_any C r n infos root s).grows⟩

/-! ### Cases -/

/-- A tree with the files `a/b` and `c` -/
def mergeInner : List TreeEntry := [⟨false, hashA, c!"b"⟩]
/-- A tree with the files `a/b` and `c` -/
def mergeOuter : List TreeEntry := [⟨true, sampleCfg.hash (.tree mergeInner), c!"a"⟩, ⟨false, hashA, c!"c"⟩]
/-- A repository with the tree -/
def mergeRepo : Repo := ⟨[.save c!"r" (.tree mergeOuter), .save c!"r" (.tree mergeInner)], []⟩
/-- Replace `a/b`, and add `a/d/e` and the directory `f`. -/
def mergeInfos : List PathInfo :=
  [⟨[c!"a", c!"b"], hashB, false⟩, ⟨[c!"a", c!"d", c!"e"], hashB, false⟩, ⟨[c!"f"], hashA, true⟩]

theorem mergeInfos_well : ∀ i ∈ mergeInfos, WellInfo i := by
  intro i hi
  have : ∀ i ∈ mergeInfos, isHash i.hash = true ∧ ∀ n ∈ i.elements, gitQuote n = n ∧ '/' ∉ n := by
    decide
  exact ⟨(this i hi).1, (this i hi).2⟩

theorem mergeInner_well : WellTree mergeInner := ⟨by decide, by decide, by decide⟩
theorem mergeOuter_well : WellTree mergeOuter := ⟨by decide +kernel, by decide, by decide⟩

theorem mergeRepo_well : WellTrees mergeRepo.log c!"r" := by
  intro es h
  rcases List.mem_cons.mp h with h | h
  · cases h; exact mergeOuter_well
  · rcases List.mem_cons.mp h with h | h
    · cases h; exact mergeInner_well
    · cases h

/-- The result of adding the paths. -/
def mergeRun : Except PyErr Str × Repo :=
  addPaths sampleCfg 9 c!"r" mergeInfos (mergeOuter.map TreeEntry.raw) mergeRepo

/-- The value of a successful run on repositories -/
def gOk {α : Type} (x : Except PyErr α × Repo) : Option α := match x.1 with
  | .ok a => some a
  | .error _ => none

theorem of_gOk {α : Type} {x : Except PyErr α × Repo} {a : α} (h : gOk x = some a) : x = (.ok a, x.2) := by
  obtain ⟨x1, x2⟩ := x
  cases x1 with
  | ok b => cases h; rfl
  | error e => cases h

theorem of_gOk_isSome {α : Type} {x : Except PyErr α × Repo} (h : (gOk x).isSome = true) :
    ∃ a, x = (.ok a, x.2) := by
  cases hx : gOk x with
  | none => rw [hx] at h; cases h
  | some a => exact ⟨a, of_gOk hx⟩

theorem mergeRun_distinct : CollisionFree sampleCfg mergeRun.2.log :=
  collisionFree_of_check (by decide +kernel)

theorem mergeRun_ok : ∃ h, mergeRun = (.ok h, mergeRun.2) := of_gOk_isSome (by decide +kernel)

theorem mergeRead : getDir sampleCfg c!"r" (sampleCfg.hash (.tree mergeOuter)) mergeRepo =
    (.ok (mergeOuter.map TreeEntry.raw), mergeRepo) := by
  refine getDir_works rfl mergeOuter_well ?_
  rw [resolve_hash (sampleCfg.valid _)]
  decide +kernel

/-- The hypotheses of `C40_merge_partial` are met. -/
example : ∃ h s2, addPaths sampleCfg 9 c!"r" mergeInfos (mergeOuter.map TreeEntry.raw) mergeRepo = (.ok h, s2) ∧
    CollisionFree sampleCfg s2.log ∧ WellTrees mergeRepo.log c!"r" ∧ (∀ i ∈ mergeInfos, WellInfo i) ∧
    getDir sampleCfg c!"r" (sampleCfg.hash (.tree mergeOuter)) mergeRepo =
      (.ok (mergeOuter.map TreeEntry.raw), mergeRepo) := by
  obtain ⟨h, hr⟩ := mergeRun_ok
  exact ⟨h, mergeRun.2, hr, mergeRun_distinct, mergeRepo_well, mergeInfos_well, mergeRead⟩

/-- The hypotheses of `C40_files_partial` are met. -/
example : ∃ h s2, addPaths sampleCfg 9 c!"r" (mergeInfos.take 2) (mergeOuter.map TreeEntry.raw) mergeRepo =
      (.ok h, s2) ∧ CollisionFree sampleCfg s2.log ∧ (∀ i ∈ mergeInfos.take 2, i.isTree = false) := by
  obtain ⟨h, hr⟩ := of_gOk_isSome (x := addPaths sampleCfg 9 c!"r" (mergeInfos.take 2)
    (mergeOuter.map TreeEntry.raw) mergeRepo) (by decide +kernel)
  exact ⟨h, _, hr, collisionFree_of_check (by decide +kernel), by decide⟩

/-- The hypotheses of `C40_succeeds_partial` are met. -/
example : Clear sampleCfg mergeRepo.log c!"r" mergeInfos mergeOuter ∧
    (∀ i ∈ mergeInfos, i.elements.length ≤ 9) ∧
    (∀ i ∈ mergeInfos, ∀ p q, i.elements = p ++ q → q ≠ [] →
      ∀ d, entryAt sampleCfg mergeRepo.log c!"r" mergeOuter p = some (true, d) →
        ∃ es, findObj sampleCfg mergeRepo.log c!"r" d = some (.tree es)) := by
  refine ⟨?_, by decide, ?_⟩
  · refine Classical.not_not.mp fun hb => ?_
    have hd := mergeRun_distinct
    unfold mergeRun at hd
    obtain ⟨e, he⟩ := C40_conflict_partial mergeRepo_well mergeOuter_well mergeInfos_well hd hb
    obtain ⟨h, hr⟩ := mergeRun_ok
    have h1 : mergeRun.1 = .ok h := congrArg Prod.fst hr
    have h2 : mergeRun.1 = .error e := by unfold mergeRun; exact he
    rw [h1] at h2
    cases h2
  · intro i _ p q _ _ d hd
    have hone : ∀ p d, entryAt sampleCfg mergeRepo.log c!"r" mergeOuter p = some (true, d) →
        d = sampleCfg.hash (.tree mergeInner) := by
      intro p d hd
      cases p with
      | nil => cases hd
      | cons a p =>
        by_cases ha : a = c!"a"
        · subst ha
          cases p with
          | nil =>
            have : entryAt sampleCfg mergeRepo.log c!"r" mergeOuter [c!"a"] =
                some (true, sampleCfg.hash (.tree mergeInner)) := rfl
            rw [this] at hd
            cases hd; rfl
          | cons b p =>
            exfalso
            have h0 : findObj sampleCfg mergeRepo.log c!"r" (sampleCfg.hash (.tree mergeInner)) =
                some (.tree mergeInner) := by decide +kernel
            rw [entryAt_cons (h := sampleCfg.hash (.tree mergeInner)) rfl h0 (by simp)] at hd
            by_cases hb : b = c!"b"
            · subst hb
              cases p with
              | nil => cases hd
              | cons c p => cases hd
            · rw [entryAt_none (by
                show dget (byName mergeInner) b = none
                unfold mergeInner byName
                rw [List.map_cons, dget_cons, if_neg (fun h => hb h.symm)]
                rfl)] at hd
              cases hd
        · by_cases hc : a = c!"c"
          · subst hc
            cases p with
            | nil => cases hd
            | cons b p => cases hd
          · rw [entryAt_none (by
              show dget (byName mergeOuter) a = none
              unfold mergeOuter byName
              rw [List.map_cons, dget_cons, if_neg (fun h => ha h.symm), List.map_cons, dget_cons,
                if_neg (fun h => hc h.symm)]
              rfl)] at hd
            cases hd
    rw [hone p d hd]
    exact ⟨mergeInner, by decide +kernel⟩

/-- A path through the file `c`, and a file in the place of the directory `a` are
conflicts, as in the hypotheses of `C40_conflict_partial`. -/
example : ¬ Clear sampleCfg mergeRepo.log c!"r" [⟨[c!"c", c!"x"], hashB, false⟩] mergeOuter ∧
    ¬ Clear sampleCfg mergeRepo.log c!"r" [⟨[c!"a"], hashB, false⟩] mergeOuter := by
  constructor
  · intro h
    have := h.runs _ (List.mem_cons_self ..) [c!"c"] [c!"x"] rfl (by simp) (by simp) false hashA rfl
    cases this
  · intro h
    have := h.kinds _ (List.mem_cons_self ..) true (sampleCfg.hash (.tree mergeInner)) rfl
    cases this

/-- C40 is false for names that git prints in quotes: a stored tree has one file `ä`, and
a new hash is given for it.  The call succeeds and stores a tree with two entries of
that name, the old one and the new one. -/
theorem C40_false : ∃ (C : Cfg) (r : Realm) (s : Repo) (old : List TreeEntry) (i : PathInfo),
    findObj C s.log r (C.hash (.tree old)) = some (.tree old) ∧
    entryAt C s.log r old [c!"ä"] = some (false, hashA) ∧
    i = ⟨[c!"ä"], hashB, false⟩ ∧
    ∃ root s1 h s2, getDir C r (C.hash (.tree old)) s = (.ok root, s1) ∧
      addPaths C 9 r [i] root s1 = (.ok h, s2) ∧
      findObj C s2.log r h = some (.tree [⟨false, hashA, c!"ä"⟩, ⟨false, hashB, c!"ä"⟩]) := by
  have h0 : findObj sampleCfg [.save c!"r" (.tree [⟨false, hashA, c!"ä"⟩])] c!"r"
      (sampleCfg.hash (.tree [⟨false, hashA, c!"ä"⟩])) = some (.tree [⟨false, hashA, c!"ä"⟩]) := by
    decide +kernel
  refine ⟨sampleCfg, c!"r", ⟨[.save c!"r" (.tree [⟨false, hashA, c!"ä"⟩])], []⟩, [⟨false, hashA, c!"ä"⟩], _,
    h0, by decide, rfl, [⟨false, hashA, c!"ä"⟩].map TreeEntry.raw,
    ⟨[.save c!"r" (.tree [⟨false, hashA, c!"ä"⟩])], []⟩, ?_⟩
  refine ⟨_, _, getDir_works rfl ⟨by decide, by decide, by decide⟩ ?_, of_gOk
    (a := sampleCfg.hash (.tree [⟨false, hashA, c!"ä"⟩, ⟨false, hashB, c!"ä"⟩])) (by decide +kernel),
    by decide +kernel⟩
  rw [resolve_hash (sampleCfg.valid _)]
  exact h0

end MM
