/-
The locked part of a flush while other processes run.
-/
import Verif.Concurrent

namespace MM

/-! ### What the locked part stores -/

/-- Only well-formed trees were stored, in the given repository. -/
def TreeSaves (r : Realm) (K : Log) : Prop := ∀ op ∈ K, ∃ es, op = .save r (.tree es) ∧ WellTree es

theorem TreeSaves.nil (r : Realm) : TreeSaves r [] := fun op h => by cases h

theorem TreeSaves.append {r : Realm} {K K' : Log} (h : TreeSaves r K) (h' : TreeSaves r K') : TreeSaves r (K ++ K') := by
  intro op hop
  rcases List.mem_append.mp hop with hop | hop
  · exact h op hop
  · exact h' op hop

theorem TreeSaves.well {r : Realm} {K L : Log} (h : TreeSaves r K) (hw : WellTrees L r) : WellTrees (K ++ L) r := by
  intro es hes
  rcases List.mem_append.mp hes with hes | hes
  · obtain ⟨es', h1, h2⟩ := h _ hes
    cases h1
    exact h2
  · exact hw es hes

/-- The log grew by trees. -/
def TreesAdded (r : Realm) (a b : Log) : Prop := ∃ K, b = K ++ a ∧ TreeSaves r K

theorem TreesAdded.refl (r : Realm) (a : Log) : TreesAdded r a a := ⟨[], rfl, TreeSaves.nil r⟩

theorem TreesAdded.trans {r : Realm} {a b c : Log} (h : TreesAdded r a b) (h' : TreesAdded r b c) : TreesAdded r a c := by
  obtain ⟨K, rfl, h1⟩ := h
  obtain ⟨K', rfl, h2⟩ := h'
  exact ⟨K' ++ K, by rw [List.append_assoc], h2.append h1⟩

theorem TreesAdded.well {r : Realm} {a b : Log} (h : TreesAdded r a b) (hw : WellTrees a r) : WellTrees b r := by
  obtain ⟨K, rfl, h⟩ := h
  exact h.well hw

theorem addDirs_trees {C : Cfg} {r : Realm} {rec : List PathInfo → List TreeEntry → G Str}
    (hrec : ∀ infos es s h s', (∀ i ∈ infos, WellInfo i) → WellTrees s.log r → WellTree es →
      rec infos (es.map TreeEntry.raw) s = (.ok h, s') → Adds C r infos es s s' h)
    (hany : ∀ infos es s, (∀ i ∈ infos, WellInfo i) → WellTrees s.log r → WellTree es →
      TreesAdded r s.log (rec infos (es.map TreeEntry.raw) s).2.log)
    {dT : List (Str × (Bool × Str))} (hT : WellDict dT) :
    ∀ {ds : List (Str × List PathInfo)} {d : List (Str × (Bool × Str))} {s : Repo},
    (∀ x ∈ ds, gitQuote x.1 = x.1 ∧ '/' ∉ x.1 ∧ ∀ i ∈ x.2, WellInfo i) →
    WellDict d → WellTrees s.log r →
    TreesAdded r s.log (addDirs C rec r (tab dT) ds (tab d) s).2.log := by
  intro ds
  induction ds with
  | nil => intro d s _ _ _; exact TreesAdded.refl r _
  | cons x ds ih =>
    intro d s hx hd hw
    obtain ⟨n, subs⟩ := x
    obtain ⟨hq, hsl, hwi⟩ := hx (n, subs) (List.mem_cons_self ..)
    simp only at hq hsl hwi
    have hlog1 : (subDir C r (tab dT) n s).2.log = s.log := by
      unfold subDir
      cases dget (tab dT) n with
      | none => rfl
      | some e =>
        simp only
        by_cases ht : e.isTree = true
        · rw [if_pos ht]; exact (getDir_cases hw).1
        · rw [if_neg ht]; rfl
    unfold addDirs
    cases h1 : subDir C r (tab dT) n s with
    | mk o s1 =>
      rw [h1] at hlog1
      simp only at hlog1
      cases o with
      | error e =>
        rw [M.bind_of_error h1]
        simp only [hlog1]
        exact TreesAdded.refl r _
      | ok root =>
        rw [M.bind_of_ok h1]
        obtain ⟨_, es0, rfl, hes0, _⟩ := subDir_ok hT hq hw h1
        have a1 := hany subs es0 s1 hwi (by rw [hlog1]; exact hw) hes0
        rw [hlog1] at a1
        cases h2 : rec subs (es0.map TreeEntry.raw) s1 with
        | mk o s2 =>
          rw [h2] at a1
          cases o with
          | error e => rw [M.bind_of_error h2]; exact a1
          | ok hash =>
            rw [M.bind_of_ok h2]
            obtain ⟨g1, w1, es1, rfl, st1, m1⟩ := hrec subs es0 s1 hash s2 hwi (by rw [hlog1]; exact hw) hes0 h2
            have hds := dset_tab d n true (C.hash (.tree es1))
            rw [hq] at hds
            rw [hds]
            exact a1.trans (ih (fun y hy => hx y (List.mem_cons_of_mem _ hy))
              (hd.dset (C.valid _) ⟨hsl, plain_nul hq⟩) w1)

/-- The names of the directories, and the paths below them, are well-formed. -/
theorem dirInfos_well {infos : List PathInfo} (hi : ∀ i ∈ infos, WellInfo i)
    (hne : ∀ i ∈ infos, i.elements.isEmpty = false) :
    ∀ x ∈ dirInfos infos, gitQuote x.1 = x.1 ∧ '/' ∉ x.1 ∧ ∀ i ∈ x.2, WellInfo i := by
  intro x hx
  obtain ⟨m, subs⟩ := x
  have hk : m ∈ dkeys (dirInfos infos) := List.mem_map.mpr ⟨_, hx, rfl⟩
  obtain ⟨i, hi1, hi2⟩ := dirInfos_key.mp hk
  obtain ⟨hi3, hi4⟩ := mem_deepInfos.mp hi1
  obtain ⟨b, l, e1, e2⟩ := deep_elements (hne i hi3) hi4
  have hp := (hi i hi3).plain m (by rw [e1, hi2]; exact List.mem_cons_self ..)
  refine ⟨hp.1, hp.2, ?_⟩
  intro j hj
  obtain ⟨k, k1, _, _, rfl⟩ := (mem_subs hx).mp hj
  exact ⟨(hi k k1).hash, fun y hy => (hi k k1).plain y (List.mem_of_mem_drop hy)⟩

theorem not_any_empty {infos : List PathInfo} (hem : ¬ (infos.any fun i => i.elements.isEmpty) = true) :
    ∀ i ∈ infos, i.elements.isEmpty = false := by
  intro i hi
  cases hx : i.elements.isEmpty with
  | false => rfl
  | true => exact absurd (List.any_eq_true.mpr ⟨i, hi, hx⟩) hem

theorem writeDir_trees {C : Cfg} {r : Realm} {d : List (Str × (Bool × Str))} (hd : WellDict d) (s : Repo) :
    TreesAdded r s.log (writeDir C r ((tab d).map Prod.snd) s).2.log := by
  obtain ⟨k, hk⟩ : ∃ k, (writeDir C r ((tab d).map Prod.snd) s).2.log =
    ((match mktree (rawSpec ((tab d).map Prod.snd)) with
      | some es' => ([GitOp.save r (.tree es')], (.ok (C.hash (.tree es')) : Except PyErr Str))
      | none => ([], .error .runtime)).1.take k).reverse ++ s.log := gitCmd_log _ s
  refine ⟨_, hk, ?_⟩
  intro op hop
  have hop' := List.mem_of_mem_take (List.mem_reverse.mp hop)
  rw [tab_values] at hop'
  by_cases hne : ents d = []
  · rw [hne] at hop'
    have : mktree (rawSpec (([] : List TreeEntry).map TreeEntry.raw)) = none := by decide
    rw [this] at hop'
    cases hop'
  · rw [mktree_rawSpec hne hd.tree.hashes hd.tree.names] at hop'
    simp only [List.mem_singleton] at hop'
    exact ⟨_, hop', hd.tree.perm (sortEntries_perm _)⟩

/-- Whatever happens, adding paths stores well-formed trees only. -/
theorem addPaths_trees {C : Cfg} {r : Realm} (n : Nat) : ∀ (infos : List PathInfo) (es : List TreeEntry)
    (s : Repo), (∀ i ∈ infos, WellInfo i) → WellTrees s.log r → WellTree es →
    TreesAdded r s.log (addPaths C n r infos (es.map TreeEntry.raw) s).2.log := by
  induction n with
  | zero => intro infos es s _ _ _; exact TreesAdded.refl r _
  | succ n ih =>
    intro infos es s hi hw hes
    unfold addPaths
    rw [table_raw hes.nodup]
    simp only
    by_cases hem : (infos.any fun i => i.elements.isEmpty) = true
    · rw [if_pos hem]; exact TreesAdded.refl r _
    rw [if_neg hem]
    have hne := not_any_empty hem
    by_cases hv : ¬ validInfos infos = true
    · rw [if_neg hv]; exact TreesAdded.refl r _
    rw [Classical.not_not] at hv
    rw [if_pos hv]
    obtain ⟨v1, v2⟩ := validInfos_ok hv
    cases h1 : addLeaves (tab (byName es)) (infos.filter PathInfo.isLeaf) (tab (byName es)) with
    | error e => exact TreesAdded.refl r _
    | ok acc =>
      rw [M.bind_of_ok (M.ofExcept_ok acc s)]
      have hT := hes.dict
      obtain ⟨d1, rfl, a1, a2, a3, a4⟩ := addLeaves_ok
        (fun i hx => ⟨hi i (List.mem_filter.mp hx).1, (List.mem_filter.mp hx).2⟩) v2 hT h1
      have hsubs := dirInfos_well hi hne
      have b0 := addDirs_trees (addPaths_ok n) ih hT hsubs a1 hw
      cases h2 : addDirs C (addPaths C n r) r (tab (byName es)) (dirInfos infos) (tab d1) s with
      | mk o s1 =>
        rw [h2] at b0
        cases o with
        | error e => rw [M.bind_of_error h2]; exact b0
        | ok acc2 =>
          rw [M.bind_of_ok h2]
          obtain ⟨d2, rfl, b1, b2, b3, b4, b5⟩ := addDirs_ok (addPaths_ok n) hT hsubs (nodup_fromItems _) a1 hw h2
          exact b0.trans (writeDir_trees b1 s1)

/-- What the part after reading has changed at any time: trees were stored, and at the end
the reference may have been set to a tree that holds the old entries and the new ones. -/
def FlushShape (C : Cfg) (r : Realm) (infos : List PathInfo) (old : List TreeEntry) (O Ls : Log) : Prop :=
  TreeSaves r O ∨ ∃ K new, O = .setRef r objectRefName (C.hash (.tree new)) :: K ∧ TreeSaves r K ∧
    Stored (K ++ Ls) r (.tree new) ∧ Merged C (K ++ Ls) r infos old new

/-- The reference was set. -/
def FlushSet (C : Cfg) (r : Realm) (infos : List PathInfo) (old : List TreeEntry) (O Ls : Log) : Prop :=
  ∃ K new, O = .setRef r objectRefName (C.hash (.tree new)) :: K ∧ TreeSaves r K ∧
    Stored (K ++ Ls) r (.tree new) ∧ Merged C (K ++ Ls) r infos old new

theorem restRefs_any {C : Cfg} {r : Realm} {infos : List PathInfo} {old : List TreeEntry} {s s' : RefState}
    {o : Except PyErr Unit} (hw : WellTrees s.repo.log r) (hi : ∀ i ∈ infos, WellInfo i) (hold : WellTree old)
    (hr : restRefs C r infos (old.map TreeEntry.raw) s = (o, s')) :
    ∃ O, s'.repo.log = O ++ s.repo.log ∧ FlushShape C r infos old O s.repo.log ∧
      (o = .ok () → FlushSet C r infos old O s.repo.log) := by
  unfold restRefs at hr
  have hl := liftR_run (addPaths C 1000 r infos (old.map TreeEntry.raw)) s
  have ht := addPaths_trees (C := C) 1000 infos old s.repo hi hw hold
  cases hp : addPaths C 1000 r infos (old.map TreeEntry.raw) s.repo with
  | mk x mid =>
    rw [hp] at hl ht
    simp only at hl ht
    obtain ⟨K, hK, hKt⟩ := ht
    cases x with
    | error e =>
      rw [M.bind_of_error hl] at hr
      cases hr
      exact ⟨K, hK, Or.inl hKt, (fun h => by cases h)⟩
    | ok h =>
      rw [M.bind_of_ok hl, liftR_run] at hr
      obtain ⟨g, w, new, rfl, st, m⟩ := addPaths_ok 1000 infos old s.repo h mid hi hw hold hp
      simp only at hr
      cases hr
      have hset : FlushSet C r infos old (.setRef r objectRefName (C.hash (.tree new)) :: K) s.repo.log :=
        ⟨K, new, rfl, hKt, by rw [← hK]; exact st, by rw [← hK]; exact m⟩
      rcases gitUpdateRef_outcome (C := C) (r := r) (name := objectRefName) (h := C.hash (.tree new)) (s := mid)
          with hu | hu
      · refine ⟨K, by simp only; rw [hu, hK], Or.inl hKt, ?_⟩
        intro ho
        have hu' := gitUpdateRef_sets (C := C) (r := r) (name := objectRefName) (h := C.hash (.tree new)) (s := mid)
          (s' := (gitUpdateRef C r objectRefName (C.hash (.tree new)) mid).2) (by rw [← ho])
        rw [hu] at hu'
        have := congrArg List.length hu'
        simp at this
      · exact ⟨_, by simp only; rw [hu, hK]; rfl, Or.inr hset, fun _ => hset⟩

/-- The same for the program -/
theorem restP_any {C : Cfg} {r : Realm} {infos : List PathInfo} {old : List TreeEntry} (st : RefSets) {repo : Repo}
    (hw : WellTrees repo.log r) (hi : ∀ i ∈ infos, WellInfo i) (hold : WellTree old) :
    ∃ O, ((restP C r infos (old.map TreeEntry.raw) st).run repo).2.log = O ++ repo.log ∧
      FlushShape C r infos old O repo.log ∧
      (((restP C r infos (old.map TreeEntry.raw) st).run repo).1.1 = .ok () →
        FlushSet C r infos old O repo.log) := by
  obtain ⟨c, k⟩ := st
  rw [mirrors_rest C r infos (old.map TreeEntry.raw) repo c k]
  simp only
  exact restRefs_any (s := ⟨repo, c, k⟩) hw hi hold rfl

/-! ### Programs that other processes do not disturb -/

/-- The git commands of the program give the same when more objects are stored, or they
fail; results satisfy `Q`. -/
def Steady {α : Type} (C : Cfg) (r : Realm) (Q : α → Prop) : Prog α → Prop
  | .done a => Q a
  | .git _ ops next failed =>
    (∀ L L', Grows L L' → CollisionFree C L' → WellTrees L r → WellTrees L' r →
      (ops L' = ops L ∧ next L' = next L) ∨ (ops L = [] ∧ next L = failed)) ∧
    (∀ L, WellTrees L r → Steady C r Q (next L)) ∧ Steady C r Q failed
  | .lock _ _ => False
  | .unlock _ _ => False

theorem Steady.bind {α β : Type} {C : Cfg} {r : Realm} {Q : α → Prop} {Q' : β → Prop} {f : α → Prog β}
    (hf : ∀ a, Q a → Steady C r Q' (f a)) : ∀ {p : Prog α}, Steady C r Q p → Steady C r Q' (p.bind f) := by
  intro p
  induction p with
  | done a => intro h; exact hf a h
  | git t ops next failed ih1 ih2 =>
    rintro ⟨h1, h2, h3⟩
    refine ⟨?_, fun L hL => ih1 L (h2 L hL), ih2 h3⟩
    intro L L' a b c d
    rcases h1 L L' a b c d with ⟨e1, e2⟩ | ⟨e1, e2⟩
    · exact Or.inl ⟨e1, congrArg (Prog.bind · f) e2⟩
    · exact Or.inr ⟨e1, congrArg (Prog.bind · f) e2⟩
  | lock => intro h; exact h.elim
  | unlock => intro h; exact h.elim

/-- The same for programs with sets and exceptions; the sets are left alone. -/
def SteadyP {α : Type} (C : Cfg) (r : Realm) (Q : α → Prop) (x : P α) : Prop :=
  ∀ s, Steady C r (fun a : Except PyErr α × RefSets => a.2 = s ∧ ∀ v, a.1 = .ok v → Q v) (x s)

theorem SteadyP.bind {α β : Type} {C : Cfg} {r : Realm} {Q : α → Prop} {Q' : β → Prop} {x : P α} {f : α → P β}
    (hx : SteadyP C r Q x) (hf : ∀ a, Q a → SteadyP C r Q' (f a)) : SteadyP C r Q' (x >>= f) := by
  intro s
  refine Steady.bind (fun a ha => ?_) (hx s)
  obtain ⟨o, s'⟩ := a
  obtain ⟨rfl, ha⟩ := ha
  cases o with
  | ok a => exact hf a (ha a rfl) _
  | error e => exact ⟨rfl, fun v hv => by cases hv⟩

theorem SteadyP.only {α : Type} {C : Cfg} {r : Realm} {Q : α → Prop} {x : M RefSets α}
    (hs : ∀ s, (x s).2 = s) (h : ∀ s v, (x s).1 = .ok v → Q v) : SteadyP C r Q (P.only x) := fun s => ⟨hs s, h s⟩

theorem SteadyP.pure {α : Type} {C : Cfg} {r : Realm} {Q : α → Prop} {a : α} (h : Q a) : SteadyP C r Q (P.pure a) :=
  fun _ => ⟨rfl, fun v hv => by cases hv; exact h⟩

theorem SteadyP.git {α : Type} {C : Cfg} {r : Realm} {Q : α → Prop} {cmd : Log → List GitOp × Except PyErr α} {b : Bool}
    (h1 : ∀ L L', Grows L L' → CollisionFree C L' → WellTrees L r → WellTrees L' r →
      cmd L' = cmd L ∨ cmd L = ([], .error .runtime))
    (h2 : ∀ L, WellTrees L r → ∀ v, (cmd L).2 = .ok v → Q v) : SteadyP C r Q (P.git cmd b) := by
  intro s
  refine ⟨?_, fun L hL => ⟨rfl, fun v hv => h2 L hL v hv⟩, ⟨rfl, fun v hv => by cases hv⟩⟩
  intro L L' a b c d
  rcases h1 L L' a b c d with e | e
  · exact Or.inl ⟨by simp only [e], by simp only [e]⟩
  · exact Or.inr ⟨by simp only [e], by simp only [e]⟩

theorem steady_getDir {C : Cfg} {r : Realm} {h : Str} (hh : isHash h = true) :
    SteadyP C r (fun root => ∃ es, WellTree es ∧ root = es.map TreeEntry.raw) (getDirP C r h) := by
  refine SteadyP.git ?_ ?_
  · intro L L' hg hc hw hw'
    rcases treeAt_cases C L r h with ⟨es, h1, h2⟩ | ⟨h1, _⟩
    · left
      rw [resolve_hash hh] at h2
      have h3 : treeAt C L' r h = .ok es := by
        unfold treeAt
        rw [resolve_hash hh, findObj_mono hg hc h2]
      simp only [h1, h3]
    · right
      simp only [h1]
      rfl
  · intro L hw v hv
    rcases treeAt_cases C L r h with ⟨es, h1, h2⟩ | ⟨h1, _⟩
    · have hwt := hw es (resolve_is_stored h2)
      simp only [h1] at hv
      have : eachOk dirLine (splitlines (catTree es)) = .ok v := hv
      rw [dirLines_ok hwt.hashes] at this
      cases this
      exact ⟨es, hwt, rfl⟩
    · simp only [h1] at hv
      cases hv

theorem steady_subDir {C : Cfg} {r : Realm} {dT : List (Str × (Bool × Str))} (hT : WellDict dT) {n : Str}
    (hq : gitQuote n = n) :
    SteadyP C r (fun root => ∃ es, WellTree es ∧ root = es.map TreeEntry.raw) (subDirP C r (tab dT) n) := by
  unfold subDirP
  have hg := dget_tab dT n
  rw [hq] at hg
  rw [hg]
  cases hd : dget dT n with
  | none => exact SteadyP.pure ⟨[], WellTree.nil, rfl⟩
  | some x =>
    obtain ⟨t, h⟩ := x
    simp only [Option.map_some]
    cases t with
    | false => exact SteadyP.only (fun _ => rfl) (fun s v hv => by cases hv)
    | true => exact steady_getDir (hT.hashes _ (mem_of_dget hd))

theorem steady_addDirs {C : Cfg} {r : Realm} {rec : List PathInfo → List TreeEntry → P Str}
    (hrec : ∀ infos es, (∀ i ∈ infos, WellInfo i) → WellTree es →
      SteadyP C r (fun h => isHash h = true) (rec infos (es.map TreeEntry.raw)))
    {dT : List (Str × (Bool × Str))} (hT : WellDict dT) :
    ∀ {ds : List (Str × List PathInfo)} {d : List (Str × (Bool × Str))},
    (∀ x ∈ ds, gitQuote x.1 = x.1 ∧ '/' ∉ x.1 ∧ ∀ i ∈ x.2, WellInfo i) → WellDict d →
    SteadyP C r (fun acc => ∃ d', acc = tab d' ∧ WellDict d') (addDirsP C rec r (tab dT) ds (tab d)) := by
  intro ds
  induction ds with
  | nil => intro d _ hd; exact SteadyP.pure ⟨d, rfl, hd⟩
  | cons x ds ih =>
    intro d hx hd
    obtain ⟨n, subs⟩ := x
    obtain ⟨hq, hsl, hwi⟩ := hx (n, subs) (List.mem_cons_self ..)
    simp only at hq hsl hwi
    unfold addDirsP
    refine SteadyP.bind (steady_subDir hT hq) ?_
    rintro root ⟨es, hes, rfl⟩
    refine SteadyP.bind (hrec subs es hwi hes) fun h hh => ?_
    have hds := dset_tab d n true h
    rw [hq] at hds
    rw [hds]
    exact ih (fun y hy => hx y (List.mem_cons_of_mem _ hy)) (hd.dset hh ⟨hsl, plain_nul hq⟩)

theorem steady_writeDir {C : Cfg} {r : Realm} (es : List TreeEntry) :
    SteadyP C r (fun h => isHash h = true) (writeDirP C r es) := by
  refine SteadyP.git (fun L L' _ _ _ _ => Or.inl rfl) ?_
  intro L _ v hv
  cases hm : mktree (rawSpec es) with
  | none => rw [hm] at hv; cases hv
  | some es' => rw [hm] at hv; cases hv; exact C.valid _

theorem steady_addPaths {C : Cfg} {r : Realm} (n : Nat) : ∀ (infos : List PathInfo) (es : List TreeEntry),
    (∀ i ∈ infos, WellInfo i) → WellTree es →
    SteadyP C r (fun h => isHash h = true) (addPathsP C n r infos (es.map TreeEntry.raw)) := by
  induction n with
  | zero => intro infos es _ _; exact SteadyP.only (fun _ => rfl) (fun s v hv => by cases hv)
  | succ n ih =>
    intro infos es hi hes
    unfold addPathsP
    rw [table_raw hes.nodup]
    simp only
    by_cases hem : (infos.any fun i => i.elements.isEmpty) = true
    · rw [if_pos hem]; exact SteadyP.only (fun _ => rfl) (fun s v hv => by cases hv)
    rw [if_neg hem]
    have hne := not_any_empty hem
    by_cases hv : ¬ validInfos infos = true
    · rw [if_neg hv]; exact SteadyP.only (fun _ => rfl) (fun s v hv => by cases hv)
    rw [Classical.not_not] at hv
    rw [if_pos hv]
    obtain ⟨v1, v2⟩ := validInfos_ok hv
    refine SteadyP.bind (Q := fun acc => ∃ d', acc = tab d' ∧ WellDict d') (SteadyP.only (fun s => ?_) ?_) ?_
    · cases addLeaves (tab (byName es)) (infos.filter PathInfo.isLeaf) (tab (byName es)) <;> rfl
    · intro s acc hacc
      cases h1 : addLeaves (tab (byName es)) (infos.filter PathInfo.isLeaf) (tab (byName es)) with
      | error e => rw [h1] at hacc; cases hacc
      | ok acc' =>
        rw [h1] at hacc
        cases hacc
        obtain ⟨d1, h2, h3, _⟩ := addLeaves_ok
          (fun i hx => ⟨hi i (List.mem_filter.mp hx).1, (List.mem_filter.mp hx).2⟩) v2 hes.dict h1
        exact ⟨d1, h2, h3⟩
    · rintro acc ⟨d1, rfl, hd1⟩
      refine SteadyP.bind (steady_addDirs ih hes.dict (dirInfos_well hi hne) hd1) ?_
      rintro acc ⟨d2, rfl, hd2⟩
      exact steady_writeDir _

theorem steady_updateRef {C : Cfg} {r : Realm} {name h : Str} (hh : isHash h = true) :
    SteadyP C r (fun _ => True) (updateRefP C r name h) := by
  refine SteadyP.git ?_ (fun _ _ _ _ => trivial)
  intro L L' hg hc _ _
  simp only [resolve_hash hh]
  cases hf : findObj C L r h with
  | none => exact Or.inr rfl
  | some o => rw [findObj_mono hg hc hf]; exact Or.inl rfl

theorem steady_rest {C : Cfg} {r : Realm} {infos : List PathInfo} {old : List TreeEntry} (hi : ∀ i ∈ infos, WellInfo i)
    (hold : WellTree old) : SteadyP C r (fun _ => True) (restP C r infos (old.map TreeEntry.raw)) :=
  SteadyP.bind (steady_addPaths 1000 infos old hi hold) fun _ hh => steady_updateRef hh

/-! ### Runs with other processes -/

/-- Changes that other processes make while this one holds the lock: objects are stored and
other references are changed. -/
def Harmless (r : Realm) : GitOp → Prop
  | .save r' (.tree es) => r' = r → WellTree es
  | .save _ (.blob _) => True
  | .setRef r' n _ => ¬ (r' = r ∧ n = objectRefName)
  | .delRef r' n => ¬ (r' = r ∧ n = objectRefName)

theorem refOf_harmless {r : Realm} {E : Log} (h : ∀ op ∈ E, Harmless r op) (L : Log) :
    refOf (E ++ L) r objectRefName = refOf L r objectRefName := by
  induction E with
  | nil => rfl
  | cons op E ih =>
    have h1 := h op (List.mem_cons_self ..)
    have h2 := ih fun x hx => h x (List.mem_cons_of_mem _ hx)
    cases op with
    | save r' o => exact h2
    | setRef r' n x =>
      show (if r' = r ∧ n = objectRefName then some x else refOf (E ++ L) r objectRefName) = _
      rw [if_neg h1]; exact h2
    | delRef r' n =>
      show (if r' = r ∧ n = objectRefName then none else refOf (E ++ L) r objectRefName) = _
      rw [if_neg h1]; exact h2

theorem wellTrees_harmless {r : Realm} {E L : Log} (h : ∀ op ∈ E, Harmless r op) (hw : WellTrees L r) :
    WellTrees (E ++ L) r := by
  intro es hes
  rcases List.mem_append.mp hes with hes | hes
  · exact h _ hes rfl
  · exact hw es hes

/-- From program `p` and repository `L` to program `q` and repository `L'`: steps of the
program, and changes by others in between. -/
inductive PRun {α : Type} (r : Realm) : Prog α → Log → Prog α → Log → Prop
  | refl (p : Prog α) (L : Log) : PRun r p L p L
  | env {p q : Prog α} {L L' : Log} (E : Log) : (∀ op ∈ E, Harmless r op) → PRun r p (E ++ L) q L' → PRun r p L q L'
  | works {t : Bool} {ops : Log → List GitOp} {next : Log → Prog α} {failed q : Prog α} {L L' : Log} :
      PRun r (next L) ((ops L).reverse ++ L) q L' → PRun r (.git t ops next failed) L q L'
  | fails {t : Bool} {ops : Log → List GitOp} {next : Log → Prog α} {failed q : Prog α} {L L' : Log} (k : Nat) :
      PRun r failed (((ops L).take k).reverse ++ L) q L' → PRun r (.git t ops next failed) L q L'

theorem PRun.trans {α : Type} {r : Realm} {p q u : Prog α} {L L' L'' : Log} (h : PRun r p L q L')
    (h' : PRun r q L' u L'') : PRun r p L u L'' := by
  induction h with
  | refl => exact h'
  | env E hE _ ih => exact .env E hE (ih h')
  | works _ ih => exact .works (ih h')
  | fails k _ ih => exact .fails k (ih h')

theorem PRun.suffix {α : Type} {r : Realm} {p q : Prog α} {L L' : Log} (h : PRun r p L q L') : L <:+ L' := by
  induction h with
  | refl => exact List.suffix_refl _
  | env E _ _ ih => exact (List.suffix_append E _).trans ih
  | works _ ih => exact (List.suffix_append _ _).trans ih
  | fails k _ ih => exact (List.suffix_append _ _).trans ih

theorem WellTrees.before {r : Realm} {L L' : Log} (h : WellTrees L' r) (hg : Grows L L') : WellTrees L r :=
  fun es hes => h es (hg r _ hes)

theorem PRun.grows {α : Type} {r : Realm} {p q : Prog α} {L L' : Log} (h : PRun r p L q L') : Grows L L' :=
  grows_of_suffix h.suffix

theorem PRun.steady {α : Type} {C : Cfg} {r : Realm} {Q : α → Prop} {p q : Prog α} {L L' : Log} (h : PRun r p L q L')
    (hs : Steady C r Q p) (hw : WellTrees L' r) : Steady C r Q q := by
  induction h with
  | refl => exact hs
  | env _ _ _ ih => exact ih hs hw
  | works hrun ih => exact ih (hs.2.1 _ (hw.before ((grows_append _ _).trans hrun.grows))) hw
  | fails k _ ih => exact ih hs.2.2 hw

/-- Two logs hold the same objects, and the same reference to the tree of object
references. -/
structure SameStore (r : Realm) (L L' : Log) : Prop where
  stored : ∀ r' o, Stored L r' o ↔ Stored L' r' o
  ref : refOf L r objectRefName = refOf L' r objectRefName

theorem SameStore.refl (r : Realm) (L : Log) : SameStore r L L := ⟨fun _ _ => Iff.rfl, rfl⟩

theorem SameStore.grows {r : Realm} {L L' : Log} (h : SameStore r L L') : Grows L L' := fun r' o => (h.stored r' o).mp

theorem SameStore.symm {r : Realm} {L L' : Log} (h : SameStore r L L') : SameStore r L' L :=
  ⟨fun r' o => (h.stored r' o).symm, h.ref.symm⟩

theorem SameStore.append {r : Realm} {L L' : Log} (h : SameStore r L L') (X : Log) : SameStore r (X ++ L) (X ++ L') := by
  constructor
  · intro r' o
    simp only [Stored, List.mem_append]
    rw [show GitOp.save r' o ∈ L ↔ GitOp.save r' o ∈ L' from h.stored r' o]
  · induction X with
    | nil => exact h.ref
    | cons op X ih =>
      cases op with
      | save r' o => exact ih
      | setRef r' n x =>
        show (if r' = r ∧ n = objectRefName then some x else refOf (X ++ L) r objectRefName) =
          if r' = r ∧ n = objectRefName then some x else refOf (X ++ L') r objectRefName
        rw [ih]
      | delRef r' n =>
        show (if r' = r ∧ n = objectRefName then none else refOf (X ++ L) r objectRefName) =
          if r' = r ∧ n = objectRefName then none else refOf (X ++ L') r objectRefName
        rw [ih]

theorem SameStore.well {r : Realm} {L L' : Log} (h : SameStore r L L') (hw : WellTrees L r) : WellTrees L' r :=
  fun es hes => hw es ((h.stored r _).mpr hes)

/-- A step gives the same where more is stored, or it is a failure. -/
theorem steady_step {α : Type} {C : Cfg} {r : Realm} {Q : α → Prop} {t : Bool} {ops : Log → List GitOp}
    {next : Log → Prog α} {failed : Prog α} (hs : Steady C r Q (.git t ops next failed)) {L Ls : Log}
    (hg : Grows L Ls) (hc : CollisionFree C Ls) (hw : WellTrees L r) (hws : WellTrees Ls r) :
    (∃ f, ∀ fs, (Prog.git t ops next failed).run ⟨Ls, f :: fs⟩ = (next L).run ⟨(ops L).reverse ++ Ls, fs⟩) ∧
    ∀ k, ∃ f, ∀ fs, (Prog.git t ops next failed).run ⟨Ls, f :: fs⟩ = failed.run ⟨((ops L).take k).reverse ++ Ls, fs⟩ := by
  rcases hs.1 L Ls hg hc hw hws with ⟨e1, e2⟩ | ⟨e1, e2⟩
  · refine ⟨⟨.none, fun fs => ?_⟩, fun k => ⟨.fail k, fun fs => ?_⟩⟩
    · simp only [Prog.run, e1, e2]
    · simp only [Prog.run, e1]
  · refine ⟨⟨.fail 0, fun fs => ?_⟩, fun k => ⟨.fail 0, fun fs => ?_⟩⟩
    · simp only [Prog.run, e1, e2, List.take_zero, List.reverse_nil]
    · simp only [Prog.run, e1, List.take_zero, List.take_nil, List.reverse_nil]

/-- A step that is the same for two logs that hold the same -/
theorem stored_after {X L E Ls : Log} (h : ∀ r' o, Stored Ls r' o ↔ Stored L r' o ∨ Stored E r' o) :
    ∀ r' o, Stored (X ++ Ls) r' o ↔ Stored (X ++ L) r' o ∨ Stored E r' o := by
  intro r' o
  have := h r' o
  simp only [Stored, List.mem_append] at this ⊢
  rw [this, or_assoc]

theorem refOf_after {r : Realm} (X : Log) {L Ls : Log} (h : refOf Ls r objectRefName = refOf L r objectRefName) :
    refOf (X ++ Ls) r objectRefName = refOf (X ++ L) r objectRefName := by
  induction X with
  | nil => exact h
  | cons op X ih =>
    cases op with
    | save r' o => exact ih
    | setRef r' n x =>
      show (if r' = r ∧ n = objectRefName then some x else refOf (X ++ Ls) r objectRefName) =
        if r' = r ∧ n = objectRefName then some x else refOf (X ++ L) r objectRefName
      rw [ih]
    | delRef r' n =>
      show (if r' = r ∧ n = objectRefName then none else refOf (X ++ Ls) r objectRefName) =
        if r' = r ∧ n = objectRefName then none else refOf (X ++ L) r objectRefName
      rw [ih]

/-- A run with other processes is a run without them, from a repository where all that
they stored is there from the start, with some failures of git. -/
theorem PRun.simulated {α : Type} {C : Cfg} {r : Realm} {Q : α → Prop} {p q : Prog α} {L L' : Log}
    (h : PRun r p L q L') (hs : Steady C r Q p) (hc : CollisionFree C L') (hw : WellTrees L' r) :
    ∃ E : Log, (∀ op ∈ E, Harmless r op) ∧ Grows E L' ∧ ∀ Ls,
      (∀ r' o, Stored Ls r' o ↔ Stored L r' o ∨ Stored E r' o) →
      refOf Ls r objectRefName = refOf L r objectRefName →
      ∃ O fs, (∀ fs', p.run ⟨Ls, fs ++ fs'⟩ = q.run ⟨O ++ Ls, fs'⟩) ∧ SameStore r L' (O ++ Ls) := by
  induction h with
  | refl p L =>
    refine ⟨[], (fun op h => by cases h), (fun r' o h => by cases h), ?_⟩
    intro Ls h1 h2
    refine ⟨[], [], fun fs' => rfl, ⟨fun r' o => ?_, h2.symm⟩⟩
    rw [List.nil_append, h1]
    exact ⟨Or.inl, fun h => h.elim id (fun h => by cases h)⟩
  | env E hE hrun ih =>
    obtain ⟨E', g1, g2, g3⟩ := ih hs hc hw
    refine ⟨E' ++ E, ?_, ?_, ?_⟩
    · intro op hop
      rcases List.mem_append.mp hop with h | h
      · exact g1 op h
      · exact hE op h
    · intro r' o ho
      rcases List.mem_append.mp ho with h | h
      · exact g2 r' o h
      · exact hrun.grows r' o (List.mem_append_left _ h)
    · intro Ls h1 h2
      refine g3 Ls ?_ (by rw [h2, refOf_harmless hE])
      intro r' o
      rw [h1]
      simp only [Stored, List.mem_append]
      constructor
      · rintro (h | h | h)
        · exact Or.inl (Or.inr h)
        · exact Or.inr h
        · exact Or.inl (Or.inl h)
      · rintro ((h | h) | h)
        · exact Or.inr (Or.inr h)
        · exact Or.inl h
        · exact Or.inr (Or.inl h)
  | @works t ops next failed q L L' hrun ih =>
    have hLL : Grows L L' := (grows_append _ _).trans hrun.grows
    obtain ⟨E, g1, g2, g3⟩ := ih (hs.2.1 _ (hw.before hLL)) hc hw
    refine ⟨E, g1, g2, fun Ls h1 h2 => ?_⟩
    have hLs : Grows Ls L' := fun r' o ho => ((h1 r' o).mp ho).elim (hLL r' o) (g2 r' o)
    obtain ⟨⟨f, hf⟩, _⟩ := steady_step hs (fun r' o ho => (h1 r' o).mpr (Or.inl ho)) (hc.mono hLs)
      (hw.before hLL) (hw.before hLs)
    obtain ⟨O, fs, k1, k2⟩ := g3 ((ops L).reverse ++ Ls) (stored_after h1) (refOf_after _ h2)
    exact ⟨O ++ (ops L).reverse, f :: fs, fun fs' => by rw [List.cons_append, hf, k1, List.append_assoc],
      by rw [List.append_assoc]; exact k2⟩
  | @fails t ops next failed q L L' k hrun ih =>
    have hLL : Grows L L' := (grows_append _ _).trans hrun.grows
    obtain ⟨E, g1, g2, g3⟩ := ih hs.2.2 hc hw
    refine ⟨E, g1, g2, fun Ls h1 h2 => ?_⟩
    have hLs : Grows Ls L' := fun r' o ho => ((h1 r' o).mp ho).elim (hLL r' o) (g2 r' o)
    obtain ⟨f, hf⟩ := (steady_step hs (fun r' o ho => (h1 r' o).mpr (Or.inl ho)) (hc.mono hLs)
      (hw.before hLL) (hw.before hLs)).2 k
    obtain ⟨O, fs, k1, k2⟩ := g3 (((ops L).take k).reverse ++ Ls) (stored_after h1) (refOf_after _ h2)
    exact ⟨O ++ ((ops L).take k).reverse, f :: fs, fun fs' => by rw [List.cons_append, hf, k1, List.append_assoc],
      by rw [List.append_assoc]; exact k2⟩

/-- A steady program can stop without further changes: all its commands fail. -/
theorem Steady.stops {α : Type} {C : Cfg} {r : Realm} {Q : α → Prop} : ∀ {q : Prog α}, Steady C r Q q → ∀ L,
    ∃ fs, (q.run ⟨L, fs⟩).2.log = L := by
  intro q
  induction q with
  | done a => intro _ L; exact ⟨[], rfl⟩
  | git t ops next failed _ ih =>
    intro h L
    obtain ⟨fs, hfs⟩ := ih h.2.2 L
    exact ⟨.fail 0 :: fs, by simpa only [Prog.run, List.take_zero, List.reverse_nil, List.nil_append] using hfs⟩
  | lock => intro h; exact h.elim
  | unlock => intro h; exact h.elim

/-! ### The locked part -/

section
variable {C : Cfg} {r : Realm} {infos : List PathInfo} {old : List TreeEntry} {st : RefSets} {L0 L : Log}

/-- What has happened in the repository when the locked part has come to some point: the
repository holds what it would hold if the other processes had made their changes before,
and the changes of this process have the right form. -/
structure Critical (C : Cfg) (r : Realm) (infos : List PathInfo) (old : List TreeEntry) (L0 L E O : Log) : Prop where
  harmless : ∀ op ∈ E, Harmless r op
  same : SameStore r L (O ++ (E ++ L0))

theorem PRun.critical {q : Prog (Except PyErr Unit × RefSets)}
    (h : PRun r (restP C r infos (old.map TreeEntry.raw) st) L0 q L) (hi : ∀ i ∈ infos, WellInfo i)
    (hold : WellTree old) (hc : CollisionFree C L) (hw : WellTrees L r) :
    ∃ E O, Critical C r infos old L0 L E O ∧ WellTrees (E ++ L0) r ∧
      ∃ fs, ∀ fs', (restP C r infos (old.map TreeEntry.raw) st).run ⟨E ++ L0, fs ++ fs'⟩ = q.run ⟨O ++ (E ++ L0), fs'⟩ := by
  obtain ⟨E, g1, g2, g3⟩ := h.simulated (steady_rest hi hold st) hc hw
  obtain ⟨O, fs, k1, k2⟩ := g3 (E ++ L0) (fun r' o => by simp only [Stored, List.mem_append]; exact or_comm)
    (refOf_harmless g1 L0)
  refine ⟨E, O, ⟨g1, k2⟩, ?_, fs, k1⟩
  refine hw.before fun r' o ho => ?_
  rcases List.mem_append.mp ho with ho | ho
  · exact g2 r' o ho
  · exact h.grows r' o ho

/-- The changes of the next step have the right form too. -/
theorem PRun.next_step {t : Bool} {ops : Log → List GitOp} {next : Log → Prog (Except PyErr Unit × RefSets)}
    {failed : Prog (Except PyErr Unit × RefSets)}
    (h : PRun r (restP C r infos (old.map TreeEntry.raw) st) L0 (.git t ops next failed) L)
    (hi : ∀ i ∈ infos, WellInfo i) (hold : WellTree old) (hc : CollisionFree C L) (hw : WellTrees L r) (k : Nat) :
    ∃ E O, Critical C r infos old L0 L E O ∧
      FlushShape C r infos old (((ops L).take k).reverse ++ O) (E ++ L0) := by
  obtain ⟨E, O, hcr, hwE, fs, hrun⟩ := h.critical hi hold hc hw
  refine ⟨E, O, hcr, ?_⟩
  have hs := h.steady (steady_rest hi hold st) hw
  obtain ⟨f, hf⟩ := (steady_step hs hcr.same.grows (hc.mono hcr.same.symm.grows) hw
    (hcr.same.well hw)).2 k
  obtain ⟨fs', hfs'⟩ := hs.2.2.stops (((ops L).take k).reverse ++ (O ++ (E ++ L0)))
  obtain ⟨O', a1, a2, _⟩ := restP_any (C := C) (r := r) (infos := infos) (old := old) st
    (repo := ⟨E ++ L0, fs ++ (f :: fs')⟩) hwE hi hold
  rw [hrun, hf, hfs', ← List.append_assoc] at a1
  rw [List.append_cancel_right a1]
  exact a2

/-- When the locked part is done, the reference was set. -/
theorem PRun.finished {st' : RefSets}
    (h : PRun r (restP C r infos (old.map TreeEntry.raw) st) L0 (.done (.ok (), st')) L)
    (hi : ∀ i ∈ infos, WellInfo i) (hold : WellTree old) (hc : CollisionFree C L) (hw : WellTrees L r) :
    ∃ E O, Critical C r infos old L0 L E O ∧ FlushSet C r infos old O (E ++ L0) := by
  obtain ⟨E, O, hcr, hwE, fs, hrun⟩ := h.critical hi hold hc hw
  refine ⟨E, O, hcr, ?_⟩
  obtain ⟨O', a1, _, a2⟩ := restP_any (C := C) (r := r) (infos := infos) (old := old) st
    (repo := ⟨E ++ L0, fs ++ []⟩) hwE hi hold
  rw [hrun] at a1 a2
  simp only [Prog.run] at a1 a2
  rw [List.append_cancel_right a1]
  exact a2 trivial

end

/-! ### What the locked part does to the tree of object references -/

/-- The reference to the tree of object references, if there is one, names a stored tree. -/
def RefStored (C : Cfg) (L : Log) (r : Realm) : Prop :=
  ∀ h, refOf L r objectRefName = some h → ∃ es, h = C.hash (.tree es) ∧ Stored L r (.tree es)

/-- The tree that was read -/
def OldTree (C : Cfg) (L : Log) (r : Realm) (old : List TreeEntry) : Prop :=
  resolve C L r objectRefName = some (.tree old) ∨
    (old = [] ∧ ∀ es, resolve C L r objectRefName ≠ some (.tree es))

theorem resolve_objectRef {C : Cfg} {L : Log} {r : Realm} :
    resolve C L r objectRefName = (refOf L r objectRefName).bind (findObj C L r) := by
  unfold resolve
  rw [objectRefName_notHash]
  simp only [Bool.false_eq_true, if_false]
  cases refOf L r objectRefName <;> rfl

theorem RefStored.later {C : Cfg} {L L' : Log} {r : Realm} (h : RefStored C L r) (hg : Grows L L')
    (hr : refOf L' r objectRefName = refOf L r objectRefName) : RefStored C L' r := by
  intro x hx
  rw [hr] at hx
  obtain ⟨es, h1, h2⟩ := h x hx
  exact ⟨es, h1, hg _ _ h2⟩

/-- An object reference that was in the tree is in the tree that was read, as long as the
reference is not changed. -/
theorem recorded_old {C : Cfg} {L0 L : Log} {r : Realm} {old : List TreeEntry} {x : Bool × Str}
    (ho : OldTree C L0 r old) (hs : RefStored C L0 r) (hg : Grows L0 L) (hc : CollisionFree C L)
    (hr : refOf L r objectRefName = refOf L0 r objectRefName) (hx : Recorded C L r x) :
    entryAt C L r old (chunks x.2) = some x := by
  obtain ⟨es, h1, h2⟩ := hx
  rw [resolve_objectRef, hr] at h1
  cases h3 : refOf L0 r objectRefName with
  | none => rw [h3] at h1; cases h1
  | some h =>
    rw [h3] at h1
    obtain ⟨es', rfl, h4⟩ := hs h h3
    have h5 : findObj C L r (C.hash (.tree es')) = some (.tree es') := findObj_of_stored hc (hg _ _ h4)
    rw [Option.bind_some, h5] at h1
    cases h1
    have h6 : resolve C L0 r objectRefName = some (.tree es) := by
      rw [resolve_objectRef, h3, Option.bind_some]
      exact findObj_of_stored (hc.mono hg) h4
    rcases ho with ho | ⟨_, ho⟩
    · rw [ho] at h6
      cases h6
      exact h2
    · exact absurd h6 (ho _)

theorem TreeSaves.harmless {r : Realm} {K : Log} (h : TreeSaves r K) : ∀ op ∈ K, Harmless r op := by
  intro op hop
  obtain ⟨es, rfl, hw⟩ := h op hop
  exact fun _ => hw

section
variable {C : Cfg} {r : Realm} {xs : List (Bool × Str)} {old : List TreeEntry} {st : RefSets} {L0 L : Log}

theorem refInfos_well (hx : ∀ x ∈ xs, isHash x.2 = true) : ∀ i ∈ refInfos xs, WellInfo i := by
  intro i hi
  obtain ⟨x, h1, rfl⟩ := List.mem_map.mp hi
  exact refInfo_well (hx x h1)

/-- One step of the locked part, complete or cut off, loses nothing. -/
theorem PRun.keeps {t : Bool} {ops : Log → List GitOp} {next : Log → Prog (Except PyErr Unit × RefSets)}
    {failed : Prog (Except PyErr Unit × RefSets)}
    (h : PRun r (restP C r (refInfos xs) (old.map TreeEntry.raw) st) L0 (.git t ops next failed) L)
    (hx : ∀ x ∈ xs, isHash x.2 = true) (hold : WellTree old) (ho : OldTree C L0 r old) (hs : RefStored C L0 r)
    (k : Nat) (hc : CollisionFree C (((ops L).take k).reverse ++ L)) (hw : WellTrees L r) (hrs : RefStored C L r) :
    WellTrees (((ops L).take k).reverse ++ L) r ∧ RefStored C (((ops L).take k).reverse ++ L) r ∧
      ∀ x, Recorded C L r x → Recorded C (((ops L).take k).reverse ++ L) r x := by
  have hcL := hc.mono (grows_append ((ops L).take k).reverse L)
  obtain ⟨E, O, hcr, hsh⟩ := h.next_step (refInfos_well hx) hold hcL hw k
  generalize ((ops L).take k).reverse = X at hc hsh ⊢
  rcases hsh with hsh | ⟨K, new, h1, h2, h3, h4⟩
  · have hX : TreeSaves r X := fun op hop => hsh op (List.mem_append_left _ hop)
    have hr := refOf_harmless hX.harmless L
    exact ⟨hX.well hw, hrs.later (grows_append _ _) hr, fun x hx => hx.later (grows_append _ _) hr hc⟩
  · cases X with
    | nil => exact ⟨hw, hrs, fun x hx => hx⟩
    | cons op X =>
      rw [List.cons_append] at h1
      obtain ⟨rfl, rfl⟩ := List.cons.inj h1
      have hO : TreeSaves r O := fun op hop => h2 op (List.mem_append_right _ hop)
      have hX : TreeSaves r X := fun op hop => h2 op (List.mem_append_left _ hop)
      have hg : Grows (X ++ O ++ (E ++ L0)) (.setRef r objectRefName (C.hash (.tree new)) :: X ++ L) := by
        intro r' o h5
        rw [List.append_assoc] at h5
        rcases List.mem_append.mp h5 with h5 | h5
        · exact List.mem_append_left _ (List.mem_cons_of_mem _ h5)
        · exact List.mem_append_right _ (hcr.same.symm.grows r' o h5)
      have href : refOf (.setRef r objectRefName (C.hash (.tree new)) :: X ++ L) r objectRefName =
          some (C.hash (.tree new)) := by
        show (if r = r ∧ objectRefName = objectRefName then _ else _) = _
        rw [if_pos ⟨rfl, rfl⟩]
      refine ⟨?_, ?_, ?_⟩
      · intro es hes
        rcases List.mem_append.mp hes with hes | hes
        · rcases List.mem_cons.mp hes with hes | hes
          · cases hes
          · exact hX.harmless _ hes rfl
        · exact hw es hes
      · intro h5 h6
        rw [href] at h6
        cases h6
        exact ⟨new, rfl, hg _ _ h3⟩
      · intro x hx
        have hr0 : refOf L r objectRefName = refOf L0 r objectRefName := by
          rw [hcr.same.ref, refOf_harmless hO.harmless, refOf_harmless hcr.harmless]
        exact (recorded_iff h4 hg hc h3 href x).mpr
          (Or.inr (entryAt_found (grows_append _ _) hc _ _ _ (recorded_old ho hs h.grows hcL hr0 hx)))

/-- After the locked part all object references are in the tree. -/
theorem PRun.recorded {st' : RefSets}
    (h : PRun r (restP C r (refInfos xs) (old.map TreeEntry.raw) st) L0 (.done (.ok (), st')) L)
    (hx : ∀ x ∈ xs, isHash x.2 = true) (hold : WellTree old) (hc : CollisionFree C L) (hw : WellTrees L r) :
    ∀ x ∈ xs, Recorded C L r x := by
  obtain ⟨E, O, hcr, K, new, rfl, h2, h3, h4⟩ := h.finished (refInfos_well hx) hold hc hw
  intro x hx'
  have hg : Grows (K ++ (E ++ L0)) L := fun r' o ho => hcr.same.symm.grows r' o (List.mem_cons_of_mem _ ho)
  refine (recorded_iff h4 hg hc h3 ?_ x).mpr (Or.inl hx')
  rw [hcr.same.ref]
  show (if r = r ∧ objectRefName = objectRefName then _ else _) = _
  rw [if_pos ⟨rfl, rfl⟩]

end

end MM
