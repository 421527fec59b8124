/-
C27: what a removal that leaves an empty node behind does to the next write.
-/
import Verif.Props.Failures
import Verif.Props.Success
import Verif.Props.Unget
import Verif.Props.Subtree
import Verif.Props.FileTree
import Verif.Neat

namespace MM

variable {C : Cfg} {r : Realm}

/-! ### An entry without a hash -/

theorem splitOn_mid (s t : Str) : splitOn '\n' (s ++ '\n' :: t) = splitOn '\n' s ++ splitOn '\n' t := by
  induction s with
  | nil => simp [splitOn]
  | cons c s ih =>
    simp only [List.cons_append, splitOn]
    rw [ih]
    by_cases hc : c = '\n'
    · simp [hc]
    · simp only [if_neg hc]
      cases h : splitOn '\n' s with
      | nil => exact absurd h (splitOn_ne_nil _ _)
      | cons p ps => simp

theorem joinWith_mid {ps : List Str} {x : Str} (h : x ∈ ps) :
    ∀ l ∈ splitOn '\n' x, l ∈ splitOn '\n' (joinWith '\n' ps) := by
  induction ps with
  | nil => cases h
  | cons p ps ih =>
    intro l hl
    cases ps with
    | nil => rw [List.mem_singleton] at h; subst h; exact hl
    | cons q qs =>
      show l ∈ splitOn '\n' (p ++ '\n' :: joinWith '\n' (q :: qs))
      rw [splitOn_mid]
      rcases List.mem_cons.mp h with rfl | h
      · exact List.mem_append_left _ hl
      · exact List.mem_append_right _ (ih h l hl)

/-- The first line of a text that starts with text without newlines -/
theorem splitOn_starts {a : Str} (h : '\n' ∉ a) (b : Str) : ∃ b' ls, splitOn '\n' (a ++ b) = (a ++ b') :: ls := by
  induction a with
  | nil =>
    cases hs : splitOn '\n' b with
    | nil => exact absurd hs (splitOn_ne_nil _ _)
    | cons p ps => exact ⟨p, ps, by simpa using hs⟩
  | cons c a ih =>
    simp only [List.mem_cons, not_or] at h
    obtain ⟨b', ls, e⟩ := ih h.2
    refine ⟨b', ls, ?_⟩
    have hc : c ≠ '\n' := fun e => h.1 e.symm
    simp only [List.cons_append, splitOn, if_neg hc, e]

/-- `git mktree` refuses entries with `*None*` for the hash. -/
theorem mktree_no_hash {es : List TreeEntry} {e : TreeEntry} (he : e ∈ es) (hh : e.hash = noneLocation) :
    mktree (treeSpec es) = none := by
  cases hx : mktree (treeSpec es) with
  | none => rfl
  | some ys =>
    exfalso
    unfold mktree at hx
    rw [Option.map_eq_some_iff] at hx
    obtain ⟨bs, h1, _⟩ := hx
    have hpre : ∃ b, specLine e (escapeQuotes e.name) = (e.mode ++ ' ' :: noneLocation) ++ b :=
      ⟨'\t' :: escapeQuotes e.name, by unfold specLine; simp [hh]⟩
    obtain ⟨b, hb⟩ := hpre
    have hn : '\n' ∉ e.mode ++ ' ' :: noneLocation := by
      unfold TreeEntry.mode
      split <;> decide
    obtain ⟨b', ls, hsp⟩ := splitOn_starts hn b
    have hmem : (e.mode ++ ' ' :: noneLocation) ++ b' ∈ splitOn '\n' (specLine e (escapeQuotes e.name)) := by
      rw [hb, hsp]; exact List.mem_cons_self ..
    have hmem2 : (e.mode ++ ' ' :: noneLocation) ++ b' ∈ inputLines (treeSpec es) := by
      unfold inputLines treeSpec
      have h3 : (e.mode ++ ' ' :: noneLocation) ++ b' ∈
          splitOn '\n' (joinWith '\n' (es.map fun e => specLine e (escapeQuotes e.name))) :=
        joinWith_mid (List.mem_map_of_mem he) _ hmem
      have h4 : splitOn '\n' (joinWith '\n' (es.map fun e => specLine e (escapeQuotes e.name)) ++ ['\n']) =
          splitOn '\n' (joinWith '\n' (es.map fun e => specLine e (escapeQuotes e.name))) ++ [[]] := splitOn_mid _ []
      rw [h4]
      simp only [List.getLast?_append, List.getLast?_singleton, Option.some_or, if_true, List.dropLast_concat]
      exact h3
    obtain ⟨x, hx⟩ := allSome_mem h1 _ hmem2
    unfold mktreeLine TreeEntry.mode at hx
    cases ht : e.isTree <;> rw [ht] at hx <;> simp [startsWith, isHash, hexVal, noneLocation] at hx

/-! ### The write -/

/-- `forEach` up to the first element `e`, and `e` -/
theorem forEach_reach {σ α β : Type} {f : α → M σ β} {I : σ → Prop} {e : α} : ∀ {l : List α} {w w' : σ} {bs : List β},
    e ∈ l → I w → (∀ a ∈ l, a ≠ e → ∀ s, I s → I (f a s).2) → M.forEach f l w = (.ok bs, w') →
    ∃ w1 b w2, I w1 ∧ f e w1 = (.ok b, w2) ∧ b ∈ bs := by
  intro l
  induction l with
  | nil => intro w w' bs he; cases he
  | cons x l ih =>
    intro w w' bs he hi hk h
    rw [M.forEach_cons] at h
    obtain ⟨b, w1, h1, h2⟩ := M.bind_ok h
    obtain ⟨bs', w2, h3, h4⟩ := M.bind_ok h2
    cases h4
    by_cases hx : x = e
    · subst hx
      exact ⟨w, b, w1, hi, h1, List.mem_cons_self ..⟩
    · have hi1 : I w1 := by
        have := hk x (List.mem_cons_self ..) hx w hi
        rw [h1] at this
        exact this
      obtain ⟨w3, b3, w4, g1, g2, g3⟩ := ih ((List.mem_cons.mp he).resolve_left (Ne.symm hx)) hi1
        (fun a ha => hk a (List.mem_cons_of_mem _ ha)) h3
      exact ⟨w3, b3, w4, g1, g2, List.mem_cons_of_mem _ g3⟩

/-- A loaded tree node without elements that is not saved -/
structure Hollow (r : Realm) (o : Obj) : Prop where
  mapped : o.mapped = true
  tree : o.kind.isMtree = true
  none : o.body.kids = []
  unsaved : r ∉ o.savedOn

theorem leads_same {h h' : Heap} (hs : ∀ j, SameObj (h j) (h' j)) {i j : ObjId} {ks : List Key} (hl : Leads h i ks j) :
    Leads h' i ks j := by
  induction hl with
  | nil => exact Leads.nil _
  | cons t c h1 h2 _ ih => exact Leads.cons t c (by rw [(hs _).mapped]; exact h1) (by rw [(hs _).body]; exact h2) ih

theorem sameObj_symm_leads {h h' : Heap} (hs : ∀ j, SameObj (h j) (h' j)) {i j : ObjId} {ks : List Key}
    (hl : Leads h' i ks j) : Leads h i ks j := by
  induction hl with
  | nil => exact Leads.nil _
  | cons t c h1 h2 _ ih => exact Leads.cons t c (by rw [← (hs _).mapped]; exact h1) (by rw [← (hs _).body]; exact h2) ih

/-- Writing an empty node gives a reference to nothing. -/
theorem write_bare (hr : r ≠ []) {n : Nat} {force : Bool} {j : ObjId} {w w' : World} {ref : Ref}
    (hh : Hollow r (w.heap j)) (h : writeOut C n (some r) force j w = (.ok ref, w')) : ref.loc = some noneLocation := by
  cases n with
  | zero => cases h
  | succ n =>
    rw [writeOut_mapped hr hh.mapped rfl] at h
    split at h
    · cases h
    · have hsv : isSavedOn (n + 1) (w.heap.set j { w.heap j with realm := some r }) r j = .ok false := by
        rw [isSavedOn_succ, if_pos]
        rw [Heap.set_self]; exact hh.unsaved
      rw [hsv] at h
      simp only [Bool.false_eq_true, false_and, if_false] at h
      have hd : ∃ leaf, (w.heap j).body.data = .mtree leaf := by
        have := hh.tree
        unfold Obj.kind Data.kind at this
        cases hd : (w.heap j).body.data <;> rw [hd] at this <;> simp [Kind.isMtree] at this
        exact ⟨_, rfl⟩
      obtain ⟨leaf, hd⟩ := hd
      unfold mapOut at h
      rw [hd] at h
      simp only [hh.none, if_true] at h
      cases h
      rfl

/-- A write of a tree with an empty node inside fails, if the node is not saved and is at one place
only. -/
theorem write_hollow (hr : r ≠ []) {j : ObjId} : ∀ {q : List Str} {n : Nat} {force : Bool} {i : ObjId} {w w' : World} {ref : Ref},
    q ≠ [] → Leads w.heap i (names q) j → (∀ ks, Leads w.heap i ks j → ks = names q) →
    (∀ x, (w.heap x).mapped = true → Formed (w.heap x).body) → Hollow r (w.heap j) →
    writeOut C n (some r) force i w ≠ (.ok ref, w') := by
  intro q
  induction q with
  | nil => intro n force i w w' ref hq; exact absurd rfl hq
  | cons x q ih =>
    intro n force i w w' ref _ hl hone hform hh h
    cases n with
    | zero => cases h
    | succ n =>
      have hreach := hl.reach
      obtain ⟨t, c, hm, hd, hlc⟩ : ∃ t c, (w.heap i).mapped = true ∧ dget (w.heap i).body.kids (.name x) = some (t, c) ∧
          Leads w.heap c (names q) j := by
        cases hl with
        | cons t c h1 h2 h3 => exact ⟨t, c, h1, h2, h3⟩
      have hji : j ≠ i := by
        rintro rfl
        rw [hh.none] at hd
        cases hd
      have hdat : ∃ leaf, (w.heap i).body.data = .mtree leaf := by
        have := fits_name ((hform i hm).fits _ (mem_of_dget hd))
        unfold Data.kind at this
        cases hd : (w.heap i).body.data <;> rw [hd] at this <;> simp [Kind.isMtree] at this
        exact ⟨_, rfl⟩
      obtain ⟨leaf, hdat⟩ := hdat
      rw [writeOut_mapped hr hm rfl] at h
      split at h
      · cases h
      · have hs1 : ∀ y, SameObj (w.heap y) ((w.heap.set i { w.heap i with realm := some r }) y) := by
          intro y
          by_cases hy : y = i
          · subst hy
            rw [Heap.set_self]
            exact ⟨rfl, rfl, fun h => by rw [hm] at h; cases h⟩
          · rw [Heap.set_ne hy]; exact SameObj.refl _
        cases hsv : isSavedOn (n + 1) (w.heap.set i { w.heap i with realm := some r }) r i with
        | error e => rw [hsv] at h; cases h
        | ok b =>
          have hb : b = false := by
            cases b with
            | false => rfl
            | true =>
              exfalso
              have hcl := clean_of_isSavedOn hsv
              have := (clean_reach (leads_same hs1 hl).reach hcl).flag
              rw [Heap.set_ne hji] at this
              exact hh.unsaved this
          subst hb
          rw [hsv] at h
          simp only [Bool.false_eq_true, false_and, if_false] at h
          cases hx : mapOut C (writeOut C n (some r)) r force (w.heap i).body
              { w with heap := w.heap.set i { w.heap i with realm := some r } } with
          | mk res w2 =>
            rw [hx] at h
            cases res with
            | error e => cases h
            | ok ref0 =>
              clear h
              unfold mapOut at hx
              rw [hdat] at hx
              simp only at hx
              split at hx
              · rename_i hk; rw [hk] at hd; cases hd
              · obtain ⟨es, w3, e1, e2⟩ := M.bind_ok hx
                obtain ⟨hsh, w4, e3, _⟩ := M.bind_ok e2
                have hfor := forEach_reach (e := (Key.name x, t, c))
                  (I := fun w5 => (∀ y, SameObj (w.heap y) (w5.heap y)) ∧ w5.heap j = w.heap j)
                  (mem_of_dget hd) ⟨hs1, Heap.set_ne hji⟩ (by
                    intro a ha hne s ⟨i1, i2⟩
                    have hw : ((do
                        let ref ← writeOut C n (some r) false a.2.2
                        let o ← getObj a.2.2
                        pure (⟨o.kind.isMtree, locText ref, a.1.entryName⟩ : TreeEntry)) s).2 =
                        (writeOut C n (some r) false a.2.2 s).2 := by
                      cases hy : writeOut C n (some r) false a.2.2 s with
                      | mk y s1 =>
                        cases y with
                        | error e => rw [M.bind_of_error hy]
                        | ok y => rw [M.bind_of_ok hy]; rfl
                    rw [hw]
                    have hany := (closed_any C r).writeOut hr n false a.2.2 s
                    refine ⟨fun y => ⟨(hany.same y).mapped.trans (i1 y).mapped, (hany.same y).body.trans (i1 y).body, fun hu => ?_⟩, ?_⟩
                    · have := (hany.same y).away (by rw [(i1 y).mapped]; exact hu)
                      exact ⟨this.1.trans ((i1 y).away hu).1, this.2.trans ((i1 y).away hu).2⟩
                    · rw [← i2]
                      refine writeAs_frame (C := C) .own n (some r) false a.2.2 s j ?_
                      intro hre
                      have hform' : ∀ y, (s.heap y).mapped = true → Formed (s.heap y).body := by
                        intro y hy
                        rw [(i1 y).body]
                        exact hform y (by rw [← (i1 y).mapped]; exact hy)
                      obtain ⟨ks, hks⟩ := hre.leads hform'
                      have hda : dget (w.heap i).body.kids a.1 = some a.2 := dget_of_mem (hform i hm).keys ha
                      have := hone _ (Leads.cons a.2.1 a.2.2 hm hda (sameObj_symm_leads i1 hks))
                      have hkey : a.1 = Key.name x := by
                        have := congrArg List.head? this
                        simpa [names] using this
                      rw [hkey, hd] at hda
                      apply hne
                      obtain ⟨k, v⟩ := a
                      cases hda
                      cases hkey
                      rfl) e1
                obtain ⟨w5, b, w6, ⟨i1, i2⟩, hf, hbm⟩ := hfor
                obtain ⟨ref1, w7, f1, f2⟩ := M.bind_ok hf
                cases q with
                | nil =>
                  have hcj : c = j := by cases hlc; rfl
                  subst hcj
                  have hnone := write_bare hr (by rw [i2]; exact hh) f1
                  rw [M.bind_of_ok (getObj_run _ _)] at f2
                  have hbh : b.hash = noneLocation := by
                    cases f2
                    show locText ref1 = _
                    unfold locText; rw [hnone]; rfl
                  have hbad : ∀ s, (gitSaveTree C r es s).1 ≠ .ok hsh := by
                    intro s hs
                    cases hg : gitSaveTree C r es s with
                    | mk y s1 =>
                      rw [hg] at hs
                      simp only at hs
                      subst hs
                      have := (gitCmd_ok hg).1
                      rw [mktree_no_hash hbm hbh] at this
                      cases this
                  apply hbad w3.repo
                  unfold liftG at e3
                  injection e3 with e3 _
                | cons y q =>
                  refine ih (w := w5) (by simp) (leads_same i1 hlc) ?_ ?_ (by rw [i2]; exact hh) f1
                  · intro ks hks
                    have := hone _ (Leads.cons t c hm hd (sameObj_symm_leads i1 hks))
                    simpa [names] using this
                  · intro z hz
                    rw [(i1 z).body]
                    exact hform z (by rw [← (i1 z).mapped]; exact hz)

/-- C27, what goes wrong: a tree is at fault whenever a removal leaves an inner node without elements
behind.  The next write of the tree, to any repository, fails, whether git works or not, and whether
the tree was saved before or not. -/
theorem C27_removed_fails {w w' : World} (hs : Fine C w) {i : ObjId} (hi : i < w.next)
    (hone : OnePath w.heap i) {q : List Str} {n : Str} (h : removeChildAt C (q ++ [n]) i w = (.ok (), w'))
    (hq : q ≠ []) (hlast : ∀ k, k ≠ n → look C w.repo.log w.heap (names (q ++ [k])) [] (.mem i) = .absent)
    (hr : r ≠ []) (via : Via) (m : Nat) (force : Bool) (ref : Ref) (w2 : World) :
    writeAs C via m (some r) force i w' ≠ (.ok ref, w2) := by
  rcases removeChildAt_cases hs hi h with ⟨_, e, he⟩ | ⟨w1, q', n', p, he, hl, hml, ⟨_, hrm⟩ | ⟨he, _⟩⟩
  · cases he
  · obtain ⟨rfl, e⟩ := List.append_inj' he rfl
    cases e
    have hf1 := hl.fine
    have hf2 := hrm.fewer.formed hf1
    have hone2 : OnePath w'.heap i := hrm.fewer.onePath hf1 (hl.onePath i hi hone)
    have hlead := hrm.lead' hf1
    have htree : (w'.heap p).kind.isMtree = true := by rw [hrm.fewer.kind]; exact hrm.tree
    have hkids : (w'.heap p).body.kids = [] := by
      obtain ⟨leaf, b, _, h2, h3⟩ := hrm.look_node hf1
      have hb : b = true := by
        cases b with
        | true => rfl
        | false =>
          obtain ⟨k, hk, hk2⟩ := h3.mp rfl
          rw [← hl.content i hi] at hk2
          exact absurd (hlast k hk) hk2
      subst hb
      have h4 := hlead.look (C := C) (L := w'.repo.log) hf2 []
      rw [List.append_nil, h2, look_nil [] (view_mapped hrm.fewer.mapped')] at h4
      injection h4 with _ _ h4
      simp [Body.blank, Body.map] at h4
      exact h4.2
    have hhol : Hollow r (w'.heap p) := by
      refine ⟨hrm.fewer.mapped', htree, hkids, ?_⟩
      rw [hrm.edit, edit_self]
      simp
    have key : ∀ {wa wb : World}, wa.heap = w'.heap → writeOut C m (some r) force i wa ≠ (.ok ref, wb) := by
      intro wa wb hh
      refine write_hollow hr (q := q) (j := p) hq ?_ ?_ ?_ ?_ <;> rw [hh]
      · exact hlead
      · exact fun ks hks => hone2 q ks p hlead htree hks
      · exact hf2
      · exact hhol
    intro hw
    cases via with
    | own => exact key rfl hw
    | dataset =>
      obtain ⟨ref1, w3, h1, h2⟩ := M.bind_ok (show proxyWrite (writeOut C m (some r) force i) w' = _ from hw)
      have : ref1 = ref := by
        split at h2
        · cases h2; rfl
        · obtain ⟨_, w4, _, h3⟩ := M.bind_ok h2
          cases h3; rfl
      subst this
      exact key rfl h1
    | file =>
      have hw : fileTreeWrite C (some r) (writeOut C m (some r) force i) w' = _ :=
        (writeFileTree_eq hr m force i w').symm.trans hw
      unfold fileTreeWrite at hw
      simp only at hw
      obtain ⟨_, w3, h1, h2⟩ := M.bind_ok hw
      obtain ⟨ref1, w4, h3, h4⟩ := M.bind_ok h2
      obtain ⟨_, w5, _, h5⟩ := M.bind_ok h4
      have : ref1 = ref := by
        split at h5
        · cases h5; rfl
        · obtain ⟨_, w6, _, h6⟩ := M.bind_ok h5
          cases h6; rfl
      subst this
      refine key ?_ h3
      have := still_cacheRealm r w'
      rw [h1] at this
      exact this
  · cases he

/-- The hypotheses hold for the file tree of the examples, when its only file is removed. -/
example : ∃ w', Fine sampleCfg treeWorld ∧ 3 < treeWorld.next ∧ OnePath treeWorld.heap 3 ∧
    removeChildAt sampleCfg ([c!"a"] ++ [c!"b"]) 3 treeWorld = (.ok (), w') ∧
    (∀ k, k ≠ c!"b" → look sampleCfg treeWorld.repo.log treeWorld.heap (names ([c!"a"] ++ [k])) [] (.mem 3) = .absent) ∧
    ∀ r m, r ≠ [] → ∀ ref w2, writeAs sampleCfg .file m (some r) false 3 w' ≠ (.ok ref, w2) := by
  have hone : OnePath treeWorld.heap 3 := by
    intro p ks m h1 _ h2
    rcases treeWorld_leads h1 with ⟨e1, e2⟩ | ⟨e1, e2⟩ | ⟨e1, e2⟩ <;>
      rcases treeWorld_leads h2 with ⟨f1, f2⟩ | ⟨f1, f2⟩ | ⟨f1, f2⟩ <;>
      first | exact f1.trans e1.symm | (rw [e2] at f2; exact absurd f2 (by decide))
  have hlast : ∀ k, k ≠ c!"b" →
      look sampleCfg treeWorld.repo.log treeWorld.heap (names ([c!"a"] ++ [k])) [] (.mem 3) = .absent := by
    intro k hk
    have hl : Leads treeWorld.heap 3 (names [c!"a"]) 2 := Leads.cons [] 2 rfl rfl (Leads.nil _)
    rw [show names ([c!"a"] ++ [k]) = names [c!"a"] ++ [.name k] from rfl, hl.look treeWorld_fine.formed]
    refine look_name_none rfl ?_ [] []
    have : (treeWorld.heap 2).body.kids = [(.name c!"b", [], 1)] := by decide +kernel
    rw [this]
    show (if _ then _ else _) = _
    rw [if_neg (fun e => hk (by injection e with e; exact e.symm))]
    rfl
  exact ⟨_, treeWorld_fine, by decide, hone, of_isOk_unit (by decide +kernel), hlast, fun r m hr ref w2 =>
    C27_removed_fails treeWorld_fine (by decide) hone (of_isOk_unit (by decide +kernel)) (by simp) hlast hr _ _ _ _ _⟩

/-! ### The write after that -/

/-- A dataset tree with a dataset at `x/y` is saved. -/
def staleFirst : Except PyErr Ref × World := (do
  addSubtree sampleCfg 9 10 [c!"x", c!"y"]
  writeAs sampleCfg .dataset 20 (some sampleRealm) false 9) twoTrees

/-- The dataset is deleted. -/
def staleDeleted : Except PyErr Unit × World := deleteSubtree sampleCfg 9 [c!"x", c!"y"] staleFirst.2

/-- The tree is written. -/
def staleSecond : Except PyErr Ref × World := writeAs sampleCfg .dataset 20 (some sampleRealm) false 9 staleDeleted.2

/-- The tree is written once more. -/
def staleThird : Except PyErr Ref × World := writeAs sampleCfg .dataset 20 (some sampleRealm) false 9 staleSecond.2

/-- C27 is false, and so is C51, for a tree that was saved before the removal: git works, the first
write after the removal fails, and the second one succeeds, but it stores nothing and returns the
reference of the tree with the removed dataset. -/
theorem C27_stale_false : isOk staleFirst = true ∧ isOk staleDeleted = true ∧ staleDeleted.2.repo.faults = [] ∧
    errOf staleSecond = some .runtime ∧ okVal staleThird = okVal staleFirst ∧
    isOk staleThird = true ∧ staleThird.2.repo.log = staleSecond.2.repo.log ∧
    (look sampleCfg staleThird.2.repo.log staleThird.2.heap (names [c!"x", c!"y"]) [] (.mem 9)).isAbsent = true ∧
    (look sampleCfg staleThird.2.repo.log staleThird.2.heap (names [c!"x", c!"y", rootRecordName] ++ [.dlm]) []
      (.sto sampleRealm ⟨.mtree .mrr, normRef (.mtree .mrr) (okRef staleThird)⟩)).extractors = 1 := by
  decide +kernel

end MM
