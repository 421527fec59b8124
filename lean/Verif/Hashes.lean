/-
What `git mktree` stores: the entries of every tree have object names.
-/
import Verif.Kempt
import Verif.WriteTotal

namespace MM

variable {C : Cfg} {r : Realm}

theorem mktreeLine_hash {l : Str} {e : TreeEntry} (h : mktreeLine l = some e) : isHash e.hash = true := by
  have go : ∀ (b : Bool) (s : Str), (if isHash (s.take 40) then
      match s.drop 40 with
      | '\t' :: p => (mktreePath p).map (fun n => (⟨b, s.take 40, n⟩ : TreeEntry))
      | _ => none
    else none) = some e → isHash e.hash = true := by
    intro b s h
    split at h
    · rename_i hh
      split at h
      · rename_i p _
        cases hp : mktreePath p with
        | none => rw [hp] at h; cases h
        | some n => rw [hp] at h; cases h; exact hh
      · cases h
    · cases h
  unfold mktreeLine at h
  simp only at h
  split at h
  · exact go _ _ h
  · split at h
    · exact go _ _ h
    · cases h

theorem mem_allSome {α β : Type} {f : α → Option β} : ∀ {l : List α} {bs : List β}, allSome f l = some bs → ∀ b ∈ bs, ∃ a ∈ l, f a = some b := by
  intro l
  induction l with
  | nil => intro bs h b hb; cases h; cases hb
  | cons a l ih =>
    intro bs h b hb
    simp only [allSome] at h
    cases ha : f a with
    | none => rw [ha] at h; cases h
    | some x =>
      rw [ha] at h
      cases hl : allSome f l with
      | none => rw [hl] at h; cases h
      | some xs =>
        rw [hl] at h
        cases h
        rcases List.mem_cons.mp hb with rfl | hb
        · exact ⟨a, List.mem_cons_self .., ha⟩
        · obtain ⟨y, h1, h2⟩ := ih hl b hb
          exact ⟨y, List.mem_cons_of_mem _ h1, h2⟩

/-- Whatever it is given, `git mktree` stores only entries with object names. -/
theorem mktree_hash {s : Str} {es : List TreeEntry} (h : mktree s = some es) : ∀ e ∈ es, isHash e.hash = true := by
  unfold mktree at h
  cases hx : allSome mktreeLine (inputLines s) with
  | none => rw [hx] at h; cases h
  | some xs =>
    rw [hx] at h
    cases h
    intro e he
    obtain ⟨l, _, hl⟩ := mem_allSome hx e (mem_sortEntries.mp he)
    exact mktreeLine_hash hl

/-- If all trees of a repository are made of object names, they stay so. -/
def TreesOn (r : Realm) (w w' : World) : Prop := HashTrees w.repo.log r → HashTrees w'.repo.log r

theorem TreesOn.trans (a b c : World) (h : TreesOn r a b) (h' : TreesOn r b c) : TreesOn r a c := fun x => h' (h x)

theorem treesOn_cmd {α : Type} {cmd : Log → List GitOp × Except PyErr α}
    (h : ∀ L x es, GitOp.save x (.tree es) ∈ (cmd L).1 → ∀ e ∈ es, isHash e.hash = true) :
    M.Keeps (liftG (gitCmd cmd)) (TreesOn r) := by
  intro w hw es hs
  obtain ⟨k, hk⟩ := gitCmd_log cmd w.repo
  have e : (liftG (gitCmd cmd) w).2.repo.log = ((cmd w.repo.log).1.take k).reverse ++ w.repo.log := hk
  unfold Stored at hs
  rw [e] at hs
  rcases List.mem_append.mp hs with hs | hs
  · exact h _ r es (List.mem_of_mem_take (List.mem_reverse.mp hs))
  · exact hw es hs

theorem treesOn_str (s : Str) : M.Keeps (liftG (gitSaveStr C r s)) (TreesOn r) :=
  treesOn_cmd fun L x es h => by simp at h

theorem treesOn_tree (es : List TreeEntry) : M.Keeps (liftG (gitSaveTree C r es)) (TreesOn r) := by
  refine treesOn_cmd fun L x es' h => ?_
  cases hm : mktree (treeSpec es) with
  | none => simp [hm] at h
  | some es2 =>
    simp only [hm, List.mem_singleton, GitOp.save.injEq, GitObj.tree.injEq] at h
    rw [h.2]
    exact mktree_hash hm

theorem treesOn_name (n h : Str) : M.Keeps (liftG (gitUpdateRef C r n h)) (TreesOn r) := by
  refine treesOn_cmd fun L x es hs => ?_
  cases hm : resolve C L r h with
  | none => simp [hm] at hs
  | some x => simp [hm] at hs

theorem treesOn_flushCache (x : Realm) : M.Keeps (flushCache C x) (TreesOn r) := by
  intro w
  unfold flushCache
  rw [M.bind_of_ok (M.get_run w)]
  cases hd : dget w.caches x with
  | none => exact fun h => h
  | some bs =>
    simp only
    refine M.Keeps.bind TreesOn.trans (treesOn_cmd fun L y es h => ?_) (fun _ w h => h) w
    simp at h

theorem treesOn_saveBlob (s : Str) : M.Keeps (saveBlob C r s) (TreesOn r) := by
  intro w
  unfold saveBlob
  rw [M.bind_of_ok (M.get_run w)]
  cases hd : dget w.caches r with
  | none => exact treesOn_str s w
  | some bs =>
    simp only
    unfold cacheBlob
    rw [M.bind_of_ok (M.get_run w)]
    have fin : M.Keeps (do
        M.modify fun w : World => { w with caches := dset w.caches r ((dget w.caches r).getD [] ++ [s]) }
        pure (C.hash (.blob s)) : W Str) (TreesOn r) := fun w h => h
    split
    · exact M.Keeps.bind TreesOn.trans (treesOn_flushCache r) (fun _ => fin) w
    · exact fin w

theorem treesOn_addRef (b : Bool) (h : Option Str) : M.Keeps (addRef b h) (TreesOn r) := by
  intro w hw
  unfold addRef
  cases h with
  | none => exact hw
  | some h => simp only; split <;> exact hw

theorem treesOn_flushRealm (x : Realm) : M.Keeps (flushRealm C x) (TreesOn r) := by
  intro w
  unfold flushRealm
  rw [M.bind_of_ok (M.get_run w)]
  cases hd : dget w.caches x with
  | none => exact fun h => h
  | some bs =>
    simp only
    exact M.Keeps.bind TreesOn.trans (treesOn_flushCache x) (fun _ w h => h) w

theorem treesOn_cacheRealm (x : Realm) : M.Keeps (cacheRealm x) (TreesOn r) := by
  intro w h
  unfold cacheRealm
  cases hd : dget w.caches x <;> exact h

theorem closed_treesOn (C : Cfg) (r : Realm) : Closed C r (fun w w' => TreesOn r w w' ∧ Any r w w') where
  refl := fun w => ⟨fun h => h, Any.refl r w⟩
  trans := fun _ _ _ h h' => ⟨fun h0 => h'.1 (h.1 h0), h.2.trans h'.2⟩
  str := fun s w => ⟨treesOn_str s w, gitSaveStr_any C r s w⟩
  tree := fun es w => ⟨treesOn_tree es w, gitSaveTree_any C r es w⟩
  name := fun n h _ w => ⟨treesOn_name n h w, gitUpdateRef_any C r n h w⟩
  blob := fun s w => ⟨treesOn_saveBlob s w, saveBlob_any C r s w⟩
  ref := fun b h w => ⟨treesOn_addRef b h w, addRef_any r b h w⟩
  files := fun wr h w => ⟨fileTreeWrite_keeps (fun _ h => h) TreesOn.trans (treesOn_cacheRealm r) (treesOn_flushRealm r)
    treesOn_addRef wr (fun w => (h w).1) w, (closed_any C r).files wr (fun w => (h w).2) w⟩
  mapped := fun _ _ i h => (h.2.same i).mapped
  here := fun _ _ i h hr => (h.2.realm i).elim (fun e => e.trans hr) fun h => h
  realm := fun w i hm => ⟨fun h => h, (closed_any C r).realm w i hm⟩
  flag := fun w i ref hm hr => ⟨fun h => h, (closed_any C r).flag w i ref hm hr⟩

/-- Writing stores only trees made of object names, whatever the outcome. -/
theorem writeOut_treesOn (hr : r ≠ []) (n : Nat) (force : Bool) (i : ObjId) (w : World) :
    TreesOn r w (writeOut C n (some r) force i w).2 :=
  ((closed_treesOn C r).writeOut hr n force i w).1

end MM
