/-
C46: names of elements survive the git tree format.
-/
import Verif.Names

namespace MM

/-- C46 for every name without a newline, whatever other characters it holds
(quotes, backslashes, tabs, control characters, line separators, non-ASCII
characters): the tree that git stores has exactly the given entries, and the
entries read back from git's output are exactly the stored ones.

Partial: a file system also allows newlines in names, see `C46_false`. -/
theorem C46_names_partial {es : List TreeEntry} (hne : es ≠ [])
    (hh : ∀ e ∈ es, isHash e.hash = true)
    (hn : ∀ e ∈ es, e.name ≠ [] ∧ '/' ∉ e.name ∧ '\x00' ∉ e.name ∧ '\n' ∉ e.name) :
    ∃ stored, mktree (treeSpec es) = some stored ∧ readTree stored = .ok stored ∧
      stored.Perm es := by
  refine ⟨sortEntries es, mktree_treeSpec hne hh ?_, readTree_ok ?_, sortEntries_perm es⟩
  · intro e he
    obtain ⟨a, b, c, d⟩ := hn e he
    exact ⟨a, b, c, d⟩
  · intro e he
    exact hh e (mem_sortEntries.mp he)

/-- An object name for the examples. -/
def hashA : Str := List.replicate 40 'a'
/-- Another object name for the examples. -/
def hashB : Str := List.replicate 40 'b'

/-- The hypotheses are met by names with quotes, backslashes, tabs and umlauts. -/
example : ∃ stored, mktree (treeSpec [⟨false, hashA, c!"a\"b\\c"⟩, ⟨true, hashB, c!"ä\t\r"⟩])
    = some stored ∧ readTree stored = .ok stored ∧
      stored.Perm [⟨false, hashA, c!"a\"b\\c"⟩, ⟨true, hashB, c!"ä\t\r"⟩] :=
  C46_names_partial (by decide) (by decide) (by decide)

/-- C46 is false for names with a newline: one element whose name holds a newline
is stored as two elements with other names, without any error. -/
theorem C46_false :
    ∃ e : TreeEntry, isHash e.hash = true ∧ e.name ≠ [] ∧ '/' ∉ e.name ∧ '\x00' ∉ e.name ∧
      mktree (treeSpec [e]) = some [⟨false, hashA, c!"a"⟩, ⟨false, hashB, c!"b"⟩] :=
  ⟨⟨false, hashA, c!"a\n100644 blob bbbbbbbbbbbbbbbbbbbbbbbbbbbbbbbbbbbbbbbb\tb"⟩,
    by decide, by decide, by decide, by decide, by decide⟩

/-- Without tabs, a newline in a name makes the whole tree unwritable. -/
theorem C46_newline_fails {es : List TreeEntry} {e : TreeEntry} {a b : Str} (he : e ∈ es)
    (hname : e.name = a ++ '\n' :: b)
    (hq : '"' ∉ e.name) (hb : '\t' ∉ b) : mktree (treeSpec es) = none := by
  have hbad : ∀ l : Str, '\t' ∉ l → mktreeLine l = none := by
    intro l hl
    have go : ∀ (t : Bool) (r : Str), '\t' ∉ r →
        (if isHash (r.take 40) then
          match r.drop 40 with
          | '\t' :: p => (mktreePath p).map (fun n => (⟨t, r.take 40, n⟩ : TreeEntry))
          | _ => none
        else none) = none := by
      intro t r hr
      split
      · split
        · rename_i p hp
          exfalso
          apply hr
          have : '\t' ∈ r.drop 40 := by rw [hp]; simp
          exact List.mem_of_mem_drop this
        · rfl
      · rfl
    unfold mktreeLine
    simp only
    split
    · exact go _ _ (fun h => hl (List.mem_of_mem_drop h))
    · split
      · exact go _ _ (fun h => hl (List.mem_of_mem_drop h))
      · rfl
  have hall : ∀ (ls : List Str) (l : Str), l ∈ ls → mktreeLine l = none →
      allSome mktreeLine ls = none := by
    intro ls
    induction ls with
    | nil => intro l h; simp at h
    | cons x ls ih =>
      intro l h hl
      rcases List.mem_cons.mp h with rfl | h
      · simp [allSome, hl]
      · unfold allSome
        split
        · rw [ih l h hl]; rfl
        · rfl
  have hesc : escapeQuotes e.name = e.name := by simp [escapeQuotes, hq]
  -- the last part of the name is the end of a line of the input
  have hsplit : ∀ (x y : Str), splitOn '\n' (x ++ '\n' :: y) = splitOn '\n' x ++ splitOn '\n' y := by
    intro x
    induction x with
    | nil => intro y; simp [splitOn]
    | cons c x ih =>
      intro y
      simp only [List.cons_append, splitOn]
      split
      · rw [ih]; rfl
      · rw [ih]
        cases hx : splitOn '\n' x with
        | nil => exact absurd hx (splitOn_ne_nil _ _)
        | cons p ps => simp
  have hjoin : ∀ (ls : List Str) (l : Str), l ∈ ls →
      ∀ p ∈ splitOn '\n' l, p ∈ splitOn '\n' (joinWith '\n' ls) := by
    intro ls
    induction ls with
    | nil => intro l h; simp at h
    | cons x ls ih =>
      intro l h p hp
      cases ls with
      | nil => simp at h; subst h; simpa [joinWith] using hp
      | cons y ls =>
        simp only [joinWith]
        rw [hsplit]
        rcases List.mem_cons.mp h with rfl | h
        · exact List.mem_append_left _ hp
        · exact List.mem_append_right _ (ih l h p hp)
  -- a piece of `b`, the part after the newline
  obtain ⟨q, hq1⟩ := List.exists_mem_of_ne_nil _ (splitOn_ne_nil '\n' b)
  have hqb : ∀ (b : Str), ∀ q ∈ splitOn '\n' b, ∀ c ∈ q, c ∈ b := by
    intro b
    induction b with
    | nil => intro q h; simp [splitOn] at h; subst h; simp
    | cons c b ih =>
      intro q h
      simp only [splitOn] at h
      split at h
      · rcases List.mem_cons.mp h with rfl | h
        · simp
        · intro x hx; exact List.mem_cons_of_mem _ (ih q h x hx)
      · split at h
        · simp at h; subst h; simp
        · rename_i p ps hps
          rcases List.mem_cons.mp h with rfl | h
          · intro x hx
            rcases List.mem_cons.mp hx with rfl | hx
            · simp
            · exact List.mem_cons_of_mem _ (ih p (by rw [hps]; simp) x hx)
          · intro x hx
            exact List.mem_cons_of_mem _ (ih q (by rw [hps]; simp [h]) x hx)
  have hqt : '\t' ∉ q := fun h => hb (hqb b q hq1 _ h)
  have hin : q ∈ splitOn '\n' (joinWith '\n' (es.map (fun e => specLine e (escapeQuotes e.name)))) := by
    refine hjoin _ _ (List.mem_map_of_mem he) q ?_
    simp only [hesc]
    have : specLine e e.name = (e.mode ++ ' ' :: e.hash ++ '\t' :: a) ++ '\n' :: b := by
      simp [specLine, hname]
    rw [this, hsplit]
    exact List.mem_append_right _ hq1
  have hlines : q ∈ inputLines (treeSpec es) := by
    unfold inputLines treeSpec
    have hx := hsplit (joinWith '\n' (es.map (fun e => specLine e (escapeQuotes e.name)))) []
    have hx' : splitOn '\n' (joinWith '\n' (es.map (fun e => specLine e (escapeQuotes e.name))) ++ ['\n'])
        = splitOn '\n' (joinWith '\n' (es.map (fun e => specLine e (escapeQuotes e.name)))) ++ [[]] := hx
    rw [hx']
    simp only [List.getLast?_concat, if_true, List.dropLast_concat]
    exact hin
  unfold mktree
  rw [hall _ q hlines (hbad q hqt)]
  rfl

/-- The last theorem applies to the name `a\nb` next to other entries. -/
example : mktree (treeSpec [⟨false, hashA, c!"x"⟩, ⟨false, hashB, c!"a\nb"⟩]) = none :=
  C46_newline_fails (e := ⟨false, hashB, c!"a\nb"⟩) (a := c!"a") (b := c!"b")
    (by decide) rfl (by decide) (by decide)

end MM
