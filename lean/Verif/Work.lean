/-
A process that opens a repository, adds metadata and saves it: the calls it makes, and what holds
between them.
-/
import Verif.DeskSave
import Verif.TwinOps

namespace MM

variable {C : Cfg} {r : Realm}

/-! ### The calls -/

/-- The repository holds, under the names of both top-level objects, content that can be read in full
and stored again. -/
def Stocked (C : Cfg) (r : Realm) (L : Log) : Prop :=
  ∀ l nm, Named l nm → ∀ h, Full C L h (.sto r l) ∧ Proper C L h (.sto r l)

/-- A process that is about to open the repository: a new one, or one that has worked with this or other repositories
before.  It may have any objects; the write caches are empty, and what has no number yet is not there. -/
structure Idle (s : Repo) (i : World) : Prop where
  repo : i.repo = s
  caches : i.caches = []
  rest : ∀ j, i.next ≤ j → i.heap j = Obj.new (Body.empty .text)

theorem idle_start (s : Repo) : Idle s (start s) := ⟨rfl, rfl, fun _ _ => rfl⟩

/-- A process has got the tree version list `t` and the UUID set `u` of the repository, either from
what is stored or, after it was told that there are none, as new objects (common.py 42-75, 114-123).
The objects from `g` on are in use; the process may have others from before, and a failed attempt to read may have
left some. -/
inductive Opens (C : Cfg) (r : Realm) (s : Repo) : ObjId → ObjId → ObjId → World → Prop
  | found (i : World) (t u : ObjId) (w : World) : Idle s i → Stocked C r s.log → topLevel C r i = (.ok (some (t, u)), w) →
      Opens C r s i.next t u w
  | made (i : World) (w : World) : Idle s i → topLevel C r i = (.ok none, w) →
      Opens C r s w.next w.next (w.next + 1)
        (create (Obj.new (Body.empty .uuidset)) (create (Obj.new (Body.empty .tvl)) w))

/-- `set_dataset_level_metadata` or `set_file_tree` of a root record (metadatarootrecord.py 55-58, 68-71) -/
def setPart (C : Cfg) (k : Key) (i x : ObjId) : W Unit := if k = .dlm then setDlm C i x else setFileTree C i x

/-- Calls in any order and number, with whatever result: requests for root records, with or without
auto-create; reading any object, and looking for objects in trees, UUID sets and version lists; new objects; adding runs to metadata; putting new metadata into
file trees; setting the dataset-level metadata or the file tree of a loaded root record that has none (`get_file_tree`
returned `None`).  (Objects that are part of another object are not put into a second one.) -/
inductive Busy (C : Cfg) (g t u : ObjId) (w : World) : World → Prop
  | refl : Busy C g t u w w
  | loaded (w' : World) (i : ObjId) : Busy C g t u w w' → g ≤ i → i < w'.next → Busy C g t u w (ensureMapped C i w').2
  | read (w' : World) (i : ObjId) : Busy C g t u w w' → g ≤ i → i < w'.next → Busy C g t u w (readIn C i w').2
  | looked (w' : World) (i : ObjId) (p : List Str) : Busy C g t u w w' → g ≤ i → i < w'.next →
      Busy C g t u w (getObjectAt C p i w').2
  | listed (w' : World) (i : ObjId) (id : Uuid) : Busy C g t u w w' → g ≤ i → i < w'.next →
      Busy C g t u w (getVersionList C i id w').2
  | element (w' : World) (i : ObjId) (v : Str) (p : PPath) : Busy C g t u w w' → g ≤ i → i < w'.next →
      Busy C g t u w (getVersioned C i v p w').2
  | asked (w' : World) (auto : Option Bool) (now : Str) (id : Uuid) (v : Str) (pre : PPath) (path : List Str)
      (root : Option Uuid) (rv : Option Str) : Busy C g t u w w' → Canonical pre → (∀ n ∈ path, CompOk n ∧ NameOk n) →
      Busy C g t u w (rootRecord C auto now t u id v pre path root rv w').2
  | new (w' : World) (b : Body ObjId) : Busy C g t u w w' → b.kids = [] → DataOk b.data →
      Busy C g t u w (create (Obj.new b) w')
  | ran (w' : World) (i : ObjId) (ext : Str) (run : Instance) : Busy C g t u w w' → g ≤ i → i < w'.next → run.WF →
      Busy C g t u w (addExtractorRun C i ext run w').2
  | filed (w' : World) (leaf : Leaf) (i x : ObjId) (p : List Str) : Busy C g t u w w' → g ≤ i → i < w'.next →
      (w'.heap i).kind = .mtree leaf → g ≤ x → x < w'.next → (w'.heap x).kind = leaf.kind → (∀ q, g ≤ q → q < w'.next → ¬ Has w'.heap q x) →
      (∀ n ∈ p, CompOk n ∧ NameOk n) → Busy C g t u w (addChildAt C x p i w').2
  | part (w' : World) (k : Key) (i x : ObjId) : Busy C g t u w w' → g ≤ i → i < w'.next → (w'.heap i).kind = .mrr →
      (w'.heap i).mapped = true → dget (w'.heap i).body.kids k = none → g ≤ x → x < w'.next →
      (k = .dlm ∧ (w'.heap x).kind = .metadata ∨ k = .ft ∧ (w'.heap x).kind = .mtree .metadata) →
      (∀ q, g ≤ q → q < w'.next → ¬ Has w'.heap q x) → Busy C g t u w (setPart C k i x w').2

/-! ### What stays -/

/-- Objects were loaded, created, changed, or got further parts. -/
structure Stays (w w' : World) : Prop where
  next : w.next ≤ w'.next
  kind : ∀ j, j < w.next → (w'.heap j).kind = (w.heap j).kind
  mapped : ∀ j, j < w.next → (w.heap j).mapped = true → (w'.heap j).mapped = true
  kids : ∀ j, j < w.next → (w.heap j).mapped = true → ∀ k x, dget (w.heap j).body.kids k = some x →
    dget (w'.heap j).body.kids k = some x

theorem Grown.stays {w w' : World} (h : Grown w w') : Stays w w' := ⟨h.next, h.kind, h.mapped, h.kids⟩

theorem Stays.trans {a b c : World} (h : Stays a b) (h' : Stays b c) : Stays a c :=
  ⟨Nat.le_trans h.next h'.next, fun j hj => (h'.kind j (Nat.lt_of_lt_of_le hj h.next)).trans (h.kind j hj),
   fun j hj hm => h'.mapped j (Nat.lt_of_lt_of_le hj h.next) (h.mapped j hj hm),
   fun j hj hm k x hd => h'.kids j (Nat.lt_of_lt_of_le hj h.next) (h.mapped j hj hm) k x (h.kids j hj hm k x hd)⟩

theorem Stays.rewrite {w : World} {i : ObjId} {dat : Data} (hm : (w.heap i).mapped = true) (hk : dat.kind = (w.heap i).kind) :
    Stays w (MM.edit i ⟨dat, (w.heap i).body.kids⟩ w) := by
  refine ⟨Nat.le_refl _, fun j _ => ?_, fun j _ h => ?_, fun j _ _ k x h => ?_⟩ <;>
    (by_cases hj : j = i
     · subst hj; rw [edit_self]; first | exact hk | exact hm | exact h
     · rw [edit_ne _ w hj]; try exact h)

theorem Stays.leads {w w' : World} (h : Stays w w') (hf : Fine C w) {a j : ObjId} {ks : List Key} (ha : a < w.next)
    (hl : Leads w.heap a ks j) : Leads w'.heap a ks j := by
  induction hl with
  | nil => exact Leads.nil _
  | cons t c hm hd _ ih =>
    exact Leads.cons t c (h.mapped _ ha hm) (h.kids _ ha hm _ _ hd) (ih (hf.kids _ hm c (dget_sub hd)))

theorem VerAt.stays {w w' : World} {i x : ObjId} {v : Str} {p : PPath} (h : VerAt w i v p x) (hg : Stays w w') :
    VerAt w' i v p x :=
  ⟨Nat.lt_of_lt_of_le h.lt hg.next, hg.mapped _ h.lt h.mapped, h.part.imp fun _ ht => hg.kids _ h.lt h.mapped _ _ ht⟩

theorem Entered.stays {w w' : World} {us dt m : ObjId} {u : Uuid} {v : Str} {p : PPath} {path : List Str}
    (h : Entered w us u v p dt path m) (hf : Fine C w) (hg : Stays w w') : Entered w' us u v p dt path m := by
  obtain ⟨vl, y, h1, h2⟩ := h.entry
  have h3 := h.record
  exact ⟨⟨Nat.lt_of_lt_of_le h3.lt hg.next, by rw [hg.kind _ h3.lt]; exact h3.tree, hg.leads hf h3.lt h3.leads,
      Nat.lt_of_lt_of_le h3.there hg.next, hg.mapped _ h3.there h3.mapped, (hg.kind _ h3.there).trans h3.kind⟩,
    vl, y, ⟨Nat.lt_of_lt_of_le h1.lt hg.next, hg.mapped _ h1.lt h1.mapped,
      h1.part.imp fun _ ht => hg.kids _ h1.lt h1.mapped _ _ ht⟩, h2.stays hg⟩

theorem Done.stays {w w' : World} {tvl us : ObjId} {id : Uuid} {v : Str} {pre : PPath} {path : List Str}
    {root : Option Uuid} {rv : Option Str} {m : ObjId} (h : Done w tvl us id v pre path root rv m) (hf : Fine C w)
    (hg : Stays w w') : Done w' tvl us id v pre path root rv m := by
  obtain ⟨tv, dt, h1, h2, h3, h4⟩ := h
  refine ⟨tv, dt, h1, h2.stays hg, h3.stays hf hg, fun hp => ?_⟩
  obtain ⟨u, m0, h5, h6⟩ := h4 hp
  exact ⟨u, m0, h5, h6.stays hf hg⟩

/-! ### What is found -/

/-- The data later: the same, or metadata with further runs. -/
def Later (d d' : Data) : Prop :=
  d' = d ∨ ∃ (m : Sets) (runs : List (Str × Instance)), d = .metadata m ∧ (∀ x ∈ runs, x.2.WF) ∧
    d' = .metadata (runs.foldl (fun m x => m.addRun x.1 x.2) m)

theorem Later.refl (d : Data) : Later d d := Or.inl rfl

theorem Later.trans {a b c : Data} (h : Later a b) (h' : Later b c) : Later a c := by
  rcases h with rfl | ⟨m, l, rfl, hl, rfl⟩
  · exact h'
  · rcases h' with rfl | ⟨m', l', e, hl', rfl⟩
    · exact Or.inr ⟨m, l, rfl, hl, rfl⟩
    · cases e
      refine Or.inr ⟨m, l ++ l', rfl, fun x hx => ?_, by rw [List.foldl_append]⟩
      rcases List.mem_append.mp hx with hx | hx
      · exact hl x hx
      · exact hl' x hx

theorem Later.kind {a b : Data} (h : Later a b) : b.kind = a.kind := by
  rcases h with rfl | ⟨m, l, rfl, _, rfl⟩ <;> rfl

/-- Everything that is found at one place is found at the other, with the same data or with
further runs. -/
def Over (C : Cfg) (L : Log) (h : Heap) (n : Node) (L' : Log) (h' : Heap) (n' : Node) : Prop :=
  ∀ ks t s d b, look C L h ks t n = .found s d b →
    ∃ d' b', look C L' h' ks t n' = .found s d' b' ∧ Later d d' ∧ (b = false → b' = false)

theorem Over.trans {L L' L'' : Log} {h h' h'' : Heap} {n n' n'' : Node} (a : Over C L h n L' h' n')
    (b : Over C L' h' n' L'' h'' n'') : Over C L h n L'' h'' n'' := by
  intro ks t s d x hx
  obtain ⟨d1, b1, h1, h2, h3⟩ := a ks t s d x hx
  obtain ⟨d2, b2, h4, h5, h6⟩ := b ks t s d1 b1 h1
  exact ⟨d2, b2, h4, h2.trans h5, fun e => h6 (h3 e)⟩

theorem SameContent.over {L L' : Log} {h h' : Heap} {n n' : Node} (a : SameContent C L h n L' h' n') :
    Over C L h n L' h' n' :=
  fun ks t s d b hx => ⟨d, b, by rw [← a ks t]; exact hx, .refl d, id⟩

/-- Nothing is lost in any object. -/
def Richer (C : Cfg) (w w' : World) : Prop :=
  ∀ j, j < w.next → Over C w.repo.log w.heap (.mem j) w'.repo.log w'.heap (.mem j)

theorem Richer.refl (w : World) : Richer C w w := fun _ _ => SameContent.over (SameContent.refl _ _ _ _)

theorem Richer.trans {a b c : World} (hn : a.next ≤ b.next) (h : Richer C a b) (h' : Richer C b c) : Richer C a c :=
  fun j hj => (h j hj).trans (h' j (Nat.lt_of_lt_of_le hj hn))

theorem Held.richer {w w' : World} (h : Held C w w') : Richer C w w' := by
  intro j hj ks t s d b hx
  obtain ⟨b', h1, h2⟩ := h j hj ks t s d b hx
  exact ⟨d, b', h1, .refl d, h2⟩

theorem Loads.richer {w w' : World} (h : Loads C w w') : Richer C w w' := fun j hj => (h.content j hj).over

/-- What is found at the end of a path -/
theorem Leads.data {L : Log} {h : Heap} {i j : ObjId} {ks : List Key} (hl : Leads h j ks i) (hm : (h i).mapped = true) :
    ∀ {t s : Str} {d : Data} {b : Bool}, MM.look C L h ks t (.mem j) = .found s d b → d = (h i).body.data := by
  induction hl with
  | nil =>
    intro t s d b hx
    rw [look_nil t (view_mapped hm)] at hx
    cases hx; rfl
  | cons t' c hm' hd _ ih =>
    intro t s d b hx
    rw [look_cons (view_mapped hm'), Body.dget_map, hd] at hx
    simp only [Option.map_some] at hx
    cases hv : view C L h (.mem c) with
    | error e => rw [hv] at hx; cases hx
    | ok bv =>
      rw [hv] at hx
      simp only at hx
      split at hx
      · cases hx
      · exact ih hm hx

theorem Richer.ran {w : World} {i : ObjId} {m : Sets} (hm : (w.heap i).mapped = true) (hd : (w.heap i).body.data = .metadata m)
    (ext : Str) {run : Instance} (hw : run.WF) :
    Richer C w (MM.edit i ⟨.metadata (m.addRun ext run), (w.heap i).body.kids⟩ w) := by
  have hch : DataChanged i (.metadata (m.addRun ext run)) w.heap
      (MM.edit i ⟨.metadata (m.addRun ext run), (w.heap i).body.kids⟩ w).heap := by
    refine ⟨hm, by rw [edit_self]; exact hm, by rw [edit_self], by rw [edit_self], by rw [hd]; rfl, fun j hj => edit_ne _ w hj⟩
  intro j _ ks t s d b hx
  have := hch.look (C := C) (L := w.repo.log) ks t j
  show ∃ d' b', look C w.repo.log _ ks t (.mem j) = .found s d' b' ∧ _ ∧ _
  by_cases hl : Leads w.heap j ks i
  · rw [this.1 hl, hx]
    refine ⟨_, b, rfl, ?_, id⟩
    have hdd : d = .metadata m := by
      have h2 := hl.data hm hx
      rw [h2, hd]
    exact Or.inr ⟨m, [(ext, run)], hdd, fun x hx => by rw [List.mem_singleton.mp hx]; exact hw, rfl⟩
  · rw [this.2 hl]
    exact ⟨d, b, hx, .refl d, id⟩

/-! ### The invariant -/

/-- The objects in use are those of a process in which nothing else is left. -/
structure Bench (C : Cfg) (r : Realm) (g t u : ObjId) (w v : World) : Prop where
  side : Side (fun j => g ≤ j) w v
  desk : Desk C r t u v
  gt : g ≤ t
  gu : g ≤ u
  empty : ∀ j, j < g → (v.heap j).body.kids = []

theorem Bench.step {α : Type} {P : α → Prop} {g t u : ObjId} {w v : World} (b : Bench C r g t u w v) {f : W α}
    (hf : Twin (fun j => g ≤ j) P f) (hd : Desk C r t u (f v).2) : Bench C r g t u (f w).2 (f v).2 := by
  obtain ⟨_, h2, h3, _⟩ := hf w v b.side
  refine ⟨h2, hd, b.gt, b.gu, fun j hj => ?_⟩
  rw [(h3 j (Nat.not_le.mpr hj)).2]
  exact b.empty j hj

theorem getVersionList_any {w : World} (hs : Fine C w) {i : ObjId} (hi : i < w.next) (u : Uuid) :
    Loads C w (getVersionList C i u w).2 := by
  have hp := part_any hs .key hi (.uuid u)
  rw [getVersionList_part]
  cases h : part C .key i (.uuid u) w with
  | mk res w1 =>
    rw [h] at hp
    cases res with
    | error e => rw [M.bind_of_error h]; exact hp
    | ok x => rw [M.bind_of_ok h]; exact hp

/-- The parts of a root record after one was set -/
theorem mrrSet_spec {b : Body ObjId} (hform : Formed b) (hk : b.data.kind = .mrr) {k : Key} (hkey : k = .dlm ∨ k = .ft)
    (x : ObjId) : Formed ⟨b.data, mrrSet b.kids k x⟩ ∧ dget (mrrSet b.kids k x) k = some ([], x) ∧
      ∀ k', k' ≠ k → dget (mrrSet b.kids k x) k' = dget b.kids k' := by
  have hst : ∀ k' y, dget b.kids k' = some y → y.1 = [] := fun k' y hy =>
    hform.stamps (by rw [hk]; rfl) _ (mem_of_dget hy)
  have hback : ∀ k' : Key, ((dget b.kids k').map Prod.snd).map (fun d => (([] : Str), d)) = dget b.kids k' := by
    intro k'
    cases hd : dget b.kids k' with
    | none => rfl
    | some y =>
      have := hst k' y hd
      obtain ⟨t, c⟩ := y
      simp only at this
      rw [this]; rfl
  refine ⟨⟨nodup_mrrKids _ _, fun e he => ?_, fun _ e he => (mem_mrrKids he).2⟩, ?_, fun k' hk' => ?_⟩
  · show Key.fits b.data.kind e.1 = true
    rw [hk]
    rcases (mem_mrrKids he).1 with h | h <;> rw [h] <;> rfl
  · simp only [mrrSet]
    rcases hkey with rfl | rfl
    · rw [dget_mrrKids_dlm, if_pos rfl]; rfl
    · rw [dget_mrrKids_ft, if_pos rfl]; rfl
  · simp only [mrrSet]
    by_cases h1 : k' = .dlm
    · subst h1
      rw [dget_mrrKids_dlm, if_neg (fun e => hk' e.symm), hback]
    · by_cases h2 : k' = .ft
      · subst h2
        rw [dget_mrrKids_ft, if_neg (fun e => hk' e.symm), hback]
      · have a1 : dget b.kids k' = none := by
          cases hd : dget b.kids k' with
          | none => rfl
          | some y =>
            have := hform.fits _ (mem_of_dget hd)
            rw [hk] at this
            cases k' <;> first | exact absurd rfl h1 | exact absurd rfl h2 | cases this
        rw [a1]
        cases hd : dget (mrrKids (if k = .dlm then some x else (dget b.kids .dlm).map Prod.snd)
            (if k = .ft then some x else (dget b.kids .ft).map Prod.snd)) k' with
        | none => rfl
        | some y =>
          rcases (mem_mrrKids (mem_of_dget hd)).1 with h | h
          · exact absurd h h1
          · exact absurd h h2

theorem setPart_run {k : Key} (hkey : k = .dlm ∨ k = .ft) {i x : ObjId} {w : World} (hm : (w.heap i).mapped = true) :
    setPart C k i x w = (.ok (), MM.edit i ⟨(w.heap i).body.data, mrrSet (w.heap i).body.kids k x⟩ w) := by
  unfold setPart
  rcases hkey with rfl | rfl
  · rw [if_pos rfl]
    unfold setDlm
    rw [M.bind_of_ok (ensureMapped_mapped hm), M.bind_of_ok (getObj_run i w), change_run]
  · rw [if_neg (by decide)]
    unfold setFileTree
    rw [M.bind_of_ok (ensureMapped_mapped hm), M.bind_of_ok (getObj_run i w), change_run]

theorem twin_setPart {A : ObjId → Prop} {k : Key} {i x : ObjId} (hi : A i) (hx : A x) : Twin A (fun _ => True) (setPart C k i x) := by
  have hb : ∀ (o : Obj) (k : Key), (∀ y ∈ o.body.subs, A y) → ∀ y ∈ (⟨o.body.data, mrrSet o.body.kids k x⟩ : Body ObjId).subs, A y := by
    intro o k ho y hy
    obtain ⟨e, he, rfl⟩ := List.mem_map.mp hy
    simp only [mrrSet, mrrKids] at he
    have old : ∀ k' c, (dget o.body.kids k').map Prod.snd = some c → A c := by
      intro k' c hc
      cases hd : dget o.body.kids k' with
      | none => rw [hd] at hc; cases hc
      | some z => rw [hd] at hc; cases hc; exact sub_of_dget ho hd
    have one : ∀ (p : Prop) [Decidable p] k' c, (if p then some x else (dget o.body.kids k').map Prod.snd) = some c → A c := by
      intro p _ k' c hc
      split at hc
      · cases hc; exact hx
      · exact old k' c hc
    rcases List.mem_append.mp he with he | he
    · split at he
      · rename_i c hc
        rw [List.mem_singleton.mp he]
        exact one _ _ _ hc
      · cases he
    · split at he
      · rename_i c hc
        rw [List.mem_singleton.mp he]
        exact one _ _ _ hc
      · cases he
  unfold setPart
  split
  · unfold setDlm
    exact Twin.load hi fun o _ ho => twin_change hi (hb o _ ho)
  · unfold setFileTree
    exact Twin.load hi fun o _ ho => twin_change hi (hb o _ ho)

/-- A root record got dataset-level metadata or a file tree. -/
theorem Desk.setPart {t u : ObjId} {w : World} (d : Desk C r t u w) {k : Key} {i x : ObjId} (hi : i < w.next)
    (hik : (w.heap i).kind = .mrr) (hm : (w.heap i).mapped = true) (hnone : dget (w.heap i).body.kids k = none) (hx : x < w.next)
    (hxk : k = .dlm ∧ (w.heap x).kind = .metadata ∨ k = .ft ∧ (w.heap x).kind = .mtree .metadata) (hl : Loose w x) :
    Desk C r t u (MM.setPart C k i x w).2 ∧ Stays w (MM.setPart C k i x w).2 ∧ Richer C w (MM.setPart C k i x w).2 := by
  have hkey : k = .dlm ∨ k = .ft := hxk.imp And.left And.left
  obtain ⟨m1, m2, m3⟩ := mrrSet_spec (d.sound.fine.formed i hm) hik hkey x
  rw [setPart_run hkey hm]
  have hxi : ¬ Reach w.heap x i := by
    intro hr
    have h1 := d.sound.typed.level hr
    rw [hik] at h1
    rcases hxk with ⟨_, e⟩ | ⟨_, e⟩ <;> rw [e] at h1 <;> exact absurd h1 (by decide)
  have hkid : KidOk (w.heap i).kind k (w.heap x).kind := by
    rw [hik]
    rcases hxk with ⟨rfl, e⟩ | ⟨rfl, e⟩ <;> rw [e] <;> rfl
  have hxt : x ≠ t := by
    rintro rfl
    have := d.tk
    rcases hxk with ⟨_, e⟩ | ⟨_, e⟩ <;> rw [e] at this <;> cases this
  have hga := (gained_extend (b := ⟨(w.heap i).body.data, mrrSet (w.heap i).body.kids k x⟩) d.sound hm rfl m1 m2 m3 hnone hx hxi hkid).2
  exact ⟨d.extend (b := ⟨(w.heap i).body.data, mrrSet (w.heap i).body.kids k x⟩) hi hm rfl m1 m2 m3 hnone hx hxi hkid (by rcases hkey with rfl | rfl <;> trivial) (.inl ⟨hxt, hl⟩),
    hga.grown.stays, hga.held.richer⟩

/-- An object that is part of nothing in use -/
theorem Bench.loose {g t u : ObjId} {w v : World} (b : Bench C r g t u w v) {x : ObjId}
    (hl : ∀ q, g ≤ q → q < w.next → ¬ Has w.heap q x) : Loose v x := by
  intro q hq
  by_cases hqg : g ≤ q
  · have hlt := b.desk.rooted.bare q x hq
    unfold Has at hq
    rw [b.side.heap q hqg] at hq
    exact hl q hqg (by rw [← b.side.next]; exact hlt) hq
  · have := hq.2
    unfold Body.subs at this
    rw [b.empty q (Nat.not_le.mp hqg)] at this
    cases this

theorem Bench.busy {g t u : ObjId} (hr : r ≠ []) {w w' : World} (hb : Busy C g t u w w') :
    ∀ {v}, Bench C r g t u w v → ∃ v', Bench C r g t u w' v' ∧ Stays v v' ∧ Richer C v v' := by
  intro v b0
  induction hb with
  | refl => exact ⟨v, b0, (Grown.refl v).stays, .refl v⟩
  | loaded w' i _ hg hi ih =>
    obtain ⟨v', b, s, k⟩ := ih
    have hi' : i < v'.next := by rw [b.side.next]; exact hi
    have hl := b.desk.sound.fine.loadsStep hi'
    exact ⟨_, b.step (twin_ensureMapped hg) (b.desk.loads hr hl), s.trans hl.grown.stays, k.trans s.next hl.richer⟩
  | read w' i _ hg hi ih =>
    obtain ⟨v', b, s, k⟩ := ih
    have hi' : i < v'.next := by rw [b.side.next]; exact hi
    have hl := b.desk.sound.fine.readStep hi'
    exact ⟨_, b.step (twin_readIn hg) (b.desk.loads hr hl), s.trans hl.grown.stays, k.trans s.next hl.richer⟩
  | looked w' i p _ hg hi ih =>
    obtain ⟨v', b, s, k⟩ := ih
    have hl := getObjectAt_any (C := C) p b.desk.sound.fine (i := i) (by rw [b.side.next]; exact hi)
    exact ⟨_, b.step (twin_getObjectAt p hg) (b.desk.loads hr hl), s.trans hl.grown.stays, k.trans s.next hl.richer⟩
  | listed w' i id _ hg hi ih =>
    obtain ⟨v', b, s, k⟩ := ih
    have hl := getVersionList_any b.desk.sound.fine (i := i) (by rw [b.side.next]; exact hi) id
    exact ⟨_, b.step (twin_getVersionList hg id) (b.desk.loads hr hl), s.trans hl.grown.stays, k.trans s.next hl.richer⟩
  | element w' i v p _ hg hi ih =>
    obtain ⟨v', b, s, k⟩ := ih
    have hl := getVersioned_any b.desk.sound.fine (i := i) (by rw [b.side.next]; exact hi) v p
    exact ⟨_, b.step (twin_getVersioned hg v p) (b.desk.loads hr hl), s.trans hl.grown.stays, k.trans s.next hl.richer⟩
  | asked w' auto now id v pre path root rv _ hc hp ih =>
    obtain ⟨v', b, s, k⟩ := ih
    cases hx : rootRecord C auto now t u id v pre path root rv v' with
    | mk res v2 =>
      have d2 := b.desk.rootRecord hr auto now id v hc hp root rv hx
      have run := rootRecord_run b.desk.sound auto now b.desk.tl b.desk.tk b.desk.ul b.desk.uk id v pre
        (fun n hn => (hp n hn).1) root rv hx
      have e : v2 = (rootRecord C auto now t u id v pre path root rv v').2 := by rw [hx]
      rw [e] at d2 run
      exact ⟨_, b.step (twin_rootRecord b.gt b.gu auto now id v pre path root rv) d2,
        s.trans run.part.gained.grown.stays, k.trans s.next run.part.gained.held.richer⟩
  | new w' x _ hk hd ih =>
    obtain ⟨v', b, s, k⟩ := ih
    have hform : Formed x := ⟨by rw [hk]; exact List.nodup_nil, (fun e he => by rw [hk] at he; cases he),
      (fun _ e he => by rw [hk] at he; cases he)⟩
    have hs := gained_create b.desk.sound hform (fun e he => by rw [hk] at he; cases he) (fun _ _ => True)
    have := b.step (f := alloc (Obj.new x)) (Twin.alloc (fun _ y hy => by
      unfold Body.subs at hy
      rw [show (Obj.new x).body.kids = [] from hk] at hy
      cases hy)) (b.desk.create hd hk).1
    exact ⟨_, this, s.trans hs.2.grown.stays, k.trans s.next hs.2.held.richer⟩
  | ran w' i ext run _ hg hi hw ih =>
    obtain ⟨v', b, s, k⟩ := ih
    have hi' : i < v'.next := by rw [b.side.next]; exact hi
    cases hx : addExtractorRun C i ext run v' with
    | mk res v2 =>
      have d2 := b.desk.ran hr hi' ext hw hx
      have s2 : Stays v' v2 ∧ Richer C v' v2 := by
        have hl := b.desk.sound.fine.loadsStep hi'
        cases h1 : ensureMapped C i v' with
        | mk r1 v1 =>
          rw [h1] at hl
          cases r1 with
          | error e =>
            unfold addExtractorRun at hx
            rw [M.bind_of_error h1] at hx
            cases hx; exact ⟨hl.grown.stays, hl.richer⟩
          | ok y =>
            have hm := (b.desk.sound.fine.loaded hi' h1).2
            unfold addExtractorRun at hx
            rw [M.bind_of_ok h1, M.bind_of_ok (getObj_run i v1)] at hx
            cases hd : (v1.heap i).body.data with
            | metadata m =>
              rw [hd] at hx
              simp only at hx
              rw [change_run] at hx
              cases hx
              refine ⟨hl.grown.stays.trans (Stays.rewrite hm ?_), hl.richer.trans hl.next (.ran hm hd ext hw)⟩
              show Kind.metadata = (v1.heap i).body.data.kind
              rw [hd]; rfl
            | _ => rw [hd] at hx; cases hx; exact ⟨hl.grown.stays, hl.richer⟩
      have e : v2 = (addExtractorRun C i ext run v').2 := by rw [hx]
      rw [e] at d2 s2
      exact ⟨_, b.step (twin_addExtractorRun hg ext run) d2, s.trans s2.1, k.trans s.next s2.2⟩
  | filed w' leaf i x p _ hg hi hik hgx hx hxk hl hp ih =>
    obtain ⟨v', b, s, k⟩ := ih
    have hi' : i < v'.next := by rw [b.side.next]; exact hi
    have hx' : x < v'.next := by rw [b.side.next]; exact hx
    have hik' : (v'.heap i).kind = .mtree leaf := by rw [b.side.heap i hg]; exact hik
    have hxk' : (v'.heap x).kind = leaf.kind := by rw [b.side.heap x hgx]; exact hxk
    have hl' : Loose v' x := by
      intro q hq
      by_cases hqg : g ≤ q
      · have hlt := b.desk.rooted.bare q x hq
        unfold Has at hq
        rw [b.side.heap q hqg] at hq
        exact hl q hqg (by rw [← b.side.next]; exact hlt) hq
      · have := hq.2
        unfold Body.subs at this
        rw [b.empty q (Nat.not_le.mp hqg)] at this
        cases this
    cases hy : addChildAt C x p i v' with
    | mk res v2 =>
      have d2 := b.desk.filed hr hi' hik' hx' hxk' hl' hp hy
      have s2 : Stays v' v2 ∧ Richer C v' v2 := by
        have hf := b.desk.sound.fine
        cases res with
        | error e =>
          have hl := addChildAt_error p (fun n hn => (hp n hn).1) hf hi' hy
          exact ⟨hl.grown.stays, hl.richer⟩
        | ok _ =>
          obtain ⟨v1, q, n, rest, m, hpq, hlo, ha⟩ := addChildAt_ok p (fun n hn => (hp n hn).1) hf hi'
            (by rw [hik']; rfl) hy
          have d1 := b.desk.loads hr hlo
          have hik1 : (v1.heap i).kind = .mtree leaf := (hlo.kind i hi').trans hik'
          have hxk1 : (v1.heap x).kind = leaf.kind := (hlo.kind x hx').trans hxk'
          have hga := (gained_added d1.sound ha (Nat.lt_of_lt_of_le hi' hlo.next) hik1
            (Nat.lt_of_lt_of_le hx' hlo.next) hxk1 (fun hr => by
              have h1 := d1.sound.typed.level hr
              rw [hxk1, d1.sound.typed.node ha.tree q i hik1 ha.lead] at h1
              cases leaf <;> exact absurd h1 (by decide))).2
          exact ⟨hlo.grown.stays.trans hga.grown.stays, hlo.richer.trans hlo.next hga.held.richer⟩
      have e : v2 = (addChildAt C x p i v').2 := by rw [hy]
      rw [e] at d2 s2
      exact ⟨_, b.step (twin_addChildAt hgx p hg) d2, s.trans s2.1, k.trans s.next s2.2⟩
  | part w' key i x _ hg hi hik hm hnone hgx hx hxk hl ih =>
    obtain ⟨v', b, s, k⟩ := ih
    obtain ⟨d2, s1, s2⟩ := b.desk.setPart (k := key) (i := i) (x := x) (by rw [b.side.next]; exact hi) (by rw [b.side.heap i hg]; exact hik)
      (by rw [b.side.heap i hg]; exact hm) (by rw [b.side.heap i hg]; exact hnone) (by rw [b.side.next]; exact hx)
      (by rw [b.side.heap x hgx]; exact hxk) (b.loose hl)
    exact ⟨_, b.step (twin_setPart hg hgx) d2, s.trans s1, k.trans s.next s2⟩

/-! ### The start -/

/-- All objects are new, without parts. -/
structure Vacant (w : World) : Prop where
  caches : w.caches = []
  mapped : ∀ j, (w.heap j).mapped = true
  kids : ∀ j, (w.heap j).body.kids = []
  saved : ∀ j, (w.heap j).savedOn = []
  ref : ∀ j, (w.heap j).ref = none
  data : ∀ j, j < w.next → DataOk (w.heap j).body.data

theorem vacant_start (s : Repo) : Vacant (start s) :=
  ⟨rfl, fun _ => rfl, fun _ => rfl, fun _ => rfl, fun _ => rfl, fun j hj => absurd hj (Nat.not_lt_zero j)⟩

theorem Vacant.intact {w : World} (h : Vacant w) :
    Intact C r w ∧ (∀ j, Truth C r w.repo.log w.heap j) ∧ Sound C w := by
  have sub : ∀ j, (w.heap j).body.subs = [] := fun j => by unfold Body.subs; rw [h.kids]; rfl
  have away : ∀ {P : Prop} (j), (w.heap j).mapped = false → P := fun j e => by rw [h.mapped] at e; cases e
  have hrank : ∃ rank, Ranked rank w.heap := ⟨fun _ => 0, fun p _ k h => by rw [sub] at h; cases h⟩
  refine ⟨⟨h.caches, fun p h => away p h, fun p h => away p h, hrank, ?_, fun p h => away p h, ?_, fun p h => away p h⟩, ?_,
    ⟨⟨?_, hrank, fun p h => away p h, fun p h => away p h, ?_⟩, ?_⟩⟩
  · intro j x e; rw [h.saved] at e; cases e
  · intro p _ k e; rw [sub] at e; cases e
  · intro j hc; have := hc.flag; rw [h.saved] at this; cases this
  · intro p _ k e; rw [sub] at e; cases e
  · intro j _
    exact ⟨by rw [h.kids]; exact List.nodup_nil, (fun e he => by rw [h.kids] at he; cases he),
      (fun _ e he => by rw [h.kids] at he; cases he)⟩
  · intro p _ e he; rw [h.kids] at he; cases he

theorem Vacant.desk {t u : ObjId} {w : World} (h : Vacant w) (htk : (w.heap t).kind = .tvl) (huk : (w.heap u).kind = .uuidset)
    (ht : t < w.next) (hu : u < w.next) : Desk C r t u w := by
  obtain ⟨h1, h2, h3⟩ := h.intact (C := C) (r := r)
  have has : ∀ q k, ¬ Has w.heap q k := fun q k e => by
    have := e.2
    unfold Body.subs at this
    rw [h.kids] at this
    cases this
  refine ⟨h1, h2, h3, htk, huk, ht, hu,
    ⟨fun q k h => absurd h (has q k), fun k p q _ h => absurd h (has p k), fun k q _ h => absurd h (has q k),
      fun k p q _ _ _ h => absurd h (has p k)⟩, ?_, fun j _ e => (by rw [h.mapped] at e; cases e), ?_, ?_, ?_⟩
  · intro j hj _; exact ⟨h.data j hj, fun e he => by rw [h.kids] at he; cases he⟩
  · intro j ref e; rw [h.ref] at e; cases e
  · intro e; rw [h.saved] at e; cases e
  · intro e; rw [h.saved] at e; cases e

/-- Objects for what the repository holds -/
theorem desk_found (hr : r ≠ []) {i : World} (p : Vacant i) (h : Stocked C r i.repo.log) :
    Desk C r i.next (i.next + 1) (create (uuidSetLink.obj r) (create (tvlLink.obj r) i)) := by
  obtain ⟨i0, t0, s0⟩ := p.intact (C := C) (r := r)
  obtain ⟨ft, pt⟩ := h tvlLink tvlRefName (Or.inl ⟨rfl, rfl⟩) i.heap
  obtain ⟨i1, t1⟩ := i0.load hr (l := tvlLink) (fun _ => ⟨⟨tvlRefName, rfl, Or.inr (Or.inr rfl)⟩, fun e => by cases e⟩) ft
  obtain ⟨s1, c1⟩ := s0.open hr (l := tvlLink) rfl ft
  obtain ⟨fu, pu⟩ := h uuidSetLink uuidSetRefName (Or.inr ⟨rfl, rfl⟩) (create (tvlLink.obj r) i).heap
  obtain ⟨i2, t2⟩ := i1.load hr (l := uuidSetLink) (fun _ => ⟨⟨uuidSetRefName, rfl, Or.inr (Or.inr rfl)⟩, fun e => by cases e⟩) fu
  obtain ⟨s2, c2⟩ := s1.open hr (l := uuidSetLink) rfl fu
  generalize hw : create (uuidSetLink.obj r) (create (tvlLink.obj r) i) = w at i2 t2 s2 c2 ⊢
  have hn : w.next = i.next + 2 := by rw [← hw]; rfl
  have hlog : w.repo.log = i.repo.log := by rw [← hw]; rfl
  have h0 : w.heap i.next = tvlLink.obj r := by
    rw [← hw, create_ne _ _ (show i.next ≠ i.next + 1 by oomega)]
    exact create_self _ i
  have h1 : w.heap (i.next + 1) = uuidSetLink.obj r := by rw [← hw]; exact create_self _ (create (tvlLink.obj r) i)
  have cases3 : ∀ j, j = i.next ∨ j = i.next + 1 ∨ (w.heap j = i.heap j ∧ (j < w.next → j < i.next)) := by
    intro j
    by_cases a : j = i.next
    · exact Or.inl a
    · by_cases b : j = i.next + 1
      · exact Or.inr (Or.inl b)
      · refine Or.inr (Or.inr ⟨?_, fun hj => ?_⟩)
        · rw [← hw, create_ne _ _ b, create_ne _ _ a]
        · rw [hn] at hj; oomega
  have has : ∀ q k, ¬ Has w.heap q k := by
    intro q k hq
    rcases cases3 q with e | e | ⟨e, _⟩
    · subst e; have := hq.1; rw [h0] at this; cases this
    · subst e; have := hq.1; rw [h1] at this; cases this
    · have := hq.2; rw [e] at this; unfold Body.subs at this; rw [p.kids] at this; cases this
  refine ⟨i2, fun j => ?_, s2, by rw [h0]; rfl, by rw [h1]; rfl, by rw [hn]; oomega, by rw [hn]; oomega,
    ⟨fun q k h => absurd h (has q k), fun k p q _ h => absurd h (has p k), fun k q _ h => absurd h (has q k),
      fun k p q _ _ _ h => absurd h (has p k)⟩, ?_, ?_, ?_, ?_, ?_⟩
  · have e : w.repo.log = (create (tvlLink.obj r) i).repo.log := by rw [← hw]; rfl
    rw [e]
    exact t2 j (Or.inr (t1 j (Or.inr (t0 j))))
  · intro j hj hmj
    rcases cases3 j with e | e | ⟨e, hlt⟩
    · subst e; rw [h0] at hmj; cases hmj
    · subst e; rw [h1] at hmj; cases hmj
    · rw [e, p.kids]
      exact ⟨p.data j (hlt hj), fun e he => by cases he⟩
  · intro j hj hmj
    rcases cases3 j with e | e | ⟨e, _⟩
    · subst e
      have := look_unloaded (C := C) (L := w.repo.log) (h := w.heap) (h' := i.heap) (i := i.next) (r := r)
        (ref := tvlLink.ref) (by rw [h0]; rfl) (by rw [h0]; rfl) (by rw [h0]; rfl)
      rw [h0] at this
      refine Proper.of_same this.symm ?_
      rw [hlog]
      exact pt
    · subst e
      have := look_unloaded (C := C) (L := w.repo.log) (h := w.heap) (h' := (create (tvlLink.obj r) i).heap)
        (i := i.next + 1) (r := r) (ref := uuidSetLink.ref) (by rw [h1]; rfl) (by rw [h1]; rfl) (by rw [h1]; rfl)
      rw [h1] at this
      refine Proper.of_same this.symm ?_
      rw [hlog]
      exact pu
    · rw [e, p.mapped] at hmj; cases hmj
  · intro j ref hj
    rcases cases3 j with e | e | ⟨e, _⟩
    · subst e
      rw [h0] at hj
      cases hj
      exact Or.inr (Or.inl ⟨rfl, rfl⟩)
    · subst e
      rw [h1] at hj
      cases hj
      exact Or.inr (Or.inr ⟨rfl, rfl⟩)
    · rw [e, p.ref] at hj; cases hj
  · intro _; rw [h0]; rfl
  · intro _; rw [h1]; rfl

/-- Reading changes nothing beyond the objects that exist afterwards. -/
theorem readIn_rest {i : ObjId} {w w' : World} {res : Except PyErr Unit} (h : readIn C i w = (res, w')) (hi : i < w.next) :
    w'.caches = w.caches ∧ w.next ≤ w'.next ∧ ∀ j, w'.next ≤ j → w'.heap j = w.heap j := by
  have key : ∀ res w1, ensureMapped C i w = (res, w1) →
      w1.caches = w.caches ∧ w.next ≤ w1.next ∧ ∀ j, w1.next ≤ j → w1.heap j = w.heap j := by
    intro res w1 h1
    by_cases hm : (w.heap i).mapped = true
    · rw [ensureMapped_mapped hm] at h1
      cases h1
      exact ⟨rfl, Nat.le_refl _, fun _ _ => rfl⟩
    · have hc := ensureMapped_cases C i w (by simpa using hm)
      rw [h1] at hc
      cases hc with
      | failed e h1 h2 h3 h4 => exact ⟨h4, Nat.le_of_eq h2.symm, fun j _ => by rw [h1]⟩
      | none r ref _ _ _ _ _ h4 h5 h6 =>
        refine ⟨h4, Nat.le_of_eq h5.symm, fun j hj => ?_⟩
        rw [h6, Heap.set_ne]
        rintro rfl
        rw [h5] at hj
        exact absurd hi (Nat.not_lt.mpr hj)
      | read r ref loc b is so _ _ _ _ _ _ _ _ h4 h5 _ h6 =>
        refine ⟨h4, h5, fun j hj => h6 j ?_ hj⟩
        rintro rfl
        exact absurd (Nat.lt_of_lt_of_le hi h5) (Nat.not_lt.mpr hj)
  rcases readIn_cases (C := C) i w with ⟨e, w1, h1, h2⟩ | ⟨b, w1, h1, h2⟩ | ⟨b, w1, hm, h2, _, h1⟩
  · rw [h] at h1; cases h1; exact key _ _ h2
  · rw [h] at h1; cases h1; exact key _ _ h2
  · rw [h] at h1
    cases h1
    refine ⟨rfl, Nat.le_refl _, fun j hj => Heap.set_ne ?_⟩
    rintro rfl
    exact absurd hi (Nat.not_lt.mpr hj)

/-- What is done when both top-level objects are found -/
theorem topLevel_found {i : World} {t u : ObjId} {w : World} (htop : topLevel C r i = (.ok (some (t, u)), w)) :
    ∃ w1, readIn C i.next (create (uuidSetLink.obj r) (create (tvlLink.obj r) i)) = (.ok (), w1) ∧
      readIn C (i.next + 1) w1 = (.ok (), w) ∧ t = i.next ∧ u = i.next + 1 := by
  unfold topLevel at htop
  rw [M.bind_of_ok (alloc_run _ _), M.bind_of_ok (alloc_run _ _)] at htop
  change M.catchRuntime (do readIn C i.next; readIn C (i.next + 1); pure (some (i.next, i.next + 1))) _
    (create (uuidSetLink.obj r) (create (tvlLink.obj r) i)) = _ at htop
  generalize create (uuidSetLink.obj r) (create (tvlLink.obj r) i) = w2 at htop ⊢
  unfold M.catchRuntime at htop
  cases h1 : readIn C i.next w2 with
  | mk r1 w1 =>
    cases r1 with
    | error e =>
      rw [M.bind_of_error h1] at htop
      cases e <;> cases htop
    | ok _ =>
      rw [M.bind_of_ok h1] at htop
      cases h2 : readIn C (i.next + 1) w1 with
      | mk r2 w3 =>
        cases r2 with
        | error e =>
          rw [M.bind_of_error h2] at htop
          cases e <;> cases htop
        | ok _ =>
          rw [M.bind_of_ok h2] at htop
          cases htop
          exact ⟨w1, rfl, h2, rfl, rfl⟩

/-- The process without the objects that it has from before -/
def World.cleared (w : World) : World :=
  { w with heap := fun j => if w.next ≤ j then w.heap j else Obj.new (Body.empty .metadata) }

theorem cleared_new {w : World} {j : ObjId} (h : w.next ≤ j) : w.cleared.heap j = w.heap j := if_pos h

theorem cleared_old {w : World} {j : ObjId} (h : ¬ w.next ≤ j) : w.cleared.heap j = Obj.new (Body.empty .metadata) := if_neg h

theorem Idle.vacant {s : Repo} {i : World} (h : Idle s i) : Vacant i.cleared := by
  have key : ∀ j, ∃ k, i.cleared.heap j = Obj.new (Body.empty k) ∧ (j < i.next → k = .metadata) := by
    intro j
    by_cases hj : i.next ≤ j
    · exact ⟨_, (cleared_new hj).trans (h.rest j hj), fun e => absurd e (Nat.not_lt.mpr hj)⟩
    · exact ⟨_, cleared_old hj, fun _ => rfl⟩
  refine ⟨h.caches, fun j => ?_, fun j => ?_, fun j => ?_, fun j => ?_, fun j hj => ?_⟩
  all_goals obtain ⟨k, e, hk⟩ := key j; rw [e]
  · rfl
  · rfl
  · rfl
  · rfl
  · cases hk hj
    exact ⟨List.nodup_nil, fun p hp => by cases hp⟩

theorem Idle.side {s : Repo} {i : World} (h : Idle s i) : Side (fun j => i.next ≤ j) i i.cleared :=
  ⟨fun _ hj => cleared_new hj, rfl, rfl, rfl, rfl, fun p hp _ k hk => (by rw [h.rest p hp] at hk; cases hk), fun _ hj => hj⟩

theorem twin_topLevel (A : ObjId → Prop) : Twin A (fun o => ∀ p, o = some p → A p.1 ∧ A p.2) (topLevel C r) := by
  unfold topLevel
  refine Twin.bind (Twin.alloc (by intro h; cases h)) fun t ht => ?_
  refine Twin.bind (Twin.alloc (by intro h; cases h)) fun u hu => ?_
  have hin : Twin A (fun o => ∀ p, o = some p → A p.1 ∧ A p.2)
      (do readIn C t; readIn C u; pure (some (t, u)) : W (Option (ObjId × ObjId))) :=
    Twin.bind (twin_readIn ht) fun _ _ => Twin.bind (twin_readIn hu) fun _ _ => Twin.pure (by rintro p e; cases e; exact ⟨ht, hu⟩)
  intro w v hs
  obtain ⟨h1, h2, h3, h4⟩ := hin w v hs
  unfold M.catchRuntime
  cases e : (do readIn C t; readIn C u; pure (some (t, u)) : W (Option (ObjId × ObjId))) w with
  | mk res w1 =>
    cases e' : (do readIn C t; readIn C u; pure (some (t, u)) : W (Option (ObjId × ObjId))) v with
    | mk res' v1 =>
      rw [e, e'] at h1 h2 h3
      rw [e] at h4
      simp only at h1 h2 h3 h4
      subst h1
      cases res' with
      | ok a => exact ⟨rfl, h2, h3, h4⟩
      | error er =>
        cases er <;> refine ⟨rfl, h2, h3, fun o ho => ?_⟩ <;> cases ho
        intro p hp
        cases hp

theorem twin_topRecord {A : ObjId → Prop} (auto : Option Bool) (now : Str) (id : Uuid) (v : Str) (pre : PPath) (path : List Str)
    (sub : Option (Uuid × Str)) :
    Twin A (fun x => InOpt A x.2) (topRecord C auto now r id v pre path sub) := by
  unfold topRecord
  refine Twin.bind (twin_topLevel A) fun top htop => ?_
  have go : ∀ t u, A t → A u → Twin A (fun x => InOpt A x.2) (match sub with
      | some (sid, sv) => do
        let m ← rootRecord C auto now t u sid sv pre path (some id) (some v)
        pure (some (t, u), m)
      | none => do
        let m ← rootRecord C auto now t u id v pre path none none
        pure (some (t, u), m) : W (Option (ObjId × ObjId) × Option ObjId)) := by
    intro t u ht hu
    cases sub with
    | none => exact Twin.bind (twin_rootRecord ht hu auto now id v pre path none none) fun m hm => Twin.pure hm
    | some p => exact Twin.bind (twin_rootRecord ht hu auto now p.1 p.2 pre path (some id) (some v)) fun m hm => Twin.pure hm
  cases top with
  | some tu =>
    refine Twin.bind (Twin.pure (P := fun x => x = some tu) rfl) fun x hx => ?_
    subst hx
    exact go tu.1 tu.2 (htop _ rfl).1 (htop _ rfl).2
  | none =>
    simp only
    split
    · refine Twin.bind (Twin.alloc (fun _ k hk => by cases hk)) fun t ht => ?_
      refine Twin.bind (Twin.alloc (fun _ k hk => by cases hk)) fun u hu => ?_
      refine Twin.bind (Twin.pure (P := fun x => x = some (t, u)) rfl) fun x hx => ?_
      subst hx
      exact go t u ht hu
    · refine Twin.bind (Twin.pure (P := fun x : Option (ObjId × ObjId) => x = none) rfl) fun x hx => ?_
      subst hx
      exact Twin.pure (by intro m hm; cases hm)

/-- A failed attempt to open leaves nothing behind but objects. -/
theorem Idle.tried {s : Repo} {i w : World} (h : Idle s i) {o : Option (ObjId × ObjId)} (htop : topLevel C r i = (.ok o, w)) :
    w.caches = [] ∧ ∀ j, w.next ≤ j → w.heap j = Obj.new (Body.empty .text) := by
  unfold topLevel at htop
  rw [M.bind_of_ok (alloc_run _ _), M.bind_of_ok (alloc_run _ _)] at htop
  change M.catchRuntime (do readIn C i.next; readIn C (i.next + 1); pure (some (i.next, i.next + 1))) _
    (create (uuidSetLink.obj r) (create (tvlLink.obj r) i)) = _ at htop
  have hb : ∀ j, (create (uuidSetLink.obj r) (create (tvlLink.obj r) i)).next ≤ j →
      (create (uuidSetLink.obj r) (create (tvlLink.obj r) i)).heap j = Obj.new (Body.empty .text) := by
    intro j hj
    have hj : i.next + 2 ≤ j := hj
    rw [create_ne _ _ (show j ≠ i.next + 1 by oomega), create_ne _ _ (show j ≠ i.next by oomega)]
    exact h.rest j (by oomega)
  have hn2 : (create (uuidSetLink.obj r) (create (tvlLink.obj r) i)).next = i.next + 2 := rfl
  have hca2 : (create (uuidSetLink.obj r) (create (tvlLink.obj r) i)).caches = [] := h.caches
  generalize create (uuidSetLink.obj r) (create (tvlLink.obj r) i) = w2 at htop hb hn2 hca2
  unfold M.catchRuntime at htop
  cases h1 : readIn C i.next w2 with
  | mk r1 w1 =>
    obtain ⟨a1, a2, a3⟩ := readIn_rest h1 (by rw [hn2]; oomega)
    have b1 : w1.caches = [] ∧ ∀ j, w1.next ≤ j → w1.heap j = Obj.new (Body.empty .text) :=
      ⟨a1.trans hca2, fun j hj => (a3 j hj).trans (hb j (Nat.le_trans a2 hj))⟩
    cases r1 with
    | error e =>
      rw [M.bind_of_error h1] at htop
      cases e <;> cases htop
      exact b1
    | ok _ =>
      rw [M.bind_of_ok h1] at htop
      cases h2 : readIn C (i.next + 1) w1 with
      | mk r2 w3 =>
        obtain ⟨c1, c2, c3⟩ := readIn_rest h2 (by oomega)
        have b2 : w3.caches = [] ∧ ∀ j, w3.next ≤ j → w3.heap j = Obj.new (Body.empty .text) :=
          ⟨c1.trans b1.1, fun j hj => (c3 j hj).trans (b1.2 j (Nat.le_trans c2 hj))⟩
        cases r2 with
        | error e =>
          rw [M.bind_of_error h2] at htop
          cases e <;> cases htop
          exact b2
        | ok _ =>
          rw [M.bind_of_ok h2] at htop
          cases htop
          exact b2

theorem Opens.started (hr : r ≠ []) {s : Repo} {g t u : ObjId} {w : World} (h : Opens C r s g t u w) :
    ∃ v, Bench C r g t u w v ∧ ((∃ i, Vacant i ∧ i.repo = s ∧ Stocked C r s.log ∧ topLevel C r i = (.ok (some (t, u)), v)) ∨
      ∀ j, (v.heap j).mapped = true ∧ (v.heap j).body.kids = []) := by
  cases h with
  | found i t u w hi hst htop =>
    have d := desk_found hr hi.vacant (show Stocked C r i.cleared.repo.log by rw [show i.cleared.repo = s from hi.repo]; exact hst)
    obtain ⟨e1, sd, old, _⟩ := twin_topLevel (C := C) (r := r) (fun j => i.next ≤ j) i i.cleared hi.side
    cases htop' : topLevel C r i.cleared with
    | mk res v =>
      rw [htop, htop'] at e1 sd old
      simp only at e1 sd old
      subst e1
      obtain ⟨w1, h1, h2, e1, e2⟩ := topLevel_found htop'
      have e1 : t = i.next := e1
      have e2 : u = i.next + 1 := e2
      subst e1 e2
      have l1 := d.sound.fine.readStep d.tl
      rw [h1] at l1
      have d1 := d.loads hr l1
      have l2 := d1.sound.fine.readStep d1.ul
      rw [h2] at l2
      have d2 := d1.loads hr l2
      refine ⟨v, ⟨sd, d2, Nat.le_refl _, Nat.le_succ _, fun j hj => ?_⟩, Or.inl ⟨i.cleared, hi.vacant, hi.repo, hst, htop'⟩⟩
      rw [(old j (Nat.not_le.mpr hj)).2]
      exact hi.vacant.kids j
  | made i w hi htop =>
    have hw := hi.tried htop
    generalize hw2 : create (Obj.new (Body.empty .uuidset)) (create (Obj.new (Body.empty .tvl)) w) = w2
    have hn : w2.next = w.next + 2 := by rw [← hw2]; rfl
    have ht : w2.heap w.next = Obj.new (Body.empty .tvl) := by
      rw [← hw2, create_ne _ _ (show w.next ≠ w.next + 1 by oomega), create_self]
    have hu : w2.heap (w.next + 1) = Obj.new (Body.empty .uuidset) := by
      rw [← hw2]; exact create_self _ (create (Obj.new (Body.empty .tvl)) w)
    have hx : ∀ j, w.next + 2 ≤ j → w2.heap j = Obj.new (Body.empty .text) := by
      intro j hj
      rw [← hw2, create_ne _ _ (show j ≠ w.next + 1 by oomega), create_ne _ _ (show j ≠ w.next by oomega)]
      exact hw.2 j (by oomega)
    have hca : w2.caches = [] := by rw [← hw2]; exact hw.1
    have all : ∀ j, w.next ≤ j → ∃ k, w2.heap j = Obj.new (Body.empty k) ∧ (j < w2.next → k = .tvl ∨ k = .uuidset) := by
      intro j hj
      by_cases e1 : j = w.next
      · subst e1; exact ⟨_, ht, fun _ => Or.inl rfl⟩
      · by_cases e2 : j = w.next + 1
        · subst e2; exact ⟨_, hu, fun _ => Or.inr rfl⟩
        · exact ⟨_, hx j (by oomega), fun h => by rw [hn] at h; exact absurd h (by oomega)⟩
    let v : World := { w2 with heap := fun j => if w.next ≤ j then w2.heap j else Obj.new (Body.empty .metadata) }
    have hv : ∀ j, w.next ≤ j → v.heap j = w2.heap j := fun j hj => if_pos hj
    have hv' : ∀ j, ¬ w.next ≤ j → v.heap j = Obj.new (Body.empty .metadata) := fun j hj => if_neg hj
    have obj : ∀ j, ∃ k, v.heap j = Obj.new (Body.empty k) ∧ (j < v.next → DataOk (Data.empty k)) := by
      intro j
      by_cases hj : w.next ≤ j
      · obtain ⟨k, h1, h2⟩ := all j hj
        refine ⟨k, (hv j hj).trans h1, fun h => ?_⟩
        rcases h2 h with rfl | rfl <;> exact trivial
      · exact ⟨_, hv' j hj, fun _ => ⟨List.nodup_nil, fun p hp => by cases hp⟩⟩
    have hd : Desk C r w.next (w.next + 1) v := by
      refine Vacant.desk ⟨hca, fun j => ?_, fun j => ?_, fun j => ?_, fun j => ?_, fun j hj => ?_⟩ ?_ ?_ ?_ ?_
      · obtain ⟨k, e, _⟩ := obj j; rw [e]; rfl
      · obtain ⟨k, e, _⟩ := obj j; rw [e]; rfl
      · obtain ⟨k, e, _⟩ := obj j; rw [e]; rfl
      · obtain ⟨k, e, _⟩ := obj j; rw [e]; rfl
      · obtain ⟨k, e, h⟩ := obj j; rw [e]; exact h hj
      · rw [hv _ (Nat.le_refl _), ht]; rfl
      · rw [hv _ (Nat.le_succ _), hu]; rfl
      · show w.next < w2.next; rw [hn]; oomega
      · show w.next + 1 < w2.next; rw [hn]; oomega
    refine ⟨v, ⟨⟨hv, rfl, rfl, rfl, rfl, ?_, fun j hj => ?_⟩, hd, Nat.le_refl _, Nat.le_succ _, fun j hj => ?_⟩,
      Or.inr fun j => ?_⟩
    · intro p hp _ k hk
      obtain ⟨_, e, _⟩ := all p hp
      rw [e] at hk; cases hk
    · show w.next ≤ j
      rw [hn] at hj; oomega
    · rw [hv' j (Nat.not_le.mpr hj)]; rfl
    · obtain ⟨k, e, _⟩ := obj j
      rw [e]
      exact ⟨rfl, rfl⟩

theorem Opens.bench (hr : r ≠ []) {s : Repo} {g t u : ObjId} {w : World} (h : Opens C r s g t u w) :
    ∃ v, Bench C r g t u w v := by
  obtain ⟨v, b, _⟩ := h.started hr
  exact ⟨v, b⟩

end MM
