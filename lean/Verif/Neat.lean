/-
Writing keeps repositories tidy, whatever the outcome.
-/
import Verif.Canon
import Verif.WriteFrame

namespace MM

/-- An object in the form in which the code writes it, if it is a tree, a reference to metadata,
metadata or, if `recs` is set, a root record. -/
def Neatly (C : Cfg) (recs : Bool) : GitObj → Prop
  | .blob s => (∀ ref, Ref.fromText C.floats (gitText s) = .ok ref → s = Ref.toText C.floats ⟨c!"Metadata", ref.loc⟩) ∧
      (∀ m, Sets.fromText C.floats (gitText s) = .ok m → s = m.toText C.floats) ∧
      (recs = true → ∀ j b, loads C.floats (gitText s) = some j → mrrFromJson j = .ok b →
        ∃ u v dlm ft, s = dumps C.floats (mrrJson (some u) (some v) dlm ft) ∧ dlm.cls = c!"Metadata" ∧
          ft.cls = ftClass ft)
  | .tree es => es ≠ [] ∧ WellTree es ∧ es.Pairwise (fun a b => a.le b = true)

theorem tidy_iff {C : Cfg} {L : Log} {r : Realm} {recs : Bool} : Tidy C L r recs ↔ ∀ o, Stored L r o → Neatly C recs o := by
  constructor
  · intro h o ho
    cases o with
    | blob s => exact ⟨fun ref => h.refs s ref ho, fun m => h.metas s m ho, fun hr j b => h.records hr s j b ho⟩
    | tree es => exact h.trees es ho
  · intro h
    exact ⟨fun es hs => h _ hs, fun s ref hs => (h _ hs).1 ref, fun s m hs => (h _ hs).2.1 m, fun hr s j b hs => (h _ hs).2.2 hr j b⟩

section
variable {C : Cfg} {r : Realm} {recs : Bool}

theorem mrrFromJson_not {j : Json} {b : Body Link} (h : ∀ x, j.item c!"dataset_level_metadata" ≠ .ok x) :
    mrrFromJson j ≠ .ok b := by
  intro hb
  unfold mrrFromJson at hb
  obtain ⟨x, hx, _⟩ := ok_bind hb
  exact h x hx

theorem neatly_ref (l : Option Str) : Neatly C recs (.blob (Ref.toText C.floats ⟨c!"Metadata", l⟩)) := by
  have hl : loads C.floats (gitText (Ref.toText C.floats ⟨c!"Metadata", l⟩)) = some (Ref.toJson ⟨c!"Metadata", l⟩) := by
    unfold Ref.toText
    rw [gitText_dumps, loads_dumps C.floats _ (Ref.wf_toJson _)]
  refine ⟨?_, ?_, fun _ j b hj hb => ?_⟩
  · intro ref hr
    unfold Ref.fromText at hr
    rw [hl] at hr
    simp only [Ref.fromJson_toJson, Except.ok.injEq] at hr
    rw [← hr]
  · intro m hm
    unfold Sets.fromText at hm
    rw [hl] at hm
    simp only at hm
    unfold Sets.fromJson at hm
    rw [show checkVersion (Ref.toJson ⟨c!"Metadata", l⟩) = .ok () from by unfold Ref.toJson; rw [checkVersion_tag]] at hm
    have : assertType (Ref.toJson ⟨c!"Metadata", l⟩) c!"Metadata" = .error .assertion := by
      unfold assertType Ref.toJson tag
      simp [Json.item, dget, bind, Except.bind, Json.pyEq]
    rw [this] at hm
    cases hm
  · rw [hl] at hj
    cases hj
    exact absurd hb (mrrFromJson_not (by simp [Ref.toJson, tag, Json.item, dget]))

theorem neatly_meta {m : Sets} (hm : m.WF) : Neatly C recs (.blob (m.toText C.floats)) := by
  have hg : gitText (m.toText C.floats) = m.toText C.floats := by unfold Sets.toText; exact gitText_dumps _ _
  refine ⟨?_, ?_, fun _ j b hj hb => ?_⟩
  · intro ref hr
    unfold Ref.fromText at hr
    rw [hg] at hr
    unfold Sets.toText at hr
    rw [loads_dumps C.floats _ (Sets.wf_toJson hm)] at hr
    simp only at hr
    unfold Ref.fromJson at hr
    have : assertType m.toJson c!"Reference" = .error .assertion := by
      unfold assertType Sets.toJson tag
      simp [Json.item, dget, bind, Except.bind, Json.pyEq]
    rw [this] at hr
    cases hr
  · intro m' h
    rw [hg, Sets.fromText_toText C.floats m hm] at h
    cases h
    rfl
  · rw [hg] at hj
    unfold Sets.toText at hj
    rw [loads_dumps C.floats _ (Sets.wf_toJson hm)] at hj
    cases hj
    exact absurd hb (mrrFromJson_not (by simp [Sets.toJson, tag, Json.item, dget]))

/-- JSON that is not an object with a tag. -/
theorem neatly_json {j : Json} (hj : j.WF) (ht : ∃ e, j.item c!"@" = .error e)
    (hm : recs = true → ∀ b, mrrFromJson j = .ok b → ∃ u v dlm ft, j = mrrJson (some u) (some v) dlm ft ∧
      dlm.cls = c!"Metadata" ∧ ft.cls = ftClass ft) : Neatly C recs (.blob (dumps C.floats j)) := by
  obtain ⟨e, he⟩ := ht
  have hl : loads C.floats (gitText (dumps C.floats j)) = some j := by rw [gitText_dumps, loads_dumps C.floats _ hj]
  refine ⟨?_, ?_, fun hr j' b h1 h2 => ?_⟩
  · intro ref hr
    unfold Ref.fromText at hr
    rw [hl] at hr
    simp only at hr
    unfold Ref.fromJson assertType at hr
    rw [he] at hr
    cases hr
  · intro m hm
    unfold Sets.fromText at hm
    rw [hl] at hm
    simp only at hm
    unfold Sets.fromJson checkVersion at hm
    rw [he] at hm
    cases hm
  · rw [hl] at h1
    cases h1
    obtain ⟨u, v, dlm, ft, rfl, h3, h4⟩ := hm hr b h2
    exact ⟨u, v, dlm, ft, rfl, h3, h4⟩

theorem neatly_mrr {id : Option Uuid} {v : Option Str} {d f : Ref} (hd : DataOk (.mrr id v))
    (h : recs = true → d.cls = c!"Metadata" ∧ f.cls = ftClass f) :
    Neatly C recs (.blob (dumps C.floats (mrrJson id v d f))) := by
  obtain ⟨⟨u, rfl⟩, s, rfl⟩ := hd
  exact neatly_json (wf_mrrJson ..) ⟨.key, by simp [mrrJson, Json.item, dget]⟩
    fun hr b _ => ⟨u, s, d, f, rfl, (h hr).1, (h hr).2⟩

theorem neatly_arr {js : List Json} (h : ∀ j ∈ js, j.WF) : Neatly C recs (.blob (dumps C.floats (.arr js))) :=
  neatly_json (by simp only [Json.WF]; exact Json.wfArr_iff.mpr h) ⟨.type, rfl⟩
    fun _ b hb => absurd hb (mrrFromJson_not (by intro x hx; cases hx))

/-- A tree made of good entries -/
theorem neatly_tree {es es' : List TreeEntry} (hne : es ≠ [])
    (hh : ∀ e ∈ es, isHash e.hash = true ∨ e.hash = noneLocation) (hn : ∀ e ∈ es, NameOk e.name)
    (hnd : (es.map TreeEntry.name).Nodup) (h : mktree (treeSpec es) = some es') : Neatly C recs (.tree es') := by
  obtain ⟨h1, rfl⟩ := mktree_hashes hne hh hn h
  have hp := sortEntries_perm es
  refine ⟨?_, ⟨?_, ?_, ?_⟩, sortEntries_pairwise es⟩
  · intro h0
    rw [h0] at hp
    exact hne (List.nil_perm.mp hp)
  · exact fun e he => h1 e (mem_sortEntries.mp he)
  · exact fun e he => ⟨(hn e (mem_sortEntries.mp he)).slash, (hn e (mem_sortEntries.mp he)).nul⟩
  · exact (hp.map _).nodup_iff.mpr hnd

end

/-! ### Writing -/

/-- No text, no empty set of datasets and, if `recs` is set, no empty file tree -/
def Body.plain (recs : Bool) (b : Body ObjId) : Prop := b.data.kind ≠ .text ∧ (b.data = .uuidset → b.kids ≠ []) ∧
  (recs = true → b.data = .mtree .metadata → b.kids ≠ [])

/-- A reference as writing returns it; if `recs` is set, with the class name that writing gives to
references to metadata and file trees, and no reference to an empty file tree -/
structure RefAs (recs : Bool) (k : Kind) (ref : Ref) : Prop where
  ok : RefOk k ref
  record : recs = true → k = .metadata → ref.cls = c!"Metadata"
  tree : recs = true → k = .mtree .metadata → ref.cls = c!"MTreeNode" ∧ ref.isNone = false

/-- A repository that holds only objects with the property `P`, and a set of objects that contains
their parts and can be stored; `κ` gives the classes of the objects. -/
structure Neat (C : Cfg) (r : Realm) (recs : Bool) (P : GitObj → Prop) (T : ObjId → Prop) (κ : ObjId → Kind) (w : World) : Prop where
  tidy : ∀ o, Stored w.eff r o → P o
  kinds : ∀ j, (w.heap j).kind = κ j
  refs : ∀ j, T j → r ∈ (w.heap j).savedOn → ∃ ref, (w.heap j).ref = some ref ∧ RefAs recs (κ j) ref
  bodies : ∀ j, T j → (w.heap j).mapped = true → BodyOk w.heap (w.heap j).body ∧
    (∀ k ∈ (w.heap j).body.subs, T k) ∧ ((w.heap j).body.plain recs ∨ (recs = false ∧ ∀ s, P (.blob s)))

/-- Whatever the outcome, the repository stays like that; results are as described. -/
def Tame {α : Type} (C : Cfg) (r : Realm) (recs : Bool) (P : GitObj → Prop) (T : ObjId → Prop) (κ : ObjId → Kind) (x : W α) (Q : α → Prop) : Prop :=
  ∀ w, Neat C r recs P T κ w → Neat C r recs P T κ (x w).2 ∧ ∀ a, (x w).1 = .ok a → Q a

section
variable {C : Cfg} {r : Realm} {recs : Bool} {P : GitObj → Prop} {T : ObjId → Prop} {κ : ObjId → Kind}

theorem Tame.bind {α β : Type} {x : W α} {f : α → W β} {Q : α → Prop} {Q' : β → Prop} (hx : Tame C r recs P T κ x Q)
    (hf : ∀ a, Q a → Tame C r recs P T κ (f a) Q') : Tame C r recs P T κ (x >>= f) Q' := by
  intro w hw
  obtain ⟨h1, h2⟩ := hx w hw
  rw [M.bind_run]
  cases hxw : x w with
  | mk res w1 =>
    rw [hxw] at h1 h2
    cases res with
    | ok a => exact hf a (h2 a rfl) w1 h1
    | error e => exact ⟨h1, fun a h => by cases h⟩

theorem Tame.pure {α : Type} {a : α} {Q : α → Prop} (h : Q a) : Tame C r recs P T κ (Pure.pure a : W α) Q :=
  fun w hw => ⟨hw, fun b hb => by cases hb; exact h⟩

theorem Tame.raise {α : Type} (e : PyErr) (Q : α → Prop) : Tame C r recs P T κ (M.raise e : W α) Q :=
  fun w hw => ⟨hw, fun b hb => by cases hb⟩

theorem Tame.mono {α : Type} {x : W α} {Q Q' : α → Prop} (h : Tame C r recs P T κ x Q) (hq : ∀ a, Q a → Q' a) :
    Tame C r recs P T κ x Q' := fun w hw => ⟨(h w hw).1, fun a ha => hq a ((h w hw).2 a ha)⟩

theorem Tame.forEach {α β : Type} {f : α → W β} {Q : α → β → Prop} : ∀ {l : List α},
    (∀ a ∈ l, Tame C r recs P T κ (f a) (Q a)) → Tame C r recs P T κ (M.forEach f l) (fun bs => All2 Q l bs) := by
  intro l
  induction l with
  | nil => intro _; exact Tame.pure All2.nil
  | cons a l ih =>
    intro h
    rw [M.forEach_cons]
    refine Tame.bind (h a (List.mem_cons_self ..)) fun b hb => ?_
    refine Tame.bind (ih fun x hx => h x (List.mem_cons_of_mem _ hx)) fun bs hbs => ?_
    exact Tame.pure (All2.cons hb hbs)

theorem Tame.getObj (i : ObjId) : Tame C r recs P T κ (getObj i) (fun o => o.kind = κ i) := by
  intro w hw
  rw [getObj_run]
  exact ⟨hw, fun o ho => by cases ho; exact hw.kinds i⟩

/-- Only the objects and what is stored matter. -/
theorem Neat.stores {w w' : World} (h : Neat C r recs P T κ w) (hh : w'.heap = w.heap)
    (hs : ∀ o, Stored w'.eff r o → Stored w.eff r o ∨ P o) : Neat C r recs P T κ w' := by
  refine ⟨fun o ho => (hs o ho).elim (h.tidy o) id, ?_, ?_, ?_⟩
  · rw [hh]; exact h.kinds
  · rw [hh]; exact h.refs
  · rw [hh]; exact h.bodies

/-- Marking an object -/
theorem Neat.touch {w : World} (h : Neat C r recs P T κ w) (i : ObjId) (o : Obj) (h1 : o.mapped = (w.heap i).mapped)
    (h2 : o.body = (w.heap i).body) (h3 : o.kind = (w.heap i).kind)
    (h4 : r ∈ o.savedOn → ∃ ref, o.ref = some ref ∧ RefAs recs (κ i) ref) :
    Neat C r recs P T κ { w with heap := w.heap.set i o } := by
  have hk : ∀ j, ((w.heap.set i o) j).kind = (w.heap j).kind := by
    intro j
    by_cases hj : j = i
    · subst hj; simp [h3]
    · rw [Heap.set_ne hj]
  refine ⟨h.tidy, fun j => (hk j).trans (h.kinds j), ?_, ?_⟩
  · intro j hj
    by_cases hji : j = i
    · subst hji; simpa using h4
    · simp only [Heap.set_ne hji]; exact h.refs j hj
  · intro j hj hm
    have hb : ((w.heap.set i o) j).body = (w.heap j).body ∧ ((w.heap.set i o) j).mapped = (w.heap j).mapped := by
      by_cases hji : j = i
      · subst hji; simp [h1, h2]
      · rw [Heap.set_ne hji]; exact ⟨rfl, rfl⟩
    simp only at hm ⊢
    rw [hb.2] at hm
    rw [hb.1]
    obtain ⟨g1, g2, g3⟩ := h.bodies j hj hm
    exact ⟨⟨g1.data, g1.keys, fun e he => by rw [hk]; exact g1.slots e he⟩, g2, g3⟩

theorem Tame.cmd {α : Type} {cmd : Log → List GitOp × Except PyErr α} {Q : α → Prop}
    (h1 : ∀ L o, GitOp.save r o ∈ (cmd L).1 → P o) (h2 : ∀ L a, (cmd L).2 = .ok a → Q a) :
    Tame C r recs P T κ (liftG (gitCmd cmd)) Q := by
  intro w hw
  have e : (liftG (gitCmd cmd) w).2 = { w with repo := (gitCmd cmd w.repo).2 } := rfl
  refine ⟨?_, ?_⟩
  · rw [e]
    obtain ⟨k, hk⟩ := gitCmd_log cmd w.repo
    refine hw.stores rfl fun o ho => ?_
    rw [stored_eff] at ho ⊢
    rcases ho with ho | ho
    · exact Or.inl (Or.inl ho)
    · simp only at ho
      rw [hk] at ho
      rcases List.mem_append.mp ho with ho | ho
      · exact Or.inr (h1 _ o (List.mem_of_mem_take (List.mem_reverse.mp ho)))
      · exact Or.inl (Or.inr ho)
  · intro a ha
    cases hx : liftG (gitCmd cmd) w with
    | mk res w' =>
      rw [hx] at ha
      simp only at ha
      subst ha
      obtain ⟨s, e1, _⟩ := liftG_ok hx
      exact h2 _ a (gitCmd_ok e1).1

theorem Tame.str {s : Str} (hs : P (.blob s)) : Tame C r recs P T κ (liftG (gitSaveStr C r s)) (fun h => isHash h = true) := by
  refine Tame.cmd ?_ ?_
  · intro L o ho
    simp only [List.mem_singleton, GitOp.save.injEq, true_and] at ho
    rw [ho]; exact hs
  · intro L a ha
    cases ha
    exact C.valid _

theorem Tame.tree {es : List TreeEntry} (hs : ∀ es', mktree (treeSpec es) = some es' → P (.tree es')) :
    Tame C r recs P T κ (liftG (gitSaveTree C r es)) (fun h => isHash h = true) := by
  refine Tame.cmd ?_ ?_
  · intro L o ho
    cases hm : mktree (treeSpec es) with
    | none => simp [hm] at ho
    | some es' =>
      simp only [hm, List.mem_singleton, GitOp.save.injEq, true_and] at ho
      rw [ho]; exact hs es' hm
  · intro L a ha
    cases hm : mktree (treeSpec es) with
    | none => simp [hm] at ha
    | some es' =>
      simp only [hm, Except.ok.injEq] at ha
      rw [← ha]
      exact C.valid _

theorem Tame.name (n h : Str) : Tame C r recs P T κ (liftG (gitUpdateRef C r n h)) (fun _ => True) := by
  refine Tame.cmd ?_ fun _ _ _ => trivial
  intro L o ho
  cases hm : resolve C L r h with
  | none => simp [hm] at ho
  | some x => simp [hm] at ho

theorem Tame.addRef (b : Bool) (h : Option Str) : Tame C r recs P T κ (addRef b h) (fun _ => True) := by
  intro w hw
  refine ⟨?_, fun _ _ => trivial⟩
  unfold MM.addRef
  cases h with
  | none => exact hw
  | some h =>
    simp only
    split
    · exact hw
    · exact hw.stores rfl fun o ho => Or.inl ho

theorem stored_pending_of {cs : List (Realm × List Str)} {x : Realm} {o : GitObj}
    (h : Stored (pending cs) x o) : ∃ bs s, (x, bs) ∈ cs ∧ s ∈ bs ∧ o = .blob s := stored_pending.mp h

/-- Storing the waiting blobs adds nothing to what counts as stored. -/
theorem Tame.flushCache : Tame C r recs P T κ (flushCache C r) (fun _ => True) := by
  intro w hw
  refine ⟨?_, fun _ _ => trivial⟩
  cases hd : dget w.caches r with
  | none =>
    have : MM.flushCache C r w = (.ok (), w) := by
      unfold MM.flushCache
      rw [M.bind_of_ok (M.get_run w)]
      simp only [hd]
      rfl
    rw [this]; exact hw
  | some bs =>
    have e : MM.flushCache C r w = (liftG (gitSaveBlobs C r bs) >>= fun _ =>
        M.modify fun w => { w with caches := dset w.caches r [] }) w := by
      unfold MM.flushCache
      rw [M.bind_of_ok (M.get_run w)]
      simp only [hd]
    rw [e]
    have hmem := mem_of_dget hd
    have hbs : ∀ s ∈ bs, Stored w.eff r (.blob s) := by
      intro s hs
      rw [stored_eff]
      exact Or.inl (stored_pending.mpr ⟨bs, s, hmem, hs, rfl⟩)
    have h1 : Tame C r recs P T κ (liftG (gitSaveBlobs C r bs)) (fun _ => True) := by
      refine Tame.cmd ?_ fun _ _ _ => trivial
      intro L o ho
      obtain ⟨s, hs, he⟩ := List.mem_map.mp ho
      simp only [GitOp.save.injEq, true_and] at he
      rw [← he]
      exact hw.tidy _ (hbs s hs)
    refine (Tame.bind (Q := fun _ => True) (Q' := fun _ => True) h1 (fun _ _ => ?_) w hw).1
    intro w1 hw1
    refine ⟨?_, fun _ _ => trivial⟩
    rw [M.modify_run]
    refine hw1.stores rfl fun o ho => ?_
    left
    rw [stored_eff] at ho ⊢
    rcases ho with ho | ho
    · left
      obtain ⟨bs', s, h2, h3, rfl⟩ := stored_pending.mp ho
      rcases mem_dset h2 with h2 | h2
      · cases h2; cases h3
      · exact stored_pending.mpr ⟨bs', s, h2, h3, rfl⟩
    · exact Or.inr ho

theorem Tame.blob {s : Str} (hs : P (.blob s)) : Tame C r recs P T κ (saveBlob C r s) (fun h => isHash h = true) := by
  have main : Tame C r recs P T κ ((do
      M.modify fun w => { w with caches := dset w.caches r ((dget w.caches r).getD [] ++ [s]) }
      Pure.pure (C.hash (.blob s))) : W Str) (fun h => isHash h = true) := by
    intro w hw
    rw [M.bind_of_ok (M.modify_run _ w)]
    refine ⟨?_, fun a ha => by cases ha; exact C.valid _⟩
    refine hw.stores rfl fun o ho => ?_
    rw [stored_eff] at ho ⊢
    rcases ho with ho | ho
    · obtain ⟨bs', s', h2, h3, rfl⟩ := stored_pending.mp ho
      rcases mem_dset h2 with h2 | h2
      · cases h2
        rcases List.mem_append.mp h3 with h3 | h3
        · left; left
          cases hd : dget w.caches r with
          | none => rw [hd] at h3; cases h3
          | some bs =>
            rw [hd] at h3
            exact stored_pending.mpr ⟨bs, s', mem_of_dget hd, h3, rfl⟩
        · rw [List.mem_singleton] at h3
          subst h3
          exact Or.inr hs
      · left; left
        exact stored_pending.mpr ⟨bs', s', h2, h3, rfl⟩
    · exact Or.inl (Or.inr ho)
  intro w hw
  unfold saveBlob
  rw [M.bind_of_ok (M.get_run w)]
  cases dget w.caches r with
  | none => exact Tame.str hs w hw
  | some =>
    simp only
    unfold cacheBlob
    rw [M.bind_of_ok (M.get_run w)]
    split
    · exact Tame.bind (Q := fun _ => True) Tame.flushCache (fun _ _ => main) w hw
    · exact main w hw

theorem mem_of_mem_ddel {α β : Type} [DecidableEq α] {d : List (α × β)} {k : α} {e : α × β}
    (h : e ∈ ddel d k) : e ∈ d := by
  induction d with
  | nil => exact h
  | cons p d ih =>
    obtain ⟨a, b⟩ := p
    unfold ddel at h
    split at h
    · exact List.mem_cons_of_mem _ h
    · rcases List.mem_cons.mp h with h | h
      · exact h ▸ List.mem_cons_self ..
      · exact List.mem_cons_of_mem _ (ih h)

theorem Tame.files {wr : W Ref} {Q : Ref → Prop} (h : Tame C r recs P T κ wr Q) :
    Tame C r recs P T κ (fileTreeWrite C (some r) wr) Q := by
  have h1 : Tame C r recs P T κ (cacheRealm r) (fun _ => True) := by
    intro w hw
    refine ⟨?_, fun _ _ => trivial⟩
    unfold cacheRealm
    split
    · exact hw
    · refine hw.stores rfl fun o ho => Or.inl ?_
      rw [stored_eff] at ho ⊢
      rcases ho with ho | ho
      · left
        obtain ⟨bs', s, h2, h3, rfl⟩ := stored_pending.mp ho
        rcases List.mem_append.mp h2 with h2 | h2
        · exact stored_pending.mpr ⟨bs', s, h2, h3, rfl⟩
        · rw [List.mem_singleton] at h2
          cases h2
          cases h3
      · exact Or.inr ho
  have h2 : Tame C r recs P T κ (flushRealm C r) (fun _ => True) := by
    intro w hw
    unfold flushRealm
    rw [M.bind_of_ok (M.get_run w)]
    cases dget w.caches r with
    | none => exact ⟨hw, fun _ h => by cases h⟩
    | some _ =>
      simp only
      refine Tame.bind (Q := fun _ => True) Tame.flushCache (fun _ _ => ?_) w hw
      intro w1 hw1
      refine ⟨?_, fun _ _ => trivial⟩
      rw [M.modify_run]
      refine hw1.stores rfl fun o ho => Or.inl ?_
      rw [stored_eff] at ho ⊢
      rcases ho with ho | ho
      · left
        obtain ⟨bs', s, h2, h3, rfl⟩ := stored_pending.mp ho
        exact stored_pending.mpr ⟨bs', s, mem_of_mem_ddel h2, h3, rfl⟩
      · exact Or.inr ho
  refine Tame.bind h1 fun _ _ => Tame.bind h fun ref hq => Tame.bind h2 fun _ _ => ?_
  split
  · exact Tame.pure hq
  · exact Tame.bind (Tame.addRef _ _) fun _ _ => Tame.pure hq

theorem Tame.proxy {wr : W Ref} {Q : Ref → Prop} (h : Tame C r recs P T κ wr Q) : Tame C r recs P T κ (proxyWrite wr) Q := by
  refine Tame.bind h fun ref hq => ?_
  split
  · exact Tame.pure hq
  · exact Tame.bind (Tame.addRef _ _) fun _ _ => Tame.pure hq

theorem tame_entries {b : Body ObjId} {f : Key × (Str × ObjId) → W TreeEntry}
    (hk : (dkeys b.kids).Nodup) (hP : ∀ o, Neatly C recs o → P o)
    (hs : ∀ e ∈ b.kids, NameOk e.1.entryName)
    (hinj : ∀ e ∈ b.kids, ∀ e' ∈ b.kids, e.1.entryName = e'.1.entryName → e.1 = e'.1)
    (hf : ∀ e ∈ b.kids, Tame C r recs P T κ (f e) (fun t => t.name = e.1.entryName ∧
      (isHash t.hash = true ∨ t.hash = noneLocation))) {next : Str → W Ref} {Q : Ref → Prop}
    (hq : ∀ h, isHash h = true → Tame C r recs P T κ (next h) Q) :
    Tame C r recs P T κ (M.forEach f b.kids >>= fun es => liftG (gitSaveTree C r es) >>= next) Q := by
  refine Tame.bind (Tame.forEach hf) fun es hes => Tame.bind (Tame.tree fun es' hm => ?_) hq
  · refine hP _ (neatly_tree ?_ ?_ ?_ ?_ hm)
    · rintro rfl
      rw [show mktree (treeSpec []) = none by decide] at hm
      cases hm
    · intro e he
      obtain ⟨a, _, _, h2⟩ := all2_right hes he
      exact h2
    · intro e he
      obtain ⟨a, ha, h1, _⟩ := all2_right hes he
      rw [h1]; exact hs a ha
    · rw [← all2_map_eq (f := fun e : Key × (Str × ObjId) => e.1.entryName) hes fun a _ b h => h.1.symm]
      have : (b.kids.map fun e => e.1.entryName) = (dkeys b.kids).map Key.entryName := by
        unfold dkeys; rw [List.map_map]; rfl
      rw [this]
      refine List.pairwise_map.mpr (List.Pairwise.imp_of_mem ?_ hk)
      intro x y hx hy hxy he
      obtain ⟨e, he1, rfl⟩ := List.mem_map.mp hx
      obtain ⟨e', he2, rfl⟩ := List.mem_map.mp hy
      exact hxy (hinj e he1 e' he2 he)

theorem Tame.versions (hP : ∀ o, Neatly C recs o → P o) {wr : ObjId → W Ref} {kids : List (Key × (Str × ObjId))}
    (h : ∀ e ∈ kids, Tame C r recs P T κ (wr e.2.2) (fun ref => RefAs recs (κ e.2.2) ref)) :
    Tame C r recs P T κ (writeVersionList C wr r kids) (fun h => isHash h = true) := by
  refine Tame.bind (Q := fun js => All2 (fun _ (j : Json) => j.WF) kids js)
    (Tame.forEach fun e he => Tame.bind (Q := fun _ => True) ?_ fun ref _ => Tame.pure (wf_vrecJson _ _ _)) fun js hjs => ?_
  · refine Tame.bind (Tame.getObj _) fun o _ => ?_
    split
    · exact (Tame.proxy (h e he)).mono fun _ _ => trivial
    · exact (h e he).mono fun _ _ => trivial
  · refine Tame.str (hP _ (neatly_arr fun j hj => ?_))
    obtain ⟨a, _, h2⟩ := all2_right hjs hj
    exact h2

theorem refAs_of_hash {k : Kind} {c h : Str} (hh : isHash h = true)
    (hc : ∀ l, k = .mtree l → c = c!"MTreeNode") (hm : k = .metadata → c = c!"Metadata") : RefAs recs k ⟨c, some h⟩ :=
  ⟨⟨⟨h, rfl, Or.inl hh⟩, fun e => Or.inl (hc _ e)⟩, fun _ => hm, fun _ e => ⟨hc _ e, by
    unfold Ref.isNone; simpa using isHash_ne_none hh⟩⟩

theorem Tame.mapOut (hP : ∀ o, Neatly C recs o → P o) {wr : Bool → ObjId → W Ref} {b : Body ObjId} (force : Bool)
    (hd : DataOk b.data) (hk : (dkeys b.kids).Nodup)
    (hs : ∀ e ∈ b.kids, SlotOk b.data.kind e.1 e.2.1 (κ e.2.2)) (hpl : b.plain recs ∨ (recs = false ∧ ∀ s, P (.blob s)))
    (h : ∀ f, ∀ k ∈ b.subs, Tame C r recs P T κ (wr f k) (fun ref => RefAs recs (κ k) ref)) :
    Tame C r recs P T κ (mapOut C wr r force b) (fun ref => RefAs recs b.data.kind ref) := by
  have sub : ∀ e ∈ b.kids, e.2.2 ∈ b.subs := fun e he => List.mem_map.mpr ⟨e, he, rfl⟩
  unfold MM.mapOut
  cases hdat : b.data with
  | text s =>
    simp only
    refine Tame.bind (Tame.str ?_) fun x hx => Tame.pure (refAs_of_hash hx (fun _ h => by cases h) (fun h => by cases h))
    rcases hpl with hpl | hpl
    · exact absurd (by rw [hdat]; rfl) hpl.1
    · exact hpl.2 _
  | metadata m =>
    rw [hdat] at hd
    simp only
    exact Tame.bind (Tame.blob (hP _ (neatly_meta hd))) fun x _ => Tame.bind (Tame.addRef _ _) fun _ _ =>
      Tame.bind (Tame.blob (hP _ (neatly_ref _))) fun y hy => Tame.pure (refAs_of_hash hy (fun _ h => by cases h) (fun _ => rfl))
  | mtree leaf =>
    simp only
    by_cases hb : b.kids = []
    · rw [if_pos hb]
      have hok : RefOk (.mtree leaf) (Ref.noneRef c!"MTreeNode") :=
        ⟨⟨noneLocation, rfl, Or.inr (Or.inl ⟨rfl, rfl⟩)⟩, fun _ => Or.inl rfl⟩
      rcases hpl with hpl | hpl
      · exact Tame.pure ⟨hok, (fun _ h => by cases h), (fun hr h => by
          cases h; exact absurd hb (hpl.2.2 hr hdat))⟩
      · exact Tame.pure ⟨hok, (fun h => by rw [hpl.1] at h; cases h), (fun h => by rw [hpl.1] at h; cases h)⟩
    · rw [if_neg hb]
      rw [hdat] at hs
      have hn : ∀ e ∈ b.kids, ∃ n, e.1 = .name n ∧ NameOk n := by
        intro e he
        have h1 := hs e he
        cases hk1 : e.1 <;> rw [hk1] at h1 <;> simp only [Data.kind, SlotOk] at h1
        exact ⟨_, rfl, h1.2.1⟩
      refine tame_entries hk hP ?_ ?_ ?_ fun x hx =>
        Tame.pure (refAs_of_hash hx (fun _ _ => rfl) (fun h => by cases h))
      · intro e he
        obtain ⟨n, h1, h2⟩ := hn e he
        rw [h1]; exact h2
      · intro e he e' he' heq
        obtain ⟨n, h1, h2⟩ := hn e he
        obtain ⟨n', h1', h2'⟩ := hn e' he'
        rw [h1, h1'] at heq ⊢
        exact congrArg Key.name heq
      · intro e he
        refine Tame.bind (h _ _ (sub e he)) fun ref href => Tame.bind (Tame.getObj _) fun o _ => Tame.pure ⟨rfl, ?_⟩
        obtain ⟨l, _, h2, h3⟩ := slot_loc (hs e he) href.ok
        simp only [h2]
        exact h3.imp id And.left
  | mrr id v =>
    rw [hdat] at hd hs
    simp only
    refine Tame.bind (Q := fun ft => recs = true → ft.cls = ftClass ft) ?_ fun ft hft =>
      Tame.bind (Q := fun dlm => recs = true → dlm.cls = c!"Metadata") ?_ fun dlm hdlm =>
      Tame.bind (Tame.str (hP _ (neatly_mrr hd fun hr => ⟨hdlm hr, hft hr⟩))) fun x hx =>
        Tame.pure (refAs_of_hash hx (fun _ h => by cases h) (fun h => by cases h))
    · cases hft : dget b.kids .ft with
      | none => exact Tame.pure fun _ => rfl
      | some e =>
        have hk' : κ e.2 = .mtree .metadata := (hs _ (mem_of_dget hft)).2
        have hcls : ∀ ref, RefAs recs (κ e.2) ref → recs = true → ref.cls = ftClass ref := by
          intro ref h1 hr
          obtain ⟨h2, h3⟩ := h1.tree hr hk'
          rw [h2]; unfold ftClass; rw [h3]; rfl
        refine Tame.bind (Tame.files (h _ e.2 (sub _ (mem_of_dget hft)))) fun ref href => ?_
        split
        · exact Tame.pure (hcls ref href)
        · exact Tame.bind (Tame.addRef _ _) fun _ _ => Tame.pure (hcls ref href)
    · cases hdl : dget b.kids .dlm with
      | none => exact Tame.pure fun _ => rfl
      | some e =>
        have hk' : κ e.2 = .metadata := (hs _ (mem_of_dget hdl)).2
        exact Tame.bind (h _ e.2 (sub _ (mem_of_dget hdl))) fun ref href => Tame.bind (Tame.addRef _ _) fun _ _ =>
          Tame.pure fun hr => href.record hr hk'
  | vlist =>
    simp only
    exact Tame.bind (Tame.versions hP fun e he => h _ _ (sub e he)) fun x hx =>
      Tame.pure (refAs_of_hash hx (fun _ h => by cases h) (fun h => by cases h))
  | tvl =>
    simp only
    exact Tame.bind (Tame.versions hP fun e he => h _ _ (sub e he)) fun x hx =>
      Tame.bind (Tame.name _ _) fun _ _ => Tame.pure (refAs_of_hash hx (fun _ h => by cases h) (fun h => by cases h))
  | uuidset =>
    simp only
    rw [hdat] at hs
    have hn : ∀ e ∈ b.kids, ∃ u, e.1 = .uuid u ∧ κ e.2.2 = .vlist := by
      intro e he
      have h1 := hs e he
      cases hk1 : e.1 <;> rw [hk1] at h1 <;> simp only [Data.kind, SlotOk] at h1
      exact ⟨_, rfl, h1.2⟩
    refine tame_entries hk hP ?_ ?_ ?_ fun x hx =>
      Tame.bind (Tame.name _ _) fun _ _ => Tame.pure (refAs_of_hash hx (fun _ h => by cases h) (fun h => by cases h))
    · intro e he
      obtain ⟨u, h1, _⟩ := hn e he
      rw [h1]; exact (uuid_name_ok u).1
    · intro e he e' he' heq
      obtain ⟨u, h1, _⟩ := hn e he
      obtain ⟨u', h1', _⟩ := hn e' he'
      rw [h1, h1'] at heq ⊢
      exact congrArg Key.uuid (Uuid.str_injective heq)
    · intro e he
      refine Tame.bind (h _ _ (sub e he)) fun ref href => Tame.pure ⟨rfl, ?_⟩
      obtain ⟨l, _, h2, h3⟩ := slot_loc (hs e he) href.ok
      simp only [h2]
      exact h3.imp id And.left

theorem Tame.writeOut (hP : ∀ o, Neatly C recs o → P o) (hr : r ≠ []) (n : Nat) : ∀ (force : Bool) (i : ObjId), T i →
    Tame C r recs P T κ (writeOut C n (some r) force i) (fun ref => RefAs recs (κ i) ref) := by
  induction n with
  | zero => intro force i _; exact Tame.raise _ _
  | succ n ih =>
    intro force i hi w hw
    by_cases hm : (w.heap i).mapped = true
    · obtain ⟨hb, hsub, hpl⟩ := hw.bodies i hi hm
      have hslots : ∀ e ∈ (w.heap i).body.kids, SlotOk (w.heap i).body.data.kind e.1 e.2.1 (κ e.2.2) := by
        intro e he
        rw [← hw.kinds]; exact hb.slots e he
      have hkind : (w.heap i).body.data.kind = κ i := hw.kinds i
      have hmo := Tame.mapOut (C := C) (r := r) (T := T) hP force hb.data hb.keys hslots hpl
        (wr := MM.writeOut C n (some r)) (fun f k hk => ih f k (hsub k hk))
      rw [hkind] at hmo
      have n1 : Neat C r recs P T κ { w with heap := w.heap.set i { w.heap i with realm := some r } } :=
        hw.touch i _ rfl rfl rfl fun hx => hw.refs i hi hx
      have hfl1 : (({ w with heap := w.heap.set i { w.heap i with realm := some r } } : World).heap i).savedOn =
        (w.heap i).savedOn := by simp
      rw [writeOut_mapped hr hm rfl]
      generalize ({ w with heap := w.heap.set i { w.heap i with realm := some r } } : World) = w1 at n1 hfl1
      split
      · exact ⟨hw, fun a h => by cases h⟩
      · cases hsv : isSavedOn (n + 1) w1.heap r i with
        | error e => exact ⟨n1, fun a h => by cases h⟩
        | ok saved =>
          simp only
          split
          · rename_i hsf
            obtain ⟨rfl, _⟩ := hsf
            have hfl : r ∈ (w.heap i).savedOn := by
              refine Classical.byContradiction fun hno => ?_
              unfold isSavedOn at hsv
              rw [if_pos (by rw [hfl1]; exact hno)] at hsv
              cases hsv
            obtain ⟨ref, h1, h2⟩ := hw.refs i hi hfl
            rw [h1]
            exact ⟨n1, fun a h => by cases h; exact h2⟩
          · obtain ⟨m1, m2⟩ := hmo _ n1
            cases hx : MM.mapOut C (MM.writeOut C n (some r)) r force (w.heap i).body w1 with
            | mk res w2 =>
              rw [hx] at m1 m2
              cases res with
              | error e => exact ⟨m1, fun a h => by cases h⟩
              | ok ref =>
                refine ⟨m1.touch i _ rfl rfl rfl fun _ => ⟨ref, rfl, m2 ref rfl⟩, fun a h => ?_⟩
                cases h
                exact m2 ref rfl
    · rw [writeOut_away (by simpa using hm)]
      cases h1 : (w.heap i).realm with
      | none => exact ⟨hw, fun a h => by cases h⟩
      | some x =>
        cases h2 : (w.heap i).ref with
        | none => exact ⟨hw, fun a h => by cases h⟩
        | some ref =>
          simp only
          split
          · rename_i hfl
            obtain ⟨ref', e1, e2⟩ := hw.refs i hi hfl
            rw [h2] at e1
            cases e1
            exact ⟨hw, fun a h => by cases h; exact e2⟩
          · exact ⟨hw, fun a h => by cases h⟩

theorem Tame.writeAs (hP : ∀ o, Neatly C recs o → P o) (hr : r ≠ []) (via : Via) (n : Nat) (force : Bool) {i : ObjId}
    (hi : T i) : Tame C r recs P T κ (writeAs C via n (some r) force i) (fun ref => RefAs recs (κ i) ref) := by
  cases via with
  | own => exact Tame.writeOut hP hr n force i hi
  | dataset => exact Tame.proxy (Tame.writeOut hP hr n force i hi)
  | file =>
    intro w hw
    have e : MM.writeAs C .file n (some r) force i w = fileTreeWrite C (some r) (MM.writeOut C n (some r) force i) w :=
      writeFileTree_eq hr n force i w
    rw [e]
    exact Tame.files (Tame.writeOut hP hr n force i hi) w hw

/-- Writing changes no content, and touches only objects that are contained in the written one. -/
theorem writeAs_within (via : Via) (n : Nat) (dest : Option Realm) (force : Bool) (i : ObjId) (w : World) :
    M.Keeps (MM.writeAs C via n dest force i) (Within (fun x => Reach w.heap i x) [i]) := by
  have trans : ∀ a b c, Within (fun x => Reach w.heap i x) [i] a b → Within (fun x => Reach w.heap i x) [i] b c →
    Within (fun x => Reach w.heap i x) [i] a c := fun _ _ _ => Within.trans
  have refl : ∀ a, Within (fun x => Reach w.heap i x) [i] a a := fun _ => Within.still rfl
  have wr := writeOut_within (C := C) (fun x => Reach w.heap i x) n dest force i
  have still : ∀ {α : Type} {x : W α}, Still x → M.Keeps x (Within (fun x => Reach w.heap i x) [i]) :=
    fun h a => Within.still (h a)
  have tail : ∀ ref : Ref, Still (if ref.isNone then Pure.pure ref else do addRef true ref.loc; Pure.pure ref : W Ref) := by
    intro ref
    split
    · exact still_pure _
    · exact still_bind (still_addRef _ _) fun _ => still_pure _
  cases via with
  | own => exact wr
  | dataset => exact M.Keeps.bind trans wr fun ref => still (tail ref)
  | file =>
    refine M.Keeps.bind trans (still fun _ => rfl) fun o => ?_
    cases hp : pyOr dest o.realm with
    | none => exact still (still_raise _)
    | some r' =>
      exact M.Keeps.bind trans (still (still_cacheRealm _)) fun _ => M.Keeps.bind trans wr fun ref =>
        M.Keeps.bind trans (still (still_flushRealm _ _)) fun _ => still (tail ref)

/-- Writing an object leaves the objects alone that it does not contain. -/
theorem writeAs_frame (via : Via) (n : Nat) (dest : Option Realm) (force : Bool) (i : ObjId) (w : World) (x : ObjId)
    (hx : ¬ Reach w.heap i x) : (MM.writeAs C via n dest force i w).2.heap x = w.heap x := by
  refine (writeAs_within via n dest force i w w).out ?_ x hx
  intro k hk y hy
  rw [List.mem_singleton] at hk
  subst hk
  exact hy

/-! ### In a process -/

/-- Objects that pass for saved have a reference as writing returns it. -/
def Flags (r : Realm) (w : World) : Prop :=
  ∀ j, r ∈ (w.heap j).savedOn → ∃ ref, (w.heap j).ref = some ref ∧ RefOk (w.heap j).kind ref

/-- The references of saved metadata and file trees have the class names that writing gives them. -/
def AsWritten (recs : Bool) (r : Realm) (o : Obj) : Prop :=
  recs = true → r ∈ o.savedOn → ∀ ref, o.ref = some ref → (o.kind = .metadata → ref.cls = c!"Metadata") ∧
    (o.kind = .mtree .metadata → ref.cls = c!"MTreeNode" ∧ ref.isNone = false)

/-- The objects reachable from an object that can be stored -/
theorem neat_reach {w : World} {i : ObjId} (hf : Flags r w) (hcl : ∀ j, Reach w.heap i j → AsWritten recs r (w.heap j)) (hsto : Storable w.heap i)
    (hpl : ∀ j, Reach w.heap i j → (w.heap j).mapped = true → (w.heap j).body.plain recs ∨ (recs = false ∧ ∀ s, P (.blob s)))
    (ht : ∀ o, Stored w.eff r o → P o) :
    Neat C r recs P (Reach w.heap i) (fun j => (w.heap j).kind) w :=
  ⟨ht, fun _ => rfl, fun j hj hfl => by
    obtain ⟨ref, h1, h2⟩ := hf j hfl
    exact ⟨ref, h1, h2, fun hr => (hcl j hj hr hfl ref h1).1, fun hr => (hcl j hj hr hfl ref h1).2⟩,
   fun j hj hm => ⟨hsto j hj hm, fun k hk => hj.trans (Reach.step j k k hm hk (Reach.refl k)), hpl j hj hm⟩⟩

theorem Sane.flagged {w : World} (hs : Sane C r w) {j : ObjId} (hm : (w.heap j).mapped = false) :
    ∃ ref, (w.heap j).ref = some ref ∧ RefOk (w.heap j).kind ref := by
  obtain ⟨ref, h1, h2⟩ := hs.truth j (hs.cleanAway hm)
  exact ⟨ref, h1, h2.ok⟩

theorem Session.flags (hr : r ≠ []) {w : World} (h : Session C r w) : Flags r w := by
  induction h with
  | start w h1 h2 h3 => intro j hj; rw [h3] at hj; cases hj
  | new w b _ hk hst ih =>
    intro j hj
    by_cases hji : j = w.next
    · subst hji; rw [create_self] at hj; cases hj
    · rw [create_ne _ _ hji] at hj ⊢; exact ih j hj
  | load w l _ h1 h2 h3 ih =>
    intro j hj
    by_cases hji : j = w.next
    · subst hji
      rw [create_self] at hj ⊢
      exact ⟨l.ref, rfl, by rw [kind_linkObj]; exact h1⟩
    · rw [create_ne _ _ hji] at hj ⊢; exact ih j hj
  | read w i hw hi haway ih =>
    have hs' := (Session.read w i hw hi haway).sane hr
    by_cases hm : (w.heap i).mapped = true
    · rw [ensureMapped_mapped hm]; exact ih
    · have hm' : (w.heap i).mapped = false := by simpa using hm
      have hc := ensureMapped_cases C i w hm'
      generalize (ensureMapped C i w).2 = w' at hc hs'
      generalize (ensureMapped C i w).1 = res at hc
      intro j hj
      cases hmj : (w'.heap j).mapped with
      | false => exact hs'.flagged hmj
      | true =>
        obtain ⟨ref0, hf0, hok0⟩ := ih i ((hw.sane hr).away i hm')
        cases hc with
        | failed e h1 h2 h3 h4 => rw [h1] at hj ⊢; exact ih j hj
        | none r' ref hr' hf hn hcls hlog hca hnx hh =>
          by_cases hji : j = i
          · subst hji
            refine ⟨ref0, by rw [hh]; simpa using hf0, ?_⟩
            have : (w'.heap j).kind = (w.heap j).kind := by
              rw [hh]; simp only [Heap.set_self]; unfold Obj.kind Body.purged; exact Data.kind_purged _
            rw [this]; exact hok0
          · rw [hh, Heap.set_ne hji] at hj ⊢; exact ih j hj
        | read r' ref loc b is so hr' hf hn hloc hsv hacc hdec hlog hca hnx hold hbig hkids hnew hso hobj hdis =>
          by_cases hji : j = i
          · subst hji
            rw [hf0] at hf; cases hf
            refine ⟨⟨(w.heap j).kind.name, some loc⟩, by rw [hobj], ?_⟩
            have hk : (w'.heap j).kind = (w.heap j).kind := by
              rw [hobj]; exact (decode_links hdec).1
            rw [hk]
            obtain ⟨l, e1, e2⟩ := hok0.loc
            rw [hloc] at e1; cases e1
            exact ⟨⟨loc, rfl, e2⟩, fun h => by rw [h]; exact Or.inl rfl⟩
          · by_cases h1 : j < w.next
            · rw [hold j hji h1] at hj ⊢; exact ih j hj
            · by_cases h2 : j < w'.next
              · obtain ⟨e, _, he⟩ := hnew j hji (Nat.le_of_not_lt h1) h2
                rw [he] at hmj; cases hmj
              · rw [hbig j hji (Nat.le_of_not_lt h2)] at hj ⊢; exact ih j hj
  | purge w n i hw ho ih =>
    have u := ((hw.sane hr).purge n i w ho).1.unloads
    intro j hj
    rw [u.saved] at hj
    rw [u.ref, u.kind]
    exact ih j hj
  | edit w i b _ hm hk hac hst ih =>
    intro j hj
    by_cases hji : j = i
    · subst hji; rw [edit_self] at hj; cases hj
    · rw [edit_ne _ _ hji] at hj ⊢; exact ih j hj
  | write w via n force i ref w' hw h hc hsto hal hp ih =>
    have hn := (Tame.writeAs (C := C) (recs := false) (P := fun _ => True) (fun _ _ => trivial) hr via n force (Reach.refl i)
      w (neat_reach ih (fun _ _ h => by cases h) hsto (fun _ _ _ => Or.inr ⟨rfl, fun _ => trivial⟩) fun _ _ => trivial)).1
    rw [h] at hn
    intro j hj
    by_cases hji : Reach w.heap i j
    · obtain ⟨rf, e1, e2⟩ := hn.refs j hji hj
      exact ⟨rf, e1, by rw [hn.kinds j]; exact e2.ok⟩
    · have := writeAs_frame (C := C) via n (some r) force i w j hji
      rw [h] at this
      simp only at this
      rw [this] at hj ⊢
      exact ih j hj
  | failed w via n i e w' hw h hca hc hsto hal hp hh ih =>
    have hn := (Tame.writeAs (C := C) (recs := false) (P := fun _ => True) (fun _ _ => trivial) hr via n false (Reach.refl i)
      w (neat_reach ih (fun _ _ h => by cases h) hsto (fun _ _ _ => Or.inr ⟨rfl, fun _ => trivial⟩) fun _ _ => trivial)).1
    rw [h] at hn
    intro j hj
    by_cases hji : Reach w.heap i j
    · obtain ⟨rf, e1, e2⟩ := hn.refs j hji hj
      exact ⟨rf, e1, by rw [hn.kinds j]; exact e2.ok⟩
    · have := writeAs_frame (C := C) via n (some r) false i w j hji
      rw [h] at this
      simp only at this
      rw [this] at hj ⊢
      exact ih j hj
  | outside w L fs _ hg hn hc ih => exact ih

end

end MM
