/-
The reference of stored trees is determined by their content.
-/
import Verif.Session
import Verif.TreeOps
import Verif.TreeUpdater

namespace MM

/-- The reference to the file tree of a root record: the class name is `FileTree` if there is
no file tree, and `MTreeNode` otherwise. -/
def ftClass (ref : Ref) : Str := if ref.isNone then c!"FileTree" else c!"MTreeNode"

/-- A repository that holds metadata, references to metadata, and (if `recs` is set) root
records only in the form in which the code writes them, and only sorted trees with entries. -/
structure Tidy (C : Cfg) (L : Log) (r : Realm) (recs : Bool) : Prop where
  trees : ∀ es, Stored L r (.tree es) → es ≠ [] ∧ WellTree es ∧ es.Pairwise (fun a b => a.le b = true)
  refs : ∀ s ref, Stored L r (.blob s) → Ref.fromText C.floats (gitText s) = .ok ref →
    s = Ref.toText C.floats ⟨c!"Metadata", ref.loc⟩
  metas : ∀ s m, Stored L r (.blob s) → Sets.fromText C.floats (gitText s) = .ok m → s = m.toText C.floats
  records : recs = true → ∀ s j b, Stored L r (.blob s) → loads C.floats (gitText s) = some j → mrrFromJson j = .ok b →
    ∃ u v dlm ft, s = dumps C.floats (mrrJson (some u) (some v) dlm ft) ∧ dlm.cls = c!"Metadata" ∧
      ft.cls = ftClass ft

/-- Nothing is found at more than `d` steps from a place. -/
def Depth (C : Cfg) (L : Log) (h : Heap) (d : Nat) (n : Node) : Prop :=
  ∀ ks t, d < ks.length → look C L h ks t n = .absent

/-- The classes that make up trees of metadata and, if `recs` is set, of datasets -/
def Kind.inTree (recs : Bool) : Kind → Bool
  | .metadata | .mtree .metadata => true
  | .mrr | .mtree .mrr => recs
  | _ => false

section
variable {C : Cfg} {L L' : Log} {r r' : Realm} {h h' : Heap} {recs : Bool}

theorem entry_eq {es : List TreeEntry} : (es.map TreeEntry.name).Nodup → ∀ {a b : TreeEntry}, a ∈ es → b ∈ es →
    a.name = b.name → a = b := by
  induction es with
  | nil => intro _ a b h; cases h
  | cons x l ih =>
    intro hn a b h1 h2 hname
    simp only [List.map_cons, List.nodup_cons, List.mem_map, not_exists, not_and] at hn
    rcases List.mem_cons.mp h1 with e1 | e1 <;> rcases List.mem_cons.mp h2 with e2 | e2
    · rw [e1, e2]
    · subst e1; exact absurd hname.symm (hn.1 b e2)
    · subst e2; exact absurd hname (hn.1 a e1)
    · exact ih hn.2 e1 e2 hname

/-- Sorted trees with the same entries are equal. -/
theorem tree_ext {es fs : List TreeEntry} (he : WellTree es) (hf : WellTree fs)
    (h1 : es.Pairwise (fun a b => a.le b = true)) (h2 : fs.Pairwise (fun a b => a.le b = true))
    (hm : ∀ e, e ∈ es ↔ e ∈ fs) : es = fs := by
  have hp : es.Perm fs := by
    refine (List.perm_ext_iff_of_nodup ?_ ?_).mpr hm
    · exact he.nodup.of_map _ fun a b hne h => hne (by rw [h])
    · exact hf.nodup.of_map _ fun a b hne h => hne (by rw [h])
  refine List.Perm.eq_of_pairwise ?_ h1 h2 hp
  intro a b ha hb hab hba
  have hb' : b ∈ es := (hm b).mpr hb
  have hk := strLe_antisymm _ _ hab hba
  have hname := key_injective (he.names a ha).1 (he.names b hb').1 hk
  exact entry_eq he.nodup ha hb' hname

theorem textAt_hash {loc t : Str} (hl : isHash loc = true) (ht : textAt C L r loc = .ok t) :
    ∃ s, Stored L r (.blob s) ∧ C.hash (.blob s) = loc ∧ t = gitText s := by
  unfold textAt at ht
  rw [resolve_hash hl] at ht
  cases hf : findObj C L r loc with
  | none => simp [hf] at ht
  | some o =>
    obtain ⟨g1, g2⟩ := findObj_stored hf
    cases o with
    | tree es => simp [hf] at ht
    | blob s => simp only [hf, Except.ok.injEq] at ht; exact ⟨s, g1, g2, ht.symm⟩

theorem treeAt_hash {loc : Str} {es : List TreeEntry} (hl : isHash loc = true)
    (ht : treeAt C L r loc = .ok es) : Stored L r (.tree es) ∧ C.hash (.tree es) = loc := by
  unfold treeAt at ht
  rw [resolve_hash hl] at ht
  cases hf : findObj C L r loc with
  | none => simp [hf] at ht
  | some o =>
    cases o with
    | blob s => simp [hf] at ht
    | tree es' => simp only [hf, Except.ok.injEq] at ht; subst ht; exact findObj_stored hf

theorem fetch_loc {k : Kind} {ref : Ref} {l : Str} {b : Body Link} (hl : ref.loc = some l)
    (hh : isHash l = true) (hf : fetch C L r k ref = .ok b) : decode C L r k l = .ok b := by
  unfold fetch at hf
  have hn : ref.isNone = false := by
    unfold Ref.isNone; rw [hl]; simpa using isHash_ne_none hh
  rw [hn, hl] at hf
  simp only [Bool.false_eq_true, if_false] at hf
  split at hf
  · exact hf
  · cases hf

/-- The stored form of metadata -/
def metadataLoc (C : Cfg) (m : Sets) : Str :=
  C.hash (.blob (Ref.toText C.floats ⟨c!"Metadata", some (C.hash (.blob (m.toText C.floats)))⟩))

theorem metadata_loc (ht : Tidy C L r recs) {ref : Ref} {l : Str} {b : Body Link} (hl : ref.loc = some l)
    (hh : isHash l = true) (hf : strictFetch C L r .metadata ref = .ok b) :
    ∃ m, b = ⟨.metadata m, []⟩ ∧ l = metadataLoc C m := by
  obtain ⟨h1, _, h3⟩ := strictFetch_ok hf
  have hn : ref.isNone = false := by
    unfold Ref.isNone; rw [hl]; simpa using isHash_ne_none hh
  obtain ⟨s, ref', l', g1, g2, g3, g4⟩ := innerDirect_metadata hl hn h3
  have hd := fetch_loc hl hh h1
  simp only [decode] at hd
  rw [bind_of_eq_ok _ g1, bind_of_eq_ok _ g2] at hd
  simp only [g3] at hd
  obtain ⟨s', e1, hd⟩ := ok_bind hd
  obtain ⟨m, e2, hd⟩ := ok_bind hd
  cases hd
  obtain ⟨t, k1, k2, rfl⟩ := textAt_hash hh g1
  obtain ⟨t', k1', k2', rfl⟩ := textAt_hash g4 e1
  refine ⟨m, rfl, ?_⟩
  rw [← k2, ht.refs t ref' k1 g2, g3, ← k2', ht.metas t' m k1' e2]
  rfl

theorem tree_loc (ht : Tidy C L r recs) {leaf : Leaf} {ref : Ref} {l : Str} {b : Body Link}
    (hl : ref.loc = some l) (hh : isHash l = true) (hf : strictFetch C L r (.mtree leaf) ref = .ok b) :
    ∃ es, b = ⟨.mtree leaf, es.map (childOf leaf)⟩ ∧ l = C.hash (.tree es) ∧ es ≠ [] ∧ WellTree es ∧
      es.Pairwise (fun a b => a.le b = true) := by
  have hd := fetch_loc hl hh (strictFetch_ok hf).1
  simp only [decode] at hd
  obtain ⟨es, e1, hd⟩ := ok_bind hd
  obtain ⟨es', e2, hd⟩ := ok_bind hd
  cases hd
  obtain ⟨k1, k2⟩ := treeAt_hash hh e1
  obtain ⟨g1, g2, g3⟩ := ht.trees es k1
  rw [readTree_ok g2.hashes] at e2
  cases e2
  refine ⟨es, ?_, k2.symm, g1, g2, g3⟩
  rw [fromItems_nodup]
  have : dkeys (es.map (childOf leaf)) = (es.map TreeEntry.name).map Key.name := by
    simp [dkeys, List.map_map, childOf, Function.comp_def]
  rw [this]
  exact List.pairwise_map.mpr (g2.nodup.imp fun hne h => hne (by cases h; rfl))

theorem record_loc (ht : Tidy C L r true) {ref : Ref} {l : Str} {b : Body Link}
    (hl : ref.loc = some l) (hh : isHash l = true) (hf : strictFetch C L r .mrr ref = .ok b) :
    ∃ u v dlm ft, b = ⟨.mrr (some u) (some v), mrrKids (if dlm.isNone then none else some ⟨.metadata, dlm⟩)
        (if ft.isNone then none else some ⟨.mtree .metadata, ft⟩)⟩ ∧
      l = C.hash (.blob (dumps C.floats (mrrJson (some u) (some v) dlm ft))) ∧ dlm.cls = c!"Metadata" ∧
      ft.cls = ftClass ft ∧ (dlm.isNone = false → dlm.direct = true) ∧ (ft.isNone = false → ft.direct = true) := by
  obtain ⟨h1, h2, _⟩ := strictFetch_ok hf
  have hd := fetch_loc hl hh h1
  simp only [decode] at hd
  obtain ⟨j, e1, hd⟩ := ok_bind hd
  unfold jsonAt at e1
  cases htx : textAt C L r l with
  | error e => simp [htx] at e1
  | ok t =>
    obtain ⟨s, k1, k2, rfl⟩ := textAt_hash hh htx
    rw [htx] at e1
    simp only at e1
    cases hlo : loads C.floats (gitText s) with
    | none => simp [hlo] at e1
    | some j' =>
      simp only [hlo, Except.ok.injEq] at e1
      subst e1
      obtain ⟨u, v, dlm, ft, g1, g2, g3⟩ := ht.records rfl s j' b k1 hlo hd
      have hj : j' = mrrJson (some u) (some v) dlm ft := by
        rw [g1, gitText_dumps, loads_dumps C.floats _ (wf_mrrJson ..)] at hlo
        injection hlo with hlo
        exact hlo.symm
      subst hj
      rw [mrrFromJson_mrrJson] at hd
      cases hd
      refine ⟨u, v, dlm, ft, rfl, by rw [← k2, g1], g2, g3, ?_, ?_⟩
      · intro hn
        have := List.all_eq_true.mp h2 (.dlm, [], ⟨.metadata, dlm⟩) (by simp [mrrKids, hn])
        exact this
      · intro hn
        have := List.all_eq_true.mp h2 (.ft, [], ⟨.mtree .metadata, ft⟩) (by simp [mrrKids, hn])
        exact this

theorem Depth.kid {d : Nat} {n c : Node} (hd : Depth C L h d n) {k : Key} {t : Str}
    (hk : ∀ ks t0, look C L h (k :: ks) t0 n = look C L h ks t c) (hc : ∃ b, view C L h c = .ok b) :
    ∃ d', d = d' + 1 ∧ Depth C L h d' c := by
  cases d with
  | zero =>
    obtain ⟨b, hb⟩ := hc
    have h1 := hd [k] [] (by simp)
    rw [hk, look_nil t hb] at h1
    cases h1
  | succ d =>
    refine ⟨d, rfl, fun ks t0 hks => ?_⟩
    cases ks with
    | nil => simp at hks
    | cons k' ks =>
      rw [look_stamp k' ks t0 t, ← hk (k' :: ks) []]
      exact hd (k :: k' :: ks) [] (by simp at hks ⊢; omega)

/-- Corresponding parts of places with the same content; file trees of root records are not
empty. -/
theorem same_kid {n m : Node} {b b' : Body Node} (hf : Full C L h n) (hs : SameContent C L h n L' h' m)
    (hn : view C L h n = .ok b) (hm : view C L' h' m = .ok b') {k : Key} {t : Str} {c : Node}
    (hg : dget b.kids k = some (t, c))
    (hk : k = .ft → ∀ bc, view C L h c = .ok bc → bc.blank = false)
    (hk' : k = .ft → ∀ t' c' bc, dget b'.kids k = some (t', c') → view C L' h' c' = .ok bc → bc.blank = false) :
    ∃ c', dget b'.kids k = some (t, c') ∧ Full C L h c ∧ SameContent C L h c L' h' c' ∧
      ∀ ks t0, look C L h (k :: ks) t0 n = look C L h ks t c := by
  obtain ⟨hfc, g1⟩ : Full C L h c ∧ ∀ ks t0, look C L h (k :: ks) t0 n = look C L h ks t c := by
    rcases hf.kid hn hg with ⟨bc, h1, h2, h3⟩ | h1
    · rw [hk h2 bc h1] at h3; cases h3
    · exact h1
  obtain ⟨bc, hbc⟩ := view_ok_of_look (hfc [] [])
  cases hg' : dget b'.kids k with
  | none =>
    have h1 := hs [k] []
    rw [g1, look_nil t hbc, look_cons_none hm hg'] at h1
    cases h1
  | some x =>
    obtain ⟨t', c'⟩ := x
    have g2 : ∀ ks t0, look C L' h' (k :: ks) t0 m = look C L' h' ks t' c' := by
      rcases (Full.of_same hs hf).kid hm hg' with ⟨bc, h1, h2, h3⟩ | h1
      · rw [hk' h2 t' c' bc hg' h1] at h3; cases h3
      · exact h1.2
    have h1 : ∀ ks, look C L h ks t c = look C L' h' ks t' c' := fun ks => by rw [← g1 ks [], ← g2 ks []]; exact hs _ _
    have h2 := h1 []
    rw [look_nil t hbc] at h2
    obtain ⟨bc', hbc'⟩ := view_ok_of_look (C := C) (L := L') (h := h') (n := c') (ks := []) (t := t') (by rw [← h2]; simp)
    rw [look_nil t' hbc'] at h2
    injection h2 with ht hd hbl
    subst ht
    refine ⟨c', rfl, hfc, ?_, g1⟩
    intro ks t0
    cases ks with
    | nil => rw [look_nil t0 hbc, look_nil t0 hbc', hd, hbl]
    | cons k' ks => rw [look_stamp k' ks t0 t, h1, look_stamp k' ks t t0]

theorem dget_childOf {leaf : Leaf} {es : List TreeEntry} (hn : (es.map TreeEntry.name).Nodup) {e : TreeEntry}
    (he : e ∈ es) (r : Realm) : dget ((Body.mk (.mtree leaf) (es.map (childOf leaf))).map (Node.sto r)).kids (.name e.name) =
      some ([], .sto r (childOf leaf e).2.2) := by
  rw [Body.dget_map]
  have : dget (es.map (childOf leaf)) (.name e.name) = some (childOf leaf e).2 := by
    refine dget_of_mem ?_ (List.mem_map.mpr ⟨e, he, rfl⟩)
    have : dkeys (es.map (childOf leaf)) = (es.map TreeEntry.name).map Key.name := by
      simp [dkeys, List.map_map, childOf, Function.comp_def]
    rw [this]
    exact List.pairwise_map.mpr (hn.imp fun hne h => hne (by cases h; rfl))
  rw [this]
  rfl

theorem mem_of_dget_childOf {leaf : Leaf} {es : List TreeEntry} {r : Realm} {n : Str} {t : Str} {c : Node}
    (hg : dget ((Body.mk (.mtree leaf) (es.map (childOf leaf))).map (Node.sto r)).kids (.name n) = some (t, c)) :
    ∃ e ∈ es, e.name = n ∧ c = .sto r (childOf leaf e).2.2 := by
  rw [Body.dget_map] at hg
  cases hd : dget (es.map (childOf leaf)) (.name n) with
  | none => rw [hd] at hg; cases hg
  | some x =>
    rw [hd] at hg
    obtain ⟨e, he, hx⟩ := List.mem_map.mp (mem_of_dget hd)
    simp only [childOf, Prod.mk.injEq, Key.name.injEq] at hx
    refine ⟨e, he, hx.1, ?_⟩
    rw [← hx.2] at hg
    simp only [Option.map_some, Option.some.injEq, Prod.mk.injEq] at hg
    exact hg.2.symm

theorem tree_of_none {k : Kind} {ref : Ref} {b : Body Link} (hk : k.isMtree = true) (hl : ref.loc = some noneLocation)
    (hf : strictFetch C L r k ref = .ok b) : b.blank = true := by
  have h1 := (strictFetch_ok hf).1
  unfold fetch at h1
  have hn : ref.isNone = true := by unfold Ref.isNone; rw [hl]; rfl
  rw [hn] at h1
  simp only [if_true] at h1
  split at h1
  · split at h1
    · cases h1
    · cases h1
      cases k <;> simp [Kind.isMtree] at hk
      rfl
  · cases h1

theorem strictFetch_kind {k : Kind} {ref : Ref} {b : Body Link} (hf : strictFetch C L r k ref = .ok b) :
    b.data.kind = k := by
  have := view_class (C := C) (L := L) (h := fun _ => ⟨false, some r, some ref, [], Body.empty k⟩)
    (i := 0) (b := b.map (.sto r)) ((view_away rfl).mpr ⟨r, ref, b, rfl, rfl, by
      rw [show Obj.kind ⟨false, some r, some ref, [], Body.empty k⟩ = k from Data.kind_empty k]; exact hf, rfl⟩)
  rw [Body.map_data] at this
  exact this.trans (Data.kind_empty k)

theorem childOf_inTree {leaf : Leaf} (hl : (Kind.mtree leaf).inTree recs = true) (e : TreeEntry) :
    (childOf leaf e).2.2.kind.inTree recs = true := by
  unfold childOf
  cases leaf <;> cases e.isTree <;> simp_all [Kind.inTree, Leaf.kind]

theorem childOf_ref {leaf : Leaf} {e : TreeEntry} : (childOf leaf e).2.2.ref.loc = some e.hash := by
  unfold childOf
  cases e.isTree <;> rfl

theorem childOf_isTree {leaf : Leaf} {e e' : TreeEntry} (h : (childOf leaf e).2.2.kind = (childOf leaf e').2.2.kind) :
    e.isTree = e'.isTree := by
  unfold childOf at h
  cases leaf <;> cases h1 : e.isTree <;> cases h2 : e'.isTree <;> simp [h1, h2, Leaf.kind] at h ⊢

theorem hash_of_direct {ref : Ref} (hd : ref.direct = true) (hn : ref.isNone = false) :
    ∃ l, ref.loc = some l ∧ isHash l = true := by
  unfold Ref.direct at hd
  unfold Ref.isNone at hn
  cases hl : ref.loc with
  | none => simp [hl] at hd
  | some l =>
    rw [hl] at hd hn
    simp only [Bool.or_eq_true, beq_iff_eq] at hd
    rcases hd with hd | hd
    · exact ⟨l, rfl, hd⟩
    · simp [hd] at hn

theorem tree_blank (ht : Tidy C L r recs) {leaf : Leaf} {ref : Ref} {l : Str} {a : Body Link}
    (hl : ref.loc = some l) (hh : isHash l = true) (ha : strictFetch C L r (.mtree leaf) ref = .ok a) :
    a.blank = false := by
  obtain ⟨es, rfl, _, hne, _⟩ := tree_loc ht hl hh ha
  unfold Body.blank
  cases es with
  | nil => exact absurd rfl hne
  | cons => simp

/-- References of parts are equal. -/
theorem part_eq {d d' : Ref} {f : Ref → Str} (hc : d.cls = f d) (hc' : d'.cls = f d')
    (hf : d.isNone = d'.isNone → f d = f d')
    (h1 : d.isNone = false → d'.isNone = true → False) (h2 : d'.isNone = false → d.isNone = true → False)
    (h3 : d.isNone = false → d'.isNone = false → d.loc = d'.loc) : d = d' := by
  have hl : d.isNone = d'.isNone ∧ d.loc = d'.loc := by
    cases hn : d.isNone with
    | false =>
      cases hn' : d'.isNone with
      | false => exact ⟨rfl, h3 hn hn'⟩
      | true => exact (h1 hn hn').elim
    | true =>
      cases hn' : d'.isNone with
      | false => exact (h2 hn' hn).elim
      | true =>
        refine ⟨rfl, ?_⟩
        unfold Ref.isNone at hn hn'
        rw [beq_iff_eq] at hn hn'
        rw [hn, hn']
  obtain ⟨c, l⟩ := d
  obtain ⟨c', l'⟩ := d'
  have := hf hl.1
  obtain ⟨_, hl⟩ := hl
  simp only at hc hc' hl
  subst hl
  rw [Ref.mk.injEq]
  exact ⟨by rw [hc, hc']; exact this, rfl⟩

/-- The location of a reference: a hash, or none for an empty tree. -/
def LocOk (k : Kind) (l : Str) : Prop := isHash l = true ∨ (l = noneLocation ∧ k.isMtree = true)

/-- In tidy repositories, places with the same content have the same location. -/
theorem same_loc (ht : Tidy C L r recs) (ht' : Tidy C L' r' recs) (d : Nat) : ∀ {k k' : Kind} {ref ref' : Ref} {l l' : Str},
    k.inTree recs = true → ref.loc = some l → ref'.loc = some l' → LocOk k l → LocOk k' l' →
    Full C L h (.sto r ⟨k, ref⟩) → SameContent C L h (.sto r ⟨k, ref⟩) L' h' (.sto r' ⟨k', ref'⟩) →
    Depth C L h d (.sto r ⟨k, ref⟩) → k = k' ∧ l = l' := by
  induction d using Nat.strongRecOn with
  | ind d ih =>
    intro k k' ref ref' l l' hin hl hl' hok hok' hfull hsame hdepth
    obtain ⟨bn, hv⟩ := view_ok_of_look (hfull [] [])
    obtain ⟨bm, hv'⟩ := view_ok_of_look ((Full.of_same hsame hfull) [] [])
    have h0 := hsame [] []
    rw [look_nil [] hv, look_nil [] hv'] at h0
    injection h0 with _ hdat hbl
    obtain ⟨a, ha, rfl⟩ := view_sto.mp hv
    obtain ⟨a', ha', rfl⟩ := view_sto.mp hv'
    simp only at ha ha'
    rw [Body.map_data, Body.map_data] at hdat
    have hbl : a.blank = a'.blank := by
      have : ∀ (x : Body Link) (y : Realm), (x.map (Node.sto y)).blank = x.blank := by
        intro x y; simp [Body.blank, Body.map]
      rw [this, this] at hbl; exact hbl
    have hkk : k = k' := by rw [← strictFetch_kind ha, ← strictFetch_kind ha', hdat]
    subst hkk
    refine ⟨rfl, ?_⟩
    have mixed : ∀ {L : Log} {r : Realm} {ref : Ref} {l : Str} {a : Body Link}, Tidy C L r recs → k.isMtree = true →
        ref.loc = some l → isHash l = true → strictFetch C L r k ref = .ok a → a.blank = false := by
      intro L r ref l a ht hm hl hh ha
      cases k <;> simp [Kind.isMtree] at hm
      obtain ⟨es, rfl, _, hne, _⟩ := tree_loc ht hl hh ha
      unfold Body.blank
      cases es with
      | nil => exact absurd rfl hne
      | cons => simp
    rcases hok with hh | ⟨rfl, hm⟩
    · rcases hok' with hh' | ⟨rfl, hm'⟩
      · -- both are stored
        cases k with
        | metadata =>
          obtain ⟨m, rfl, rfl⟩ := metadata_loc ht hl hh ha
          obtain ⟨m', rfl, rfl⟩ := metadata_loc ht' hl' hh' ha'
          simp only [Data.metadata.injEq] at hdat
          rw [hdat]
        | mtree leaf =>
          obtain ⟨es, rfl, rfl, _, w1, w2⟩ := tree_loc ht hl hh ha
          obtain ⟨es', rfl, rfl, _, w1', w2'⟩ := tree_loc ht' hl' hh' ha'
          have fwd : ∀ e ∈ es, e ∈ es' := by
            intro e he
            obtain ⟨c', g1, g2, g3, g4⟩ := same_kid hfull hsame hv hv' (dget_childOf w1.nodup he r)
              (by simp) (by simp)
            obtain ⟨e', he', hname, rfl⟩ := mem_of_dget_childOf g1
            obtain ⟨d', rfl, hd'⟩ := hdepth.kid g4 (view_ok_of_look (g2 [] []))
            obtain ⟨k1, k2⟩ := ih d' (Nat.lt_succ_self _) (childOf_inTree hin e) childOf_ref childOf_ref
              (Or.inl (w1.hashes e he)) (Or.inl (w1'.hashes e' he')) g2 g3 hd'
            have : e = e' := by
              obtain ⟨a, b, c⟩ := e
              obtain ⟨a', b', c'⟩ := e'
              have := childOf_isTree k1
              simp only at this k2 hname
              subst this k2 hname
              rfl
            rw [this]; exact he'
          have bwd : ∀ e ∈ es', e ∈ es := by
            intro e he
            obtain ⟨c', g1, _⟩ := same_kid (Full.of_same hsame hfull) hsame.symm hv' hv
              (dget_childOf w1'.nodup he r') (by simp) (by simp)
            obtain ⟨e', he', hname, _⟩ := mem_of_dget_childOf g1
            rw [entry_eq w1'.nodup he (fwd e' he') hname.symm]
            exact he'
          rw [tree_ext w1 w1' w2 w2' fun e => ⟨fwd e, bwd e⟩]
        | mrr =>
          have hr : recs = true := hin
          subst hr
          obtain ⟨u, v, dlm, ft, rfl, rfl, c1, c2, d1, d2⟩ := record_loc ht hl hh ha
          obtain ⟨u', v', dlm', ft', rfl, rfl, c1', c2', d1', d2'⟩ := record_loc ht' hl' hh' ha'
          simp only [Data.mrr.injEq, Option.some.injEq] at hdat
          obtain ⟨rfl, rfl⟩ := hdat
          have e1 : dlm = dlm' := by
            refine part_eq (f := fun _ => c!"Metadata") c1 c1' (fun _ => rfl) ?_ ?_ ?_
            · intro hn hn'
              obtain ⟨c', g1, _⟩ := same_kid hfull hsame hv hv' (k := .dlm) (t := []) (c := .sto r ⟨.metadata, dlm⟩)
                (by rw [Body.dget_map, dget_mrrKids]; simp [hn]) (by simp) (by simp)
              rw [Body.dget_map, dget_mrrKids] at g1
              simp [hn'] at g1
            · intro hn hn'
              obtain ⟨c', g1, _⟩ := same_kid (Full.of_same hsame hfull) hsame.symm hv' hv (k := .dlm) (t := [])
                (c := .sto r' ⟨.metadata, dlm'⟩)
                (by rw [Body.dget_map, dget_mrrKids]; simp [hn]) (by simp) (by simp)
              rw [Body.dget_map, dget_mrrKids] at g1
              simp [hn'] at g1
            · intro hn hn'
              obtain ⟨c', g1, g2, g3, g4⟩ := same_kid hfull hsame hv hv' (k := .dlm) (t := []) (c := .sto r ⟨.metadata, dlm⟩)
                (by rw [Body.dget_map, dget_mrrKids]; simp [hn]) (by simp) (by simp)
              rw [Body.dget_map, dget_mrrKids] at g1
              simp [hn'] at g1
              subst g1
              obtain ⟨x, hx, hx'⟩ := hash_of_direct (d1 hn) hn
              obtain ⟨y, hy, hy'⟩ := hash_of_direct (d1' hn') hn'
              obtain ⟨d', rfl, hd'⟩ := hdepth.kid g4 (view_ok_of_look (g2 [] []))
              rw [hx, hy, (ih d' (Nat.lt_succ_self _) rfl hx hy (Or.inl hx') (Or.inl hy') g2 g3 hd').2]
          have e2 : ft = ft' := by
            have nb : ∀ bc, ft.isNone = false → view C L h (.sto r ⟨.mtree .metadata, ft⟩) = .ok bc → bc.blank = false := by
              intro bc hn hbc
              obtain ⟨x, hx, hx'⟩ := hash_of_direct (d2 hn) hn
              obtain ⟨z, hz, rfl⟩ := view_sto.mp hbc
              have := tree_blank ht hx hx' hz
              simpa [Body.blank, Body.map] using this
            have nb' : ∀ bc, ft'.isNone = false → view C L' h' (.sto r' ⟨.mtree .metadata, ft'⟩) = .ok bc → bc.blank = false := by
              intro bc hn hbc
              obtain ⟨x, hx, hx'⟩ := hash_of_direct (d2' hn) hn
              obtain ⟨z, hz, rfl⟩ := view_sto.mp hbc
              have := tree_blank ht' hx hx' hz
              simpa [Body.blank, Body.map] using this
            have hne : ∀ t' c', dget (Body.map (Node.sto r) (⟨.mrr (some u) (some v), mrrKids (if dlm.isNone then none else
                some ⟨.metadata, dlm⟩) (if ft.isNone then none else some ⟨.mtree .metadata, ft⟩)⟩ : Body Link)).kids .ft = some (t', c') →
                ft.isNone = false ∧ c' = .sto r ⟨.mtree .metadata, ft⟩ := by
              intro t' c' hg
              rw [Body.dget_map, dget_mrrKids] at hg
              cases hn : ft.isNone with
              | true => simp [hn] at hg
              | false => simp [hn] at hg; exact ⟨rfl, hg.2.symm⟩
            have hne' : ∀ t' c', dget (Body.map (Node.sto r') (⟨.mrr (some u) (some v), mrrKids (if dlm'.isNone then none else
                some ⟨.metadata, dlm'⟩) (if ft'.isNone then none else some ⟨.mtree .metadata, ft'⟩)⟩ : Body Link)).kids .ft = some (t', c') →
                ft'.isNone = false ∧ c' = .sto r' ⟨.mtree .metadata, ft'⟩ := by
              intro t' c' hg
              rw [Body.dget_map, dget_mrrKids] at hg
              cases hn : ft'.isNone with
              | true => simp [hn] at hg
              | false => simp [hn] at hg; exact ⟨rfl, hg.2.symm⟩
            refine part_eq c2 c2' (fun h => by unfold ftClass; rw [h]) ?_ ?_ ?_
            · intro hn hn'
              obtain ⟨c', g1, _⟩ := same_kid hfull hsame hv hv' (k := .ft) (t := []) (c := .sto r ⟨.mtree .metadata, ft⟩)
                (by rw [Body.dget_map, dget_mrrKids]; simp [hn]) (fun _ bc => nb bc hn)
                (fun _ t' c' bc hg hvc => by
                  obtain ⟨x1, rfl⟩ := hne' t' c' hg
                  exact nb' bc x1 hvc)
              rw [(hne' _ _ g1).1] at hn'; cases hn'
            · intro hn hn'
              obtain ⟨c', g1, _⟩ := same_kid (Full.of_same hsame hfull) hsame.symm hv' hv (k := .ft) (t := [])
                (c := .sto r' ⟨.mtree .metadata, ft'⟩)
                (by rw [Body.dget_map, dget_mrrKids]; simp [hn]) (fun _ bc => nb' bc hn)
                (fun _ t' c' bc hg hvc => by
                  obtain ⟨x1, rfl⟩ := hne t' c' hg
                  exact nb bc x1 hvc)
              rw [(hne _ _ g1).1] at hn'; cases hn'
            · intro hn hn'
              obtain ⟨c', g1, g2, g3, g4⟩ := same_kid hfull hsame hv hv' (k := .ft) (t := []) (c := .sto r ⟨.mtree .metadata, ft⟩)
                (by rw [Body.dget_map, dget_mrrKids]; simp [hn]) (fun _ bc => nb bc hn)
                (fun _ t' c' bc hg hvc => by
                  obtain ⟨x1, rfl⟩ := hne' t' c' hg
                  exact nb' bc x1 hvc)
              obtain ⟨_, rfl⟩ := hne' _ _ g1
              obtain ⟨x, hx, hx'⟩ := hash_of_direct (d2 hn) hn
              obtain ⟨y, hy, hy'⟩ := hash_of_direct (d2' hn') hn'
              obtain ⟨d', rfl, hd'⟩ := hdepth.kid g4 (view_ok_of_look (g2 [] []))
              rw [hx, hy, (ih d' (Nat.lt_succ_self _) rfl hx hy (Or.inl hx') (Or.inl hy') g2 g3 hd').2]
          rw [e1, e2]
        | _ => simp [Kind.inTree] at hin
      · exfalso
        rw [mixed ht hm' hl hh ha, tree_of_none hm' hl' ha'] at hbl
        cases hbl
    · rcases hok' with hh' | ⟨rfl, hm'⟩
      · exfalso
        rw [mixed ht' hm hl' hh' ha', tree_of_none hm hl ha] at hbl
        cases hbl
      · rfl

end

end MM
