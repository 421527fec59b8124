/-
Which stored objects git keeps: those that can be reached from references.
-/
import Verif.Neat
import Verif.ObjRef
import Verif.Crash

namespace MM

/-- Git reaches a stored object from the references of a repository, through trees. -/
inductive Reachable (C : Cfg) (L : Log) (r : Realm) : Str → Prop
  | named (name h : Str) : refOf L r name = some h → Reachable C L r h
  | entry (h : Str) (es : List TreeEntry) (e : TreeEntry) : Reachable C L r h →
      findObj C L r h = some (.tree es) → e ∈ es → Reachable C L r e.hash

/-- The hash that a location stands for -/
def target (L : Log) (r : Realm) (loc : Str) : Option Str := if isHash loc then some loc else refOf L r loc

/-- Reading an object and everything below it takes the stored object with the hash `h`.  Metadata
is found through a second reference. -/
inductive Needs (C : Cfg) (L : Log) (r : Realm) : Link → Str → Prop
  | self (l : Link) (loc h : Str) : l.ref.isNone = false → l.ref.loc = some loc → target L r loc = some h →
      Needs C L r l h
  | inner (l : Link) (loc s : Str) (ref : Ref) (h : Str) : l.kind = .metadata → l.ref.isNone = false →
      l.ref.loc = some loc → textAt C L r loc = .ok s → Ref.fromText C.floats s = .ok ref → ref.loc = some h →
      Needs C L r l h
  | part (l : Link) (b : Body Link) (e : Key × (Str × Link)) (h : Str) : fetch C L r l.kind l.ref = .ok b →
      e ∈ b.kids → Needs C L r e.2.2 h → Needs C L r l h

/-- The hash is the one of a root record that is an element of a version list at or below the
object. -/
inductive ListedRecord (C : Cfg) (L : Log) (r : Realm) : Link → Str → Prop
  | here (l : Link) (b : Body Link) (e : Key × (Str × Link)) (h : Str) : l.kind = .vlist ∨ l.kind = .tvl →
      fetch C L r l.kind l.ref = .ok b → e ∈ b.kids → e.2.2.kind = .mrr → e.2.2.ref.loc = some h →
      ListedRecord C L r l h
  | part (l : Link) (b : Body Link) (e : Key × (Str × Link)) (h : Str) : fetch C L r l.kind l.ref = .ok b →
      e ∈ b.kids → ListedRecord C L r e.2.2 h → ListedRecord C L r l h

/-! ### What writing stores -/

/-- A version record -/
structure VRec where
  version : Str
  path : PPath
  stamp : Str
  link : Link

def VRec.json (x : VRec) : Json := vrecJson (.ver x.version x.path) x.stamp x.link.ref

/-- The record is read as it was written. -/
structure VRec.Ok (x : VRec) : Prop where
  path : Canonical x.path
  kind : x.link.kind = .mtree .mrr ∨ x.link.kind = .mrr
  tree : x.link.kind = .mtree .mrr → x.link.ref.cls = c!"MTreeNode" ∨ x.link.ref.cls = c!"DatasetTree"
  record : x.link.kind = .mrr → x.link.ref.cls = c!"MetadataRootRecord"

/-- What is stored under a reference of a class has the form in which the code writes it, and
everything that git does not find from there is in the set `R` of object references, except for
root records in version lists. -/
inductive Supp (C : Cfg) (L : Log) (r : Realm) (R : Bool × Str → Prop) : Kind → Ref → Prop
  | none (k : Kind) (ref : Ref) : ref.isNone = true → Supp C L r R k ref
  | text (ref : Ref) (s : Str) : Stored L r (.blob s) → ref.loc = some (C.hash (.blob s)) → Supp C L r R .text ref
  | metadata (ref : Ref) (cls h : Str) : Stored L r (.blob (Ref.toText C.floats ⟨cls, some h⟩)) →
      ref.loc = some (C.hash (.blob (Ref.toText C.floats ⟨cls, some h⟩))) → R (false, h) → Supp C L r R .metadata ref
  | mtree (leaf : Leaf) (ref : Ref) (es : List TreeEntry) : Stored L r (.tree es) →
      ref.loc = some (C.hash (.tree es)) → (∀ e ∈ es, isHash e.hash = true) →
      (∀ e ∈ es, Supp C L r R (childOf leaf e).2.2.kind (childOf leaf e).2.2.ref) → Supp C L r R (.mtree leaf) ref
  | mrr (ref : Ref) (u : Uuid) (v : Str) (d f : Ref) : ref.cls = c!"MetadataRootRecord" →
      Stored L r (.blob (dumps C.floats (mrrJson (some u) (some v) d f))) →
      ref.loc = some (C.hash (.blob (dumps C.floats (mrrJson (some u) (some v) d f)))) →
      Supp C L r R .metadata d → Supp C L r R (.mtree .metadata) f →
      (d.isNone = false → ∃ h, d.loc = some h ∧ R (false, h)) →
      (f.isNone = false → ∃ h, f.loc = some h ∧ R (true, h)) → Supp C L r R .mrr ref
  | versions (k : Kind) (ref : Ref) (rs : List VRec) : k = .vlist ∨ k = .tvl →
      Stored L r (.blob (dumps C.floats (.arr (rs.map VRec.json)))) →
      ref.loc = some (C.hash (.blob (dumps C.floats (.arr (rs.map VRec.json))))) →
      (∀ x ∈ rs, x.Ok) → (∀ x ∈ rs, Supp C L r R x.link.kind x.link.ref) →
      (∀ x ∈ rs, x.link.kind = .mtree .mrr → x.link.ref.isNone = false → ∃ h, x.link.ref.loc = some h ∧ R (true, h)) →
      Supp C L r R k ref
  | uuidset (ref : Ref) (es : List TreeEntry) : Stored L r (.tree es) → ref.loc = some (C.hash (.tree es)) →
      (∀ e ∈ es, isHash e.hash = true) → (∀ e ∈ es, ∃ u : Uuid, e.name = u.str) →
      (∀ e ∈ es, Supp C L r R .vlist ⟨c!"VersionList", some e.hash⟩) → Supp C L r R .uuidset ref

section
variable {C : Cfg} {r : Realm} {R : Bool × Str → Prop}

/-- More stored objects and more references do no harm. -/
theorem Supp.mono {L L' : Log} {R' : Bool × Str → Prop} (hL : ∀ o, Stored L r o → Stored L' r o) (hR : ∀ x, R x → R' x) {k : Kind} {ref : Ref}
    (h : Supp C L r R k ref) : Supp C L' r R' k ref := by
  induction h with
  | none k ref h => exact .none k ref h
  | text ref s h1 h2 => exact .text ref s (hL _ h1) h2
  | metadata ref cls h h1 h2 h3 => exact .metadata ref cls h (hL _ h1) h2 (hR _ h3)
  | mtree leaf ref es h1 h2 h3 _ ih => exact .mtree leaf ref es (hL _ h1) h2 h3 ih
  | mrr ref u v d f hc h1 h2 _ _ h3 h4 ih1 ih2 =>
    exact .mrr ref u v d f hc (hL _ h1) h2 ih1 ih2 (fun hn => let ⟨h, a, b⟩ := h3 hn; ⟨h, a, hR _ b⟩)
      (fun hn => let ⟨h, a, b⟩ := h4 hn; ⟨h, a, hR _ b⟩)
  | versions k ref rs hk h1 h2 h3 _ h4 ih =>
    exact .versions k ref rs hk (hL _ h1) h2 h3 ih (fun x hx hx1 hx2 => let ⟨h, a, b⟩ := h4 x hx hx1 hx2; ⟨h, a, hR _ b⟩)
  | uuidset ref es h1 h2 h3 h4 _ ih => exact .uuidset ref es (hL _ h1) h2 h3 h4 ih

/-- The part `l` of an object of class `k` at the hash `h` is found by git, or is recorded. -/
def Covered (C : Cfg) (L : Log) (r : Realm) (R : Bool × Str → Prop) (k : Kind) (h : Str) (l : Link) : Prop :=
  l.ref.isNone = false → ∃ x, l.ref.loc = some x ∧
    ((∃ t, R (t, x)) ∨ (k ≠ .mrr ∧ ∃ es e, findObj C L r h = some (.tree es) ∧ e ∈ es ∧ e.hash = x) ∨
      ((k = .vlist ∨ k = .tvl) ∧ l.kind = .mrr))

theorem mem_foldl_vset {α : Type} {rs : List (Str × PPath × α)} : ∀ {acc : List (Key × α)} {e : Key × α},
    e ∈ rs.foldl (fun acc e => vset acc e.1 e.2.1 e.2.2) acc → e ∈ acc ∨ ∃ x ∈ rs, e.2 = x.2.2 := by
  induction rs with
  | nil => intro acc e h; exact Or.inl h
  | cons y rs ih =>
    intro acc e h
    rcases ih h with h | ⟨x, hx, he⟩
    · rcases mem_vset h with h | h
      · exact Or.inr ⟨y, List.mem_cons_self .., by rw [h]⟩
      · exact Or.inl h
    · exact Or.inr ⟨x, List.mem_cons_of_mem _ hx, he⟩

theorem isNone_loc {a b : Ref} (h : a.loc = b.loc) : a.isNone = b.isNone := by
  unfold Ref.isNone; rw [h]

theorem fetch_none {L : Log} {k : Kind} {ref : Ref} {b : Body Link} (h : fetch C L r k ref = .ok b)
    (hn : ref.isNone = true) : b.kids = [] := by
  unfold fetch at h
  rw [if_pos hn] at h
  split at h
  · split at h
    · cases h
    · cases h; rfl
  · cases h

theorem fetch_decode {L : Log} {k : Kind} {ref : Ref} {b : Body Link} (h : fetch C L r k ref = .ok b)
    {loc : Str} (hl : ref.loc = some loc) (hn : ref.isNone = false) : decode C L r k loc = .ok b := by
  unfold fetch at h
  rw [if_neg (by rw [hn]; decide)] at h
  split at h
  · rw [hl] at h; exact h
  · cases h

theorem not_needs_none {L : Log} {l : Link} {h : Str} (hn : l.ref.isNone = true) : ¬ Needs C L r l h := by
  intro hx
  cases hx with
  | self _ loc h h1 => rw [hn] at h1; cases h1
  | inner _ loc s ref h _ h1 => rw [hn] at h1; cases h1
  | part _ b e h h1 h2 => rw [fetch_none h1 hn] at h2; cases h2

theorem childOf_loc (leaf : Leaf) (e : TreeEntry) : (childOf leaf e).2.2.ref.loc = some e.hash := by
  unfold childOf
  split <;> rfl

theorem wf_vrecs (rs : List VRec) : (Json.arr (rs.map VRec.json)).WF := by
  simp only [Json.WF]
  rw [Json.wfArr_iff]
  intro j hj
  obtain ⟨x, _, rfl⟩ := List.mem_map.mp hj
  exact wf_vrecJson _ _ _

theorem vrecs_read {rs : List VRec} (h : ∀ x ∈ rs, x.Ok) {ks : List (Key × (Str × Link))}
    (hk : vrecsFromJson (.arr (rs.map VRec.json)) = .ok ks) : ∀ e ∈ ks, ∃ x ∈ rs, e.2.2 = x.link := by
  unfold vrecsFromJson at hk
  obtain ⟨js, h1, hk⟩ := ok_bind hk
  cases h1
  obtain ⟨ys, h2, hk⟩ := ok_bind hk
  cases hk
  intro e he
  rcases mem_foldl_vset he with he | ⟨y, hy, he⟩
  · cases he
  · obtain ⟨j, hj, h3⟩ := eachOk_mem h2 hy
    obtain ⟨x, hx, rfl⟩ := List.mem_map.mp hj
    have ok := h x hx
    have h4 := vrecFromJson_vrecJson (v := x.version) ok.path x.stamp ok.kind ok.tree ok.record
    have h5 : (x.version, x.path, x.stamp, (⟨x.link.kind, x.link.ref⟩ : Link)) = y := by
      have : vrecFromJson x.json = .ok (x.version, x.path, x.stamp, ⟨x.link.kind, x.link.ref⟩) := h4
      rw [this] at h3
      exact Except.ok.inj h3
    refine ⟨x, hx, ?_⟩
    rw [he, ← h5]

/-- The parts of what is stored, as they are read -/
theorem Supp.parts {L : Log} (hc : CollisionFree C L) {k : Kind} {ref ref' : Ref} {b : Body Link}
    (h : Supp C L r R k ref) (hl : ref'.loc = ref.loc) (hf : fetch C L r k ref' = .ok b) :
    ∀ e ∈ b.kids, Supp C L r R e.2.2.kind e.2.2.ref ∧ ∀ x, ref.loc = some x → Covered C L r R k x e.2.2 := by
  have hn := isNone_loc hl
  have some_none : ∀ {o : GitObj}, ref.loc = some (C.hash o) → ref'.isNone = false := by
    intro o ho
    rw [hn]
    unfold Ref.isNone
    rw [ho]
    simpa using isHash_ne_none (C.valid o)
  cases h with
  | none _ _ h1 => intro e he; rw [fetch_none hf (hn.trans h1)] at he; cases he
  | text _ s h1 h2 =>
    have hd := fetch_decode hf (hl.trans h2) (some_none h2)
    unfold decode at hd
    simp only at hd
    rw [bind_of_eq_ok _ (textAt_stored hc h1)] at hd
    cases hd
    intro e he; cases he
  | metadata _ cls h h1 h2 h3 =>
    have hd := fetch_decode hf (hl.trans h2) (some_none h2)
    unfold decode at hd
    simp only at hd
    obtain ⟨s, _, hd⟩ := ok_bind hd
    obtain ⟨ref2, _, hd⟩ := ok_bind hd
    cases hl2 : ref2.loc with
    | none => rw [hl2] at hd; cases hd
    | some l2 =>
      rw [hl2] at hd
      simp only at hd
      obtain ⟨s2, _, hd⟩ := ok_bind hd
      obtain ⟨m, _, hd⟩ := ok_bind hd
      cases hd
      intro e he; cases he
  | mtree leaf _ es h1 h2 h3 h4 =>
    have hd := fetch_decode hf (hl.trans h2) (some_none h2)
    unfold decode at hd
    simp only at hd
    rw [bind_of_eq_ok _ (treeAt_stored hc h1), bind_of_eq_ok _ (readTree_ok h3)] at hd
    cases hd
    intro e he
    obtain ⟨x, hx, rfl⟩ := List.mem_map.mp (mem_fromItems he)
    refine ⟨h4 x hx, fun y hy _ => ⟨x.hash, childOf_loc leaf x, Or.inr (Or.inl ⟨by simp, es, x, ?_, hx, rfl⟩)⟩⟩
    rw [h2] at hy
    cases hy
    exact findObj_of_stored hc h1
  | mrr _ u v d f hcls h1 h2 h3 h4 h5 h6 =>
    have hd := fetch_decode hf (hl.trans h2) (some_none h2)
    unfold decode at hd
    simp only at hd
    rw [bind_of_eq_ok _ (jsonAt_stored hc (wf_mrrJson ..) h1), mrrFromJson_mrrJson] at hd
    cases hd
    intro e he
    simp only [mrrKids, List.mem_append] at he
    rcases he with he | he
    · cases hd1 : d.isNone with
      | true => simp [hd1] at he
      | false =>
        simp only [hd1, Bool.false_eq_true, if_false, List.mem_cons, List.not_mem_nil, or_false] at he
        subst he
        refine ⟨h3, fun y _ _ => ?_⟩
        obtain ⟨h, a, b⟩ := h5 hd1
        exact ⟨h, a, Or.inl ⟨_, b⟩⟩
    · cases hd1 : f.isNone with
      | true => simp [hd1] at he
      | false =>
        simp only [hd1, Bool.false_eq_true, if_false, List.mem_cons, List.not_mem_nil, or_false] at he
        subst he
        refine ⟨h4, fun y _ _ => ?_⟩
        obtain ⟨h, a, b⟩ := h6 hd1
        exact ⟨h, a, Or.inl ⟨_, b⟩⟩
  | versions _ _ rs hk h1 h2 h3 h4 h5 =>
    have hd := fetch_decode hf (hl.trans h2) (some_none h2)
    have key : ∀ e ∈ b.kids, ∃ x ∈ rs, e.2.2 = x.link := by
      unfold decode at hd
      rcases hk with rfl | rfl <;>
      · simp only at hd
        rw [bind_of_eq_ok _ (jsonAt_stored hc (wf_vrecs rs) h1)] at hd
        obtain ⟨ks, h6, hd⟩ := ok_bind hd
        cases hd
        exact vrecs_read h3 h6
    intro e he
    obtain ⟨x, hx, hxe⟩ := key e he
    rw [hxe]
    refine ⟨h4 x hx, fun y _ hn => ?_⟩
    rcases (h3 x hx).kind with hk' | hk'
    · obtain ⟨h, a, b⟩ := h5 x hx hk' hn
      exact ⟨h, a, Or.inl ⟨_, b⟩⟩
    · have hs := h4 x hx
      rw [hk'] at hs
      cases hs with
      | none _ _ h6 => rw [hn] at h6; cases h6
      | mrr _ u v d f _ _ h7 => exact ⟨_, h7, Or.inr (Or.inr ⟨hk, hk'⟩)⟩
      | versions _ _ rs hk => rcases hk with hk | hk <;> cases hk
  | uuidset _ es h1 h2 h3 h4 h5 =>
    have hd := fetch_decode hf (hl.trans h2) (some_none h2)
    unfold decode at hd
    simp only at hd
    rw [bind_of_eq_ok _ (treeAt_stored hc h1), bind_of_eq_ok _ (rawTree_ok h3 fun e he => by
      obtain ⟨u, hu⟩ := h4 e he
      rw [hu]; exact (uuid_name_ok u).2)] at hd
    obtain ⟨ks, h6, hd⟩ := ok_bind hd
    cases hd
    intro e he
    obtain ⟨x, hx, h7⟩ := eachOk_mem h6 (mem_fromItems he)
    unfold uuidEntry at h7
    obtain ⟨u, _, h7⟩ := ok_bind h7
    cases h7
    refine ⟨h5 x hx, fun y hy _ => ⟨x.hash, rfl, Or.inr (Or.inl ⟨by simp, es, x, ?_, hx, rfl⟩)⟩⟩
    rw [h2] at hy
    cases hy
    exact findObj_of_stored hc h1

/-- The second reference of metadata -/
theorem Supp.inner {L : Log} (hc : CollisionFree C L) {ref ref' : Ref} {loc s h : Str}
    (hs : Supp C L r R .metadata ref) (hn : ref.isNone = false) (hl : ref.loc = some loc) (ht : textAt C L r loc = .ok s)
    (hr : Ref.fromText C.floats s = .ok ref') (hh : ref'.loc = some h) : R (false, h) := by
  cases hs with
  | none _ _ h1 => rw [hn] at h1; cases h1
  | metadata _ cls h' h1 h2 h3 =>
    rw [hl] at h2
    cases h2
    rw [textAt_stored hc h1] at ht
    cases ht
    unfold Ref.fromText Ref.toText at hr
    rw [gitText_dumps, loads_dumps C.floats _ (Ref.wf_toJson _)] at hr
    simp only [Ref.fromJson_toJson, Except.ok.injEq] at hr
    rw [← hr] at hh
    cases hh
    exact h3
  | versions _ _ rs hk => rcases hk with hk | hk <;> cases hk

/-- Everything that reading takes is found by git, except for root records in version lists. -/
theorem Supp.needs {L : Log} (hc : CollisionFree C L) (hR : ∀ t h, R (t, h) → Reachable C L r h) {l : Link} {h : Str}
    (hn : Needs C L r l h) : ∀ {ref : Ref}, Supp C L r R l.kind ref → l.ref.loc = ref.loc →
    (∀ x, l.ref.loc = some x → Reachable C L r x ∨ l.kind = .mrr) →
    Reachable C L r h ∨ ListedRecord C L r l h ∨ (l.kind = .mrr ∧ l.ref.loc = some h) := by
  induction hn with
  | self l loc h h1 h2 h3 =>
    intro ref hs hl hx
    unfold target at h3
    split at h3
    · cases h3
      rcases hx loc h2 with h | h
      · exact Or.inl h
      · exact Or.inr (Or.inr ⟨h, h2⟩)
    · exact Or.inl (.named _ _ h3)
  | inner l loc s ref' h hk h1 h2 h3 h4 h5 =>
    intro ref hs hl hx
    rw [hk] at hs
    refine Or.inl (hR false h (hs.inner hc ?_ (hl ▸ h2) h3 h4 h5))
    rw [← isNone_loc hl]; exact h1
  | part l b e h hf he hne ih =>
    intro ref hs hl hx
    obtain ⟨p1, p2⟩ := hs.parts hc hl hf e he
    have hen : e.2.2.ref.isNone = false := by
      cases hen : e.2.2.ref.isNone with
      | false => rfl
      | true => exact absurd hne (not_needs_none hen)
    have hln : ∃ x, ref.loc = some x := by
      cases hloc : ref.loc with
      | some x => exact ⟨x, rfl⟩
      | none =>
        exfalso
        unfold fetch at hf
        have hnn : l.ref.isNone = false := by unfold Ref.isNone; rw [hl, hloc]; rfl
        rw [if_neg (by rw [hnn]; decide), hl, hloc] at hf
        split at hf <;> cases hf
    obtain ⟨x, hxl⟩ := hln
    obtain ⟨y, hy, hcov⟩ := p2 x hxl hen
    have hcase : Reachable C L r y ∨ ((l.kind = .vlist ∨ l.kind = .tvl) ∧ e.2.2.kind = .mrr) := by
      rcases hcov with ⟨t, ht⟩ | ⟨hk, es, en, h1, h2, h3⟩ | h1
      · exact Or.inl (hR t y ht)
      · rcases hx x (hl.trans hxl) with h4 | h4
        · exact Or.inl (h3 ▸ .entry x es en h4 h1 h2)
        · exact absurd h4 hk
      · exact Or.inr h1
    rcases ih p1 rfl (fun z hz => by
      rw [hy] at hz; cases hz
      exact hcase.imp id And.right) with h1 | h1 | ⟨h1, h2⟩
    · exact Or.inl h1
    · exact Or.inr (Or.inl (.part l b e h hf he h1))
    · rcases hcase with h3 | ⟨h3, _⟩
      · rw [h2] at hy; cases hy
        exact Or.inl h3
      · exact Or.inr (Or.inl (.here l b e h h3 hf he h1 h2))

end

/-! ### Writing -/

/-- Writing adds to what is stored and to the pending object references. -/
structure Grow (r : Realm) (w w' : World) : Prop where
  any : Any r w w'
  refs : ∀ x ∈ w.refs, x ∈ w'.refs
  names : ∀ n, n ≠ tvlRefName → n ≠ uuidSetRefName → refOf w'.repo.log r n = refOf w.repo.log r n

theorem Grow.refl (r : Realm) (w : World) : Grow r w w := ⟨Any.refl r w, fun _ h => h, fun _ _ _ => rfl⟩

theorem Grow.trans {r : Realm} {a b c : World} (h : Grow r a b) (h' : Grow r b c) : Grow r a c :=
  ⟨h.any.trans h'.any, fun x hx => h'.refs x (h.refs x hx), fun n h1 h2 => (h'.names n h1 h2).trans (h.names n h1 h2)⟩

/-- The pending object references stay as they are. -/
def SameList {α : Type} (x : W α) : Prop := ∀ w, (x w).2.refs = w.refs

theorem sameList_liftG {α : Type} (g : G α) : SameList (liftG g) := by
  intro w
  unfold liftG
  rfl

theorem sameList_bind {α β : Type} {x : W α} {f : α → W β} (hx : SameList x) (hf : ∀ a, SameList (f a)) :
    SameList (x >>= f) := by
  have h := M.Keeps.bind (R := fun a b : World => b.refs = a.refs) (fun a b c h1 h2 => h2.trans h1) hx hf
  exact h

theorem sameList_modify (f : World → World) (h : ∀ w, (f w).refs = w.refs) : SameList (M.modify f) := fun w => h w

theorem sameList_flushCache (C : Cfg) (r : Realm) : SameList (flushCache C r) := by
  refine sameList_bind (fun _ => rfl) fun w => ?_
  split
  · exact fun _ => rfl
  · exact sameList_bind (sameList_liftG _) fun _ => sameList_modify _ fun _ => rfl

theorem sameList_saveBlob (C : Cfg) (r : Realm) (s : Str) : SameList (saveBlob C r s) := by
  refine sameList_bind (fun _ => rfl) fun w => ?_
  split
  · exact sameList_liftG _
  · refine sameList_bind (fun _ => rfl) fun w => ?_
    split
    · exact sameList_bind (sameList_flushCache C r) fun _ => sameList_bind (sameList_modify _ fun _ => rfl) fun _ => fun _ => rfl
    · exact sameList_bind (sameList_modify _ fun _ => rfl) fun _ => fun _ => rfl

theorem sameList_cacheRealm (r : Realm) : SameList (cacheRealm r) := by
  intro w
  unfold cacheRealm
  split <;> rfl

theorem sameList_flushRealm (C : Cfg) (r : Realm) : SameList (flushRealm C r) := by
  refine sameList_bind (fun _ => rfl) fun w => ?_
  split
  · exact fun _ => rfl
  · exact sameList_bind (sameList_flushCache C r) fun _ => sameList_modify _ fun _ => rfl

theorem stores_refOf {r : Realm} {w w' : World} (h : Stores r w w') (x : Realm) (n : Str) :
    refOf w'.repo.log x n = refOf w.repo.log x n := by
  obtain ⟨K, h1, h2⟩ := h
  rw [h1]
  exact refOf_append_saves (fun op hop => let ⟨o, ho⟩ := h2 op hop; ⟨r, o, ho⟩) _ _ _

theorem grow_of {α : Type} {r : Realm} {x : W α} (h1 : M.Keeps x (Any r)) (h2 : SameList x) (h3 : M.Keeps x (Stores r)) : M.Keeps x (Grow r) :=
  fun w => ⟨h1 w, fun y hy => by rw [h2 w]; exact hy, fun n _ _ => stores_refOf (h3 w) r n⟩

theorem grow_addRef (r : Realm) (b : Bool) (h : Option Str) : M.Keeps (addRef b h) (Grow r) := by
  intro w
  refine ⟨addRef_any r b h w, ?_, fun n _ _ => stores_refOf (stores_ref (r := r) b h w) r n⟩
  intro x hx
  unfold addRef
  cases h with
  | none => exact hx
  | some h =>
    simp only
    split
    · exact hx
    · exact List.mem_append_left _ hx

theorem addRef_adds {b : Bool} {h : Str} {w w' : World} (hr : addRef b (some h) w = (.ok (), w')) (hn : h ≠ noneLocation) :
    (b, h) ∈ w'.refs := by
  unfold addRef at hr
  simp only at hr
  split at hr
  · rename_i hx
    cases hr
    exact hx.resolve_left hn
  · cases hr
    exact List.mem_append_right _ (List.mem_singleton.mpr rfl)

/-- The reference of an object whose parts git finds or has as object references (in `B`, or
pending), or the name of a top-level object -/
def Prot (C : Cfg) (B : Bool × Str → Prop) (r : Realm) (k : Kind) (ref : Ref) (w : World) : Prop :=
  RefOk k ref ∧ (Supp C w.eff r (fun x => x ∈ w.refs ∨ B x) k ref ∨ ∃ nm, pubName k = some nm ∧ ref.loc = some nm)

/-- The lists to which the names of top-level objects point are like that. -/
def Published (C : Cfg) (B : Bool × Str → Prop) (r : Realm) (w : World) : Prop := ∀ k nm x, pubName k = some nm →
  refOf w.repo.log r nm = some x → Supp C w.eff r (fun x => x ∈ w.refs ∨ B x) k ⟨[], some x⟩

/-- In a set of objects, those that pass for saved are like that; and published lists. -/
structure Kept (C : Cfg) (B : Bool × Str → Prop) (r : Realm) (T : ObjId → Prop) (h : Heap) (w : World) : Prop where
  named : Published C B r w
  hashes : ∀ x ∈ w.refs, isHash x.2 = true
  same : ∀ j, SameObj (h j) (w.heap j)
  nodup : (dkeys w.caches).Nodup
  flagged : ∀ j, T j → r ∈ (w.heap j).savedOn → ∃ ref, (w.heap j).ref = some ref ∧ Prot C B r (h j).kind ref w

/-- Claims that writing does not undo -/
def Up (r : Realm) (P : World → Prop) : Prop := ∀ w w', (dkeys w.caches).Nodup → Grow r w w' → P w → P w'

/-- Whatever the outcome, objects that pass for saved stay protected; results are as described. -/
def Guards {α : Type} (C : Cfg) (B : Bool × Str → Prop) (r : Realm) (T : ObjId → Prop) (h : Heap) (P : World → Prop)
    (x : W α) (Q : α → World → Prop) : Prop :=
  ∀ w, Kept C B r T h w → P w → Kept C B r T h (x w).2 ∧ Grow r w (x w).2 ∧ ∀ a, (x w).1 = .ok a → Q a (x w).2

section
variable {C : Cfg} {B : Bool × Str → Prop} {r : Realm} {T : ObjId → Prop} {h : Heap}

theorem up_supp (k : Kind) (ref : Ref) : Up r (fun w => Supp C w.eff r (fun x => x ∈ w.refs ∨ B x) k ref) := by
  intro w w' hn hg hs
  exact hs.mono (fun o ho => hg.any.grows hn r o ho) fun x hx => hx.imp (hg.refs x) id

theorem up_prot (k : Kind) (ref : Ref) : Up r (Prot C B r k ref) := by
  rintro w w' hn hg ⟨h1, h2⟩
  exact ⟨h1, h2.imp (up_supp k ref w w' hn hg) id⟩

theorem up_listed (x : Bool × Str) : Up r (fun w => x ∈ w.refs ∨ B x) := fun _ _ _ hg h => h.imp (hg.refs x) id

theorem up_stored (o : GitObj) : Up r (fun w => Stored w.eff r o) := fun _ _ hn hg h => hg.any.grows hn r o h

theorem up_const (p : Prop) : Up r (fun _ => p) := fun _ _ _ _ h => h

theorem up_and {P P' : World → Prop} (h1 : Up r P) (h2 : Up r P') : Up r (fun w => P w ∧ P' w) :=
  fun w w' hn hg h => ⟨h1 w w' hn hg h.1, h2 w w' hn hg h.2⟩

theorem up_imp {p : Prop} {P : World → Prop} (h1 : Up r P) : Up r (fun w => p → P w) :=
  fun w w' hn hg h hp => h1 w w' hn hg (h hp)

theorem up_ex {α : Type} {P : α → World → Prop} (h1 : ∀ a, Up r (P a)) : Up r (fun w => ∃ a, P a w) :=
  fun w w' hn hg ⟨a, ha⟩ => ⟨a, h1 a w w' hn hg ha⟩

theorem up_all2 {α β : Type} {Q : α → β → World → Prop} (hQ : ∀ a b, Up r (Q a b)) (as : List α) (bs : List β) :
    Up r (fun w => All2 (fun a b => Q a b w) as bs) := by
  intro w w' hn hg h
  induction h with
  | nil => exact All2.nil
  | cons h1 _ ih => exact All2.cons (hQ _ _ w w' hn hg h1) ih

theorem Guards.bind {α β : Type} {P : World → Prop} {x : W α} {f : α → W β} {Q : α → World → Prop} {Q' : β → World → Prop}
    (hx : Guards C B r T h P x Q) (hf : ∀ a, Guards C B r T h (Q a) (f a) Q') : Guards C B r T h P (x >>= f) Q' := by
  intro w hw hp
  obtain ⟨h1, h2, h3⟩ := hx w hw hp
  rw [M.bind_run]
  cases hxw : x w with
  | mk res w1 =>
    rw [hxw] at h1 h2 h3
    cases res with
    | ok a =>
      obtain ⟨g1, g2, g3⟩ := hf a w1 h1 (h3 a rfl)
      exact ⟨g1, h2.trans g2, g3⟩
    | error e => exact ⟨h1, h2, fun a h => by cases h⟩

theorem Guards.pure {α : Type} {P : World → Prop} {a : α} {Q : α → World → Prop} (hq : ∀ w, P w → Q a w) :
    Guards C B r T h P (Pure.pure a : W α) Q :=
  fun w hw hp => ⟨hw, Grow.refl r w, fun b hb => by cases hb; exact hq w hp⟩

theorem Guards.raise {α : Type} {P : World → Prop} (e : PyErr) (Q : α → World → Prop) :
    Guards C B r T h P (M.raise e : W α) Q :=
  fun w hw _ => ⟨hw, Grow.refl r w, fun b hb => by cases hb⟩

theorem Guards.mono {α : Type} {P P' : World → Prop} {x : W α} {Q Q' : α → World → Prop} (hx : Guards C B r T h P x Q)
    (hp : ∀ w, P' w → P w) (hq : ∀ a w, Q a w → Q' a w) : Guards C B r T h P' x Q' :=
  fun w hw hpw => let ⟨a, b, c⟩ := hx w hw (hp w hpw); ⟨a, b, fun v hv => hq v _ (c v hv)⟩

theorem Guards.frame' {α : Type} {P P' : World → Prop} {x : W α} {Q : α → World → Prop} (hx : Guards C B r T h P' x Q)
    (hu : Up r P) : Guards C B r T h (fun w => P' w ∧ P w) x (fun a w => Q a w ∧ P w) :=
  fun w hw hpw => let ⟨a, b, c⟩ := hx w hw hpw.1; ⟨a, b, fun v hv => ⟨c v hv, hu w _ hw.nodup b hpw.2⟩⟩

/-- What was known stays known. -/
theorem Guards.frame {α : Type} {P : World → Prop} {x : W α} {Q : α → World → Prop} (hx : Guards C B r T h (fun _ => True) x Q)
    (hu : Up r P) : Guards C B r T h P x (fun a w => Q a w ∧ P w) :=
  fun w hw hpw => let ⟨a, b, c⟩ := hx w hw trivial; ⟨a, b, fun v hv => ⟨c v hv, hu w _ hw.nodup b hpw⟩⟩

theorem Guards.forEach {α β : Type} {f : α → W β} {Q : α → β → World → Prop} (hQ : ∀ a b, Up r (Q a b)) : ∀ {l : List α},
    (∀ a ∈ l, Guards C B r T h (fun _ => True) (f a) (Q a)) →
    Guards C B r T h (fun _ => True) (M.forEach f l) (fun bs w => All2 (fun a b => Q a b w) l bs) := by
  intro l
  induction l with
  | nil => intro _; exact Guards.pure fun _ _ => All2.nil
  | cons a l ih =>
    intro hf
    rw [M.forEach_cons]
    refine Guards.bind (hf a (List.mem_cons_self ..)) fun b => ?_
    refine Guards.bind (Guards.frame (ih fun x hx => hf x (List.mem_cons_of_mem _ hx)) (hQ a b)) fun bs => ?_
    exact Guards.pure fun w ⟨h1, h2⟩ => All2.cons h2 h1

/-- Code that leaves the objects alone -/
theorem Guards.op {α : Type} {P : World → Prop} {x : W α} {Q : α → World → Prop} (hs : Still x) (hk : M.Keeps x (Grow r))
    (hnm : ∀ w, P w → ∀ k nm y, pubName k = some nm → refOf (x w).2.repo.log r nm = some y →
      refOf w.repo.log r nm = some y ∨ Supp C w.eff r (fun x => x ∈ w.refs ∨ B x) k ⟨[], some y⟩)
    (hrf : ∀ w, P w → ∀ y ∈ (x w).2.refs, y ∈ w.refs ∨ isHash y.2 = true)
    (hq : ∀ w a w', (dkeys w.caches).Nodup → P w → x w = (.ok a, w') → Q a w') : Guards C B r T h P x Q := by
  intro w hw hp
  have hg := hk w
  refine ⟨⟨?_, fun y hy => (hrf w hp y hy).elim (hw.hashes y) id, ?_, hg.any.nodup hw.nodup, ?_⟩, hg, ?_⟩
  · intro k nm y hk hy
    exact up_supp _ _ w _ hw.nodup hg ((hnm w hp k nm y hk hy).elim (hw.named k nm y hk) id)
  · rw [hs w]; exact hw.same
  · rw [hs w]
    intro j hj hf
    obtain ⟨ref, h1, h2⟩ := hw.flagged j hj hf
    exact ⟨ref, h1, up_prot _ _ w _ hw.nodup hg h2⟩
  · intro a ha
    cases hx : x w with
    | mk res w' =>
      rw [hx] at ha
      simp only at ha
      subst ha
      exact hq w a w' hw.nodup hp hx

/-- Code that also leaves the names alone -/
theorem Guards.save {α : Type} {P : World → Prop} {x : W α} {Q : α → World → Prop} (hs : Still x) (h1 : M.Keeps x (Any r))
    (h2 : SameList x) (h3 : M.Keeps x (Stores r))
    (hq : ∀ w a w', (dkeys w.caches).Nodup → P w → x w = (.ok a, w') → Q a w') : Guards C B r T h P x Q :=
  Guards.op hs (grow_of h1 h2 h3) (fun w _ _ nm y _ hy => Or.inl (by rw [stores_refOf (h3 w) r nm] at hy; exact hy))
    (fun w _ y hy => Or.inl (by rw [h2 w] at hy; exact hy)) hq

theorem Guards.getObj (i : ObjId) : Guards C B r T h (fun _ => True) (getObj i) (fun o _ => o.kind = (h i).kind) := by
  intro w hw _
  rw [getObj_run]
  exact ⟨hw, Grow.refl r w, fun o ho => by cases ho; exact (hw.same i).kind⟩

theorem Guards.str (s : Str) : Guards C B r T h (fun _ => True) (liftG (gitSaveStr C r s))
    (fun x w => x = C.hash (.blob s) ∧ Stored w.eff r (.blob s)) :=
  Guards.save (still_liftG _) (gitSaveStr_any C r s) (sameList_liftG _) (stores_str s) fun _ _ _ _ _ hx =>
    let ⟨_, h2, h3, _⟩ := gitSaveStr_quiet hx
    ⟨h2, h3⟩

theorem Guards.tree (es : List TreeEntry) : Guards C B r T h (fun _ => True) (liftG (gitSaveTree C r es))
    (fun x w => ∃ es', mktree (treeSpec es) = some es' ∧ x = C.hash (.tree es') ∧ Stored w.eff r (.tree es')) :=
  Guards.save (still_liftG _) (gitSaveTree_any C r es) (sameList_liftG _) (stores_tree es) fun _ _ _ _ _ hx =>
    (gitSaveTree_quiet hx).2.1

theorem refOf_update (nm x : Str) (w : World) (n : Str) :
    refOf (liftG (gitUpdateRef C r nm x) w).2.repo.log r n = refOf w.repo.log r n ∨
      (n = nm ∧ refOf (liftG (gitUpdateRef C r nm x) w).2.repo.log r n = some x) := by
  rcases updateRef_log (C := C) (r := r) nm x w with h | h
  · left; rw [h]
  · rw [h]
    by_cases hn : nm = n
    · right; subst hn; simp [refOf]
    · left; simp [refOf, hn]

theorem grow_update {n x : Str} (hn : n = tvlRefName ∨ n = uuidSetRefName) : M.Keeps (liftG (gitUpdateRef C r n x)) (Grow r) := by
  intro w
  refine ⟨gitUpdateRef_any C r n x w, fun y hy => by rw [sameList_liftG _ w]; exact hy, fun m h1 h2 => ?_⟩
  rcases refOf_update (C := C) (r := r) n x w m with h | h
  · exact h
  · rw [← h.1] at hn
    exact (hn.elim h1 h2).elim

/-- A name is set to something that is like that. -/
theorem Guards.name (k : Kind) {n x : Str} (hk : pubName k = some n) :
    Guards C B r T h (fun w => Supp C w.eff r (fun x => x ∈ w.refs ∨ B x) k ⟨[], some x⟩) (liftG (gitUpdateRef C r n x)) (fun _ _ => True) := by
  have hn : n = tvlRefName ∨ n = uuidSetRefName := by cases k <;> cases hk <;> simp
  refine Guards.op (still_liftG _) (grow_update hn) ?_ (fun w _ y hy => Or.inl (by rw [sameList_liftG _ w] at hy; exact hy))
    fun _ _ _ _ _ _ => trivial
  intro w hw k' nm y hk' hy
  rcases refOf_update (C := C) (r := r) n x w nm with h | ⟨rfl, h⟩
  · left; rw [← h]; exact hy
  · right
    rw [h] at hy
    cases hy
    have : k' = k := by
      cases k <;> cases hk <;> cases k' <;> first | rfl | cases hk'
    rw [this]; exact hw

theorem Guards.blob (s : Str) : Guards C B r T h (fun _ => True) (saveBlob C r s)
    (fun x w => x = C.hash (.blob s) ∧ Stored w.eff r (.blob s)) :=
  Guards.save (still_saveBlob C r s) (saveBlob_any C r s) (sameList_saveBlob C r s) (stores_blob s) fun _ _ _ hn _ hx =>
    let ⟨_, h2, h3, _⟩ := saveBlob_quiet hn hx
    ⟨h2, h3⟩

theorem addRef_mem {b : Bool} {x : Option Str} {w : World} {y : Bool × Str} (h : y ∈ (MM.addRef b x w).2.refs) :
    y ∈ w.refs ∨ (y.1 = b ∧ x = some y.2 ∧ y.2 ≠ noneLocation) := by
  unfold MM.addRef at h
  cases x with
  | none => exact Or.inl h
  | some z =>
    simp only at h
    split at h
    · exact Or.inl h
    · rename_i hz
      rcases List.mem_append.mp h with h | h
      · exact Or.inl h
      · rw [List.mem_singleton] at h
        subst h
        exact Or.inr ⟨rfl, rfl, fun h => hz (Or.inl h)⟩

/-- A location that can be recorded -/
def HashLoc (x : Option Str) : Prop := ∀ y, x = some y → isHash y = true ∨ y = noneLocation

theorem Guards.addRef (b : Bool) (x : Option Str) : Guards C B r T h (fun _ => HashLoc x) (addRef b x)
    (fun _ w => ∃ y, x = some y ∧ (y ≠ noneLocation → (b, y) ∈ w.refs ∨ B (b, y))) := by
  refine Guards.op (still_addRef b x) (grow_addRef r b x) (fun w _ _ nm y _ hy => Or.inl (by
    rw [stores_refOf (stores_ref (r := r) b x w) r nm] at hy; exact hy)) (fun w hw y hy => ?_) fun w _ w' _ _ hx => ?_
  · rcases addRef_mem hy with h | ⟨_, h1, h2⟩
    · exact Or.inl h
    · exact Or.inr ((hw _ h1).resolve_right h2)
  · cases x with
    | none => cases hx
    | some y => exact ⟨y, rfl, fun hn => Or.inl (addRef_adds hx hn)⟩

theorem RefOk.hashLoc {k : Kind} {ref : Ref} (hr : RefOk k ref) (hk : pubName k = none) : HashLoc ref.loc := by
  intro y hy
  obtain ⟨l, h1, h2⟩ := hr.loc
  rw [hy] at h1
  cases h1
  rcases h2 with h2 | h2 | h2
  · exact Or.inl h2
  · exact Or.inr h2.1
  · rw [hk] at h2; cases h2

/-- The tree reference that proxies add -/
def TreeListed (B : Bool × Str → Prop) (ref : Ref) (w : World) : Prop :=
  ref.isNone = false → ∃ y, ref.loc = some y ∧ ((true, y) ∈ w.refs ∨ B (true, y))

theorem up_treeListed (ref : Ref) : Up r (TreeListed B ref) :=
  up_imp (up_ex fun _ => up_and (up_const _) (up_listed _))

theorem isNone_ne {ref : Ref} {y : Str} (hn : ref.isNone = false) (hl : ref.loc = some y) : y ≠ noneLocation := by
  rintro rfl
  unfold Ref.isNone at hn
  rw [hl] at hn
  simp at hn

theorem Guards.tail {ref : Ref} {P : World → Prop} (hP : Up r P) (hl : ∀ w, P w → HashLoc ref.loc) :
    Guards C B r T h P (if ref.isNone then Pure.pure ref else do MM.addRef true ref.loc; Pure.pure ref : W Ref)
      (fun ref' w => ref' = ref ∧ P w ∧ TreeListed B ref w) := by
  split
  · rename_i hn
    exact Guards.pure fun w hw => ⟨rfl, hw, fun h => by rw [hn] at h; cases h⟩
  · refine Guards.bind ((Guards.frame' (Guards.addRef true ref.loc) hP).mono (fun w hw => ⟨hl w hw, hw⟩) fun _ _ h => h) fun _ =>
      Guards.pure fun w hw => ?_
    obtain ⟨⟨y, h1, h2⟩, h3⟩ := hw
    exact ⟨rfl, h3, fun hn => ⟨y, h1, h2 (isNone_ne hn h1)⟩⟩

theorem Guards.proxy {wr : W Ref} {Q : Ref → World → Prop} (hQ : ∀ ref, Up r (Q ref)) (hl : ∀ ref w, Q ref w → HashLoc ref.loc) {P : World → Prop} (hw : Guards C B r T h P wr Q) :
    Guards C B r T h P (proxyWrite wr) (fun ref w => Q ref w ∧ TreeListed B ref w) :=
  Guards.bind hw fun ref => (Guards.tail (hQ ref) (hl ref)).mono (fun _ h => h) fun ref' w ⟨h1, h2, h3⟩ => by
    subst h1; exact ⟨h2, h3⟩

theorem Guards.files {wr : W Ref} {Q : Ref → World → Prop} (hQ : ∀ ref, Up r (Q ref)) (hl : ∀ ref w, Q ref w → HashLoc ref.loc) (hw : Guards C B r T h (fun _ => True) wr Q) :
    Guards C B r T h (fun _ => True) (fileTreeWrite C (some r) wr) (fun ref w => Q ref w ∧ TreeListed B ref w) := by
  refine Guards.bind (Q := fun _ _ => True) (Guards.save (still_cacheRealm r) (cacheRealm_any r) (sameList_cacheRealm r) stores_cacheRealm
    fun _ _ _ _ _ _ => trivial) fun _ => Guards.bind hw fun ref => ?_
  refine Guards.bind (Q := fun _ => Q ref) ?_ fun _ => (Guards.tail (hQ ref) (hl ref)).mono (fun _ h => h) fun ref' w ⟨h1, h2, h3⟩ => by
    subst h1; exact ⟨h2, h3⟩
  have h1 : Guards C B r T h (fun _ => True) (flushRealm C r) (fun _ _ => True) :=
    Guards.save (still_flushRealm C r) (flushRealm_any C r) (sameList_flushRealm C r) stores_flushRealm fun _ _ _ _ _ _ => trivial
  exact (h1.frame (hQ ref)).mono (fun _ h => h) fun _ _ h => h.2

/-- Only the location matters, except for root records. -/
theorem Supp.relabel {L : Log} {R : Bool × Str → Prop} {k : Kind} {ref ref' : Ref} (h : Supp C L r R k ref) (hk : k ≠ .mrr)
    (hl : ref'.loc = ref.loc) : Supp C L r R k ref' := by
  cases h with
  | none _ _ h => exact .none k ref' ((isNone_loc hl).trans h)
  | text _ s h1 h2 => exact .text ref' s h1 (hl.trans h2)
  | metadata _ cls h h1 h2 h3 => exact .metadata ref' cls h h1 (hl.trans h2) h3
  | mtree leaf _ es h1 h2 h3 h4 => exact .mtree leaf ref' es h1 (hl.trans h2) h3 h4
  | mrr => exact absurd rfl hk
  | versions _ _ rs hk h1 h2 h3 h4 h5 => exact .versions k ref' rs hk h1 (hl.trans h2) h3 h4 h5
  | uuidset _ es h1 h2 h3 h4 h5 => exact .uuidset ref' es h1 (hl.trans h2) h3 h4 h5

theorem Prot.supp {k : Kind} {ref : Ref} {w : World} (hp : Prot C B r k ref w) (hk : pubName k = none) :
    Supp C w.eff r (fun x => x ∈ w.refs ∨ B x) k ref :=
  hp.2.resolve_right fun ⟨nm, h1, _⟩ => by rw [hk] at h1; cases h1

/-- The entries of a tree -/
theorem guards_entries {kids : List (Key × (Str × ObjId))} {f : Key × (Str × ObjId) → W TreeEntry}
    {Q : Key × (Str × ObjId) → TreeEntry → World → Prop} (hQ : ∀ a b, Up r (Q a b))
    (hs : ∀ e ∈ kids, NameOk e.1.entryName)
    (hf : ∀ e ∈ kids, Guards C B r T h (fun _ => True) (f e) (fun t w => (t.name = e.1.entryName ∧
      (isHash t.hash = true ∨ t.hash = noneLocation)) ∧ Q e t w)) {next : Str → W Ref} {Q' : Ref → World → Prop}
    (hq : ∀ x, Guards C B r T h (fun w => ∃ es, x = C.hash (.tree es) ∧ Stored w.eff r (.tree es) ∧
      (∀ t ∈ es, isHash t.hash = true) ∧ ∀ t ∈ es, ∃ e ∈ kids, t.name = e.1.entryName ∧ Q e t w) (next x) Q') :
    Guards C B r T h (fun _ => True) (M.forEach f kids >>= fun es => liftG (gitSaveTree C r es) >>= next) Q' := by
  have hup : ∀ (a : Key × (Str × ObjId)) (t : TreeEntry), Up r (fun w => (t.name = a.1.entryName ∧
      (isHash t.hash = true ∨ t.hash = noneLocation)) ∧ Q a t w) := fun a t => up_and (up_const _) (hQ a t)
  refine Guards.bind (Guards.forEach hup hf) fun es => ?_
  refine Guards.bind (Guards.frame (Guards.tree es) (up_all2 hup kids es)) fun x => (hq x).mono ?_ fun _ _ h => h
  rintro w ⟨⟨es', hm, rfl, hst⟩, hes⟩
  have hne : es ≠ [] := by
    rintro rfl
    rw [show mktree (treeSpec []) = none by decide] at hm
    cases hm
  obtain ⟨k1, rfl⟩ := mktree_hashes hne (fun e he => let ⟨_, _, h1⟩ := all2_right hes he; h1.1.2) (fun e he => by
    obtain ⟨a, ha, h1⟩ := all2_right hes he
    rw [h1.1.1]; exact hs a ha) hm
  refine ⟨_, rfl, hst, fun t ht => k1 t (mem_sortEntries.mp ht), fun t ht => ?_⟩
  obtain ⟨a, ha, h1⟩ := all2_right hes (mem_sortEntries.mp ht)
  exact ⟨a, ha, h1.1.1, h1.2⟩

theorem Guards.versions {wr : ObjId → W Ref} {kids : List (Key × (Str × ObjId))} {k : Kind} (hk : k = .vlist ∨ k = .tvl)
    (hs : ∀ e ∈ kids, SlotOk k e.1 e.2.1 (h e.2.2).kind)
    (hw : ∀ e ∈ kids, Guards C B r T h (fun _ => True) (wr e.2.2) (Prot C B r (h e.2.2).kind)) :
    Guards C B r T h (fun _ => True) (writeVersionList C wr r kids) (fun x w => isHash x = true ∧
      ∀ cls, Supp C w.eff r (fun x => x ∈ w.refs ∨ B x) k ⟨cls, some x⟩) := by
  have hslot : ∀ e ∈ kids, ∃ v p, e.1 = .ver v p ∧ Canonical p ∧ ((h e.2.2).kind = .mtree .mrr ∨ (h e.2.2).kind = .mrr) := by
    intro e he
    have h1 := hs e he
    rcases hk with rfl | rfl <;>
    · cases hk1 : e.1 <;> rw [hk1] at h1 <;> simp only [SlotOk] at h1
      exact ⟨_, _, rfl, h1⟩
  -- what an element is stored as
  let Q : Key × (Str × ObjId) → Ref → World → Prop := fun e ref w => Prot C B r (h e.2.2).kind ref w ∧
    ((h e.2.2).kind = .mtree .mrr → TreeListed B ref w)
  have hQ : ∀ e ref, Up r (Q e ref) := fun e ref => up_and (up_prot _ _) (up_imp (up_treeListed ref))
  let Q2 : Key × (Str × ObjId) → Json → World → Prop := fun e j w => ∃ ref, j = vrecJson e.1 e.2.1 ref ∧ Q e ref w
  have hQ2 : ∀ e j, Up r (Q2 e j) := fun e j => up_ex fun ref => up_and (up_const _) (hQ e ref)
  refine Guards.bind (Guards.forEach hQ2 fun e he => Guards.bind (Q := Q e) ?_ fun ref =>
    Guards.pure fun w hw => ⟨ref, rfl, hw⟩) fun js => ?_
  · refine Guards.bind (Guards.getObj _) fun o => ?_
    have hpub : pubName (h e.2.2).kind = none := by
      obtain ⟨_, _, _, _, hkk⟩ := hslot e he
      rcases hkk with hkk | hkk <;> rw [hkk] <;> rfl
    have hpx := Guards.proxy (fun ref => up_prot (h e.2.2).kind ref) (fun _ _ hx => hx.1.hashLoc hpub) (hw e he)
    intro w hw' hk'
    split
    · exact (hpx.mono (P' := fun _ => True) (fun _ _ => trivial) fun ref w hx => (⟨hx.1, fun _ => hx.2⟩ : Q e ref w)) w hw' trivial
    · rename_i hm
      refine ((hw e he).mono (P' := fun _ => True) (fun _ _ => trivial) fun ref w hx => (⟨hx, fun h1 => ?_⟩ : Q e ref w)) w hw' trivial
      rw [hk', h1] at hm
      exact absurd rfl hm
  · refine (Guards.frame (Guards.str _) (up_all2 hQ2 kids js)).mono (fun _ h => h) ?_
    rintro x w ⟨⟨rfl, hst⟩, hall⟩
    refine ⟨C.valid _, fun cls => ?_⟩
    have hrs : ∀ {kids : List (Key × (Str × ObjId))} {js : List Json}, All2 (fun e j => Q2 e j w) kids js →
        (∀ e ∈ kids, ∃ v p, e.1 = .ver v p ∧ Canonical p ∧ ((h e.2.2).kind = .mtree .mrr ∨ (h e.2.2).kind = .mrr)) →
        ∃ rs : List VRec, js = rs.map VRec.json ∧ ∀ x ∈ rs, x.Ok ∧ Supp C w.eff r (fun x => x ∈ w.refs ∨ B x) x.link.kind x.link.ref ∧
          (x.link.kind = .mtree .mrr → x.link.ref.isNone = false → ∃ h, x.link.ref.loc = some h ∧ ((true, h) ∈ w.refs ∨ B (true, h))) := by
      intro kids js h1
      induction h1 with
      | nil => intro _; exact ⟨[], rfl, fun x hx => by cases hx⟩
      | @cons e j _ _ ha _ ih =>
        intro hsl
        obtain ⟨rs, e1, e2⟩ := ih fun e he => hsl e (List.mem_cons_of_mem _ he)
        obtain ⟨v, p, hv, hp, hkk⟩ := hsl e (List.mem_cons_self ..)
        obtain ⟨ref, rfl, h3, h4⟩ := ha
        have hsupp : Supp C w.eff r (fun x => x ∈ w.refs ∨ B x) (h e.2.2).kind ref := h3.supp (by
          rcases hkk with hkk | hkk <;> rw [hkk] <;> rfl)
        refine ⟨⟨v, p, e.2.1, ⟨(h e.2.2).kind, ref⟩⟩ :: rs, by rw [List.map_cons, ← e1, VRec.json, hv], ?_⟩
        intro x hx
        rcases List.mem_cons.mp hx with rfl | hx
        · refine ⟨⟨hp, hkk, fun hm => h3.1.cls hm, fun hm => ?_⟩, hsupp, fun hm hn => h4 hm hn⟩
          simp only at hm
          rw [hm] at hsupp
          cases hsupp with
          | none _ _ h5 =>
            exfalso
            obtain ⟨l, h6, h7⟩ := h3.1.loc
            rw [hm] at h7
            unfold Ref.isNone at h5
            rw [h6] at h5
            have h8 : l = noneLocation := by simpa using h5
            subst h8
            rcases h7 with h7 | h7 | h7
            · exact isHash_ne_none h7 rfl
            · cases h7.2
            · cases h7
          | mrr _ u v d f hc => exact hc
          | versions _ _ rs hk => rcases hk with hk | hk <;> cases hk
        · exact e2 x hx
    obtain ⟨rs, rfl, h2⟩ := hrs hall hslot
    exact .versions k _ rs hk hst rfl (fun x hx => (h2 x hx).1) (fun x hx => (h2 x hx).2.1) (fun x hx => (h2 x hx).2.2)

theorem prot_of_hash {k : Kind} {c x : Str} {w : World} (hh : isHash x = true) (hc : ∀ l, k = .mtree l → c = c!"MTreeNode")
    (hs : Supp C w.eff r (fun x => x ∈ w.refs ∨ B x) k ⟨c, some x⟩) : Prot C B r k ⟨c, some x⟩ w :=
  ⟨⟨⟨x, rfl, Or.inl hh⟩, fun e => Or.inl (hc _ e)⟩, Or.inl hs⟩

theorem Guards.mapOut {wr : Bool → ObjId → W Ref} {b : Body ObjId} (force : Bool)
    (hd : DataOk b.data) (hs : ∀ e ∈ b.kids, SlotOk b.data.kind e.1 e.2.1 (h e.2.2).kind)
    (hw : ∀ f, ∀ k ∈ b.subs, Guards C B r T h (fun _ => True) (wr f k) (Prot C B r (h k).kind)) :
    Guards C B r T h (fun _ => True) (mapOut C wr r force b) (Prot C B r b.data.kind) := by
  have sub : ∀ e ∈ b.kids, e.2.2 ∈ b.subs := fun e he => List.mem_map.mpr ⟨e, he, rfl⟩
  unfold MM.mapOut
  cases hdat : b.data with
  | text s =>
    simp only
    refine Guards.bind (Guards.str _) fun x => Guards.pure ?_
    rintro w ⟨rfl, hst⟩
    exact prot_of_hash (C.valid _) (fun _ h => by cases h) (.text _ _ hst rfl)
  | metadata m =>
    simp only
    refine Guards.bind (Guards.blob _) fun x => Guards.bind ((Guards.frame' (Guards.addRef false (some x)) (up_and (up_const _) (up_stored _))).mono
        (fun w hw => ⟨fun y hy => (by cases hy; rw [hw.1]; exact Or.inl (C.valid _)), hw⟩) fun _ _ h => h) fun _ =>
      Guards.bind (Guards.frame (Guards.blob _) (P := fun w => isHash x = true ∧ ((false, x) ∈ w.refs ∨ B (false, x)))
        (up_and (up_const _) (up_listed _)) |>.mono ?_ fun _ _ h => h) fun y => Guards.pure ?_
    · rintro w ⟨⟨y, h1, h2⟩, h3, h4⟩
      cases h1
      exact ⟨by rw [h3]; exact C.valid _, h2 (by rw [h3]; exact isHash_ne_none (C.valid _))⟩
    · rintro w ⟨⟨rfl, h2⟩, h3, h4⟩
      exact prot_of_hash (C.valid _) (fun _ h => by cases h) (.metadata _ _ _ h2 rfl h4)
  | mtree leaf =>
    simp only
    by_cases hb : b.kids = []
    · rw [if_pos hb]
      exact Guards.pure fun w _ => ⟨⟨⟨noneLocation, rfl, Or.inr (Or.inl ⟨rfl, rfl⟩)⟩, fun _ => Or.inl rfl⟩, Or.inl (.none _ _ rfl)⟩
    · rw [if_neg hb]
      rw [hdat] at hs
      have hn : ∀ e ∈ b.kids, ∃ n, e.1 = .name n ∧ NameOk n ∧ ((h e.2.2).kind = .mtree leaf ∨ (h e.2.2).kind = leaf.kind) := by
        intro e he
        have h1 := hs e he
        cases hk1 : e.1 <;> rw [hk1] at h1 <;> simp only [Data.kind, SlotOk] at h1
        exact ⟨_, rfl, h1.2⟩
      refine guards_entries (Q := fun e t w => t.isTree = (h e.2.2).kind.isMtree ∧ ∃ ref, locText ref = t.hash ∧ Prot C B r (h e.2.2).kind ref w)
        (fun e t => up_and (up_const _) (up_ex fun ref => up_and (up_const _) (up_prot _ _))) ?_ ?_ fun x => Guards.pure ?_
      · intro e he
        obtain ⟨n, h1, h2, _⟩ := hn e he
        rw [h1]; exact h2
      · intro e he
        refine Guards.bind (hw _ _ (sub e he)) fun ref =>
          Guards.bind (Guards.frame (Guards.getObj _) (up_prot (h e.2.2).kind ref)) fun o => Guards.pure ?_
        rintro w ⟨h1, h2⟩
        obtain ⟨l, _, h3, h4⟩ := slot_loc (hs e he) h2.1
        exact ⟨⟨rfl, by simp only [h3]; exact h4.imp id And.left⟩, by simp only [h1], ref, rfl, h2⟩
      · rintro w ⟨es, rfl, hst, hh, hall⟩
        refine prot_of_hash (C.valid _) (fun _ _ => rfl) (.mtree leaf _ es hst rfl hh fun t ht => ?_)
        obtain ⟨e, he, hname, h1, ref, h2, h3⟩ := hall t ht
        obtain ⟨n, _, _, hk⟩ := hn e he
        have hl : ref.loc = some t.hash := by
          obtain ⟨l, e1, e2, _⟩ := slot_loc (hs e he) h3.1
          rw [← h2, e2, e1]
        unfold childOf
        rcases hk with hk | hk
        · rw [hk] at h1 h3
          rw [h1]
          exact (h3.supp rfl).relabel (by simp) hl.symm
        · rw [hk] at h1 h3
          have hm : leaf.kind.isMtree = false := by cases leaf <;> rfl
          rw [h1, hm]
          simp only [Bool.false_eq_true, if_false]
          have hsp := h3.supp (by cases leaf <;> rfl)
          cases leaf with
          | metadata => exact hsp.relabel (by simp [Leaf.kind]) hl.symm
          | text => exact hsp.relabel (by simp [Leaf.kind]) hl.symm
          | mrr =>
            simp only [Leaf.kind] at hsp ⊢
            cases hsp with
            | none _ _ h5 => exact .none _ _ ((isNone_loc hl.symm).trans h5)
            | mrr _ u v d f hc h5 h6 h7 h8 h9 h10 => exact .mrr _ u v d f rfl h5 (hl.symm.trans h6) h7 h8 h9 h10
            | versions _ _ rs hk => rcases hk with hk | hk <;> cases hk
  | mrr id v =>
    rw [hdat] at hd hs
    simp only
    obtain ⟨⟨u, rfl⟩, s, rfl⟩ := hd
    refine Guards.bind (Q := fun ft w => Supp C w.eff r (fun x => x ∈ w.refs ∨ B x) (.mtree .metadata) ft ∧ TreeListed B ft w) ?_ fun ft =>
      Guards.bind (Q := fun dlm w => (Supp C w.eff r (fun x => x ∈ w.refs ∨ B x) (.mtree .metadata) ft ∧ TreeListed B ft w) ∧
        Supp C w.eff r (fun x => x ∈ w.refs ∨ B x) .metadata dlm ∧
        (dlm.isNone = false → ∃ y, dlm.loc = some y ∧ ((false, y) ∈ w.refs ∨ B (false, y)))) ?_ fun dlm =>
      Guards.bind (Guards.frame (Guards.str _) (up_and (up_and (up_supp _ _) (up_treeListed _))
        (up_and (up_supp _ _) (up_imp (up_ex fun _ => up_and (up_const _) (up_listed _)))))) fun x => Guards.pure ?_
    · cases hft : dget b.kids .ft with
      | none => exact Guards.pure fun _ _ => ⟨.none _ _ rfl, fun h => by cases h⟩
      | some e =>
        have hk' : (h e.2).kind = .mtree .metadata := (hs _ (mem_of_dget hft)).2
        have hpr := hw force e.2 (sub _ (mem_of_dget hft))
        rw [hk'] at hpr
        refine Guards.bind (Guards.files (fun ref => up_prot _ ref) (fun _ _ hx => hx.1.hashLoc rfl) hpr) fun ref => ?_
        refine (Guards.tail (up_and (up_prot (.mtree .metadata) ref) (up_treeListed _)) (fun _ hx => hx.1.1.hashLoc rfl)).mono (fun _ h => h) ?_
        rintro ref' w ⟨rfl, ⟨h1, h2⟩, h3⟩
        exact ⟨h1.supp rfl, h2⟩
    · cases hdl : dget b.kids .dlm with
      | none => exact Guards.pure fun _ hw => ⟨hw, .none _ _ rfl, fun h => by cases h⟩
      | some e =>
        have hk' : (h e.2).kind = .metadata := (hs _ (mem_of_dget hdl)).2
        have hpr := hw force e.2 (sub _ (mem_of_dget hdl))
        rw [hk'] at hpr
        refine Guards.bind (Guards.frame hpr (up_and (up_supp _ _) (up_treeListed _))) fun ref =>
          Guards.bind ((Guards.frame' (Guards.addRef false ref.loc) (up_and (up_prot .metadata ref) (up_and (up_supp _ _) (up_treeListed _)))).mono
            (fun _ hx => ⟨hx.1.1.hashLoc rfl, hx⟩) fun _ _ h => h) fun _ =>
          Guards.pure ?_
        rintro w ⟨⟨y, h1, h2⟩, h3, h4⟩
        exact ⟨h4, h3.supp rfl, fun hn => ⟨y, h1, h2 (isNone_ne hn h1)⟩⟩
    · rintro w ⟨⟨rfl, hst⟩, ⟨h1, h2⟩, h3, h4⟩
      exact prot_of_hash (C.valid _) (fun _ h => by cases h) (.mrr _ u s dlm ft rfl hst rfl h3 h1 h4 h2)
  | vlist =>
    rw [hdat] at hs
    simp only
    refine Guards.bind (Guards.versions (Or.inl rfl) hs fun e he => hw _ _ (sub e he)) fun x => Guards.pure ?_
    rintro w ⟨h1, h2⟩
    exact prot_of_hash h1 (fun _ h => by cases h) (h2 _)
  | tvl =>
    rw [hdat] at hs
    simp only
    refine Guards.bind (Guards.versions (Or.inr rfl) hs fun e he => hw _ _ (sub e he)) fun x =>
      Guards.bind (Guards.frame' (Guards.name .tvl rfl) (P := fun w => isHash x = true ∧
        Supp C w.eff r (fun x => x ∈ w.refs ∨ B x) .tvl ⟨c!"VersionList", some x⟩) (up_and (up_const _) (up_supp _ _)) |>.mono
        (fun _ ⟨h1, h2⟩ => ⟨h2 _, h1, h2 _⟩) fun _ _ h => h) fun _ => Guards.pure ?_
    rintro w ⟨_, h1, h2⟩
    exact prot_of_hash h1 (fun _ h => by cases h) h2
  | uuidset =>
    simp only
    rw [hdat] at hs
    have hn : ∀ e ∈ b.kids, ∃ u, e.1 = .uuid u ∧ (h e.2.2).kind = .vlist := by
      intro e he
      have h1 := hs e he
      cases hk1 : e.1 <;> rw [hk1] at h1 <;> simp only [Data.kind, SlotOk] at h1
      exact ⟨_, rfl, h1.2⟩
    refine guards_entries (Q := fun e t w => ∃ ref, locText ref = t.hash ∧ Prot C B r (h e.2.2).kind ref w)
        (fun e t => up_ex fun ref => up_and (up_const _) (up_prot _ _)) ?_ ?_ fun x =>
        Guards.bind (Guards.frame' (Guards.name .uuidset rfl) (P := fun w => Prot C B r .uuidset ⟨c!"UUIDSet", some x⟩ w) (up_prot _ _) |>.mono
          ?_ fun _ _ h => h) fun _ => Guards.pure fun w h => h.2
    · intro e he
      obtain ⟨u, h1, _⟩ := hn e he
      rw [h1]; exact (uuid_name_ok u).1
    · intro e he
      refine Guards.bind (hw _ _ (sub e he)) fun ref => Guards.pure ?_
      intro w h2
      obtain ⟨l, _, h3, h4⟩ := slot_loc (hs e he) h2.1
      exact ⟨⟨rfl, by simp only [h3]; exact h4.imp id And.left⟩, ref, rfl, h2⟩
    · rintro w ⟨es, rfl, hst, hh, hall⟩
      have hsup : ∀ cls, Supp C w.eff r (fun x => x ∈ w.refs ∨ B x) .uuidset ⟨cls, some (C.hash (.tree es))⟩ := ?_
      · exact ⟨hsup _, prot_of_hash (C.valid _) (fun _ h => by cases h) (hsup _)⟩
      refine fun cls => .uuidset _ es hst rfl hh (fun t ht => ?_) fun t ht => ?_
      · obtain ⟨e, he, hname, _⟩ := hall t ht
        obtain ⟨u, h1, _⟩ := hn e he
        exact ⟨u, by rw [hname, h1]; rfl⟩
      · obtain ⟨e, he, hname, ref, h2, h3⟩ := hall t ht
        obtain ⟨u, _, hk⟩ := hn e he
        have hl : ref.loc = some t.hash := by
          obtain ⟨l, e1, e2, _⟩ := slot_loc (hs e he) h3.1
          rw [← h2, e2, e1]
        rw [hk] at h3
        exact (h3.supp rfl).relabel (by simp) hl.symm

/-- The flag of an object changes with its reference. -/
theorem Kept.touch {w : World} (hw : Kept C B r T h w) (i : ObjId) (o : Obj) (hs : SameObj (h i) o)
    (hf : T i → r ∈ o.savedOn → ∃ ref, o.ref = some ref ∧ Prot C B r (h i).kind ref w) :
    Kept C B r T h { w with heap := w.heap.set i o } := by
  refine ⟨hw.named, hw.hashes, fun j => ?_, hw.nodup, fun j hj hx => ?_⟩
  · by_cases hji : j = i
    · subst hji; simpa using hs
    · simpa only [Heap.set_ne hji] using hw.same j
  · by_cases hji : j = i
    · subst hji
      simp only [Heap.set_self] at hx ⊢
      exact hf hj hx
    · simp only [Heap.set_ne hji] at hx ⊢
      exact hw.flagged j hj hx

theorem closed_grow (C : Cfg) (r : Realm) : Closed C r (Grow r) where
  refl := Grow.refl r
  trans := fun _ _ _ => Grow.trans
  str := fun s => grow_of (gitSaveStr_any C r s) (sameList_liftG _) (stores_str s)
  tree := fun es => grow_of (gitSaveTree_any C r es) (sameList_liftG _) (stores_tree es)
  name := fun _ _ hn => grow_update hn
  blob := fun s => grow_of (saveBlob_any C r s) (sameList_saveBlob C r s) (stores_blob s)
  ref := grow_addRef r
  files := fileTreeWrite_keeps (Grow.refl r) (fun _ _ _ => Grow.trans) (grow_of (cacheRealm_any r) (sameList_cacheRealm r) stores_cacheRealm)
    (grow_of (flushRealm_any C r) (sameList_flushRealm C r) stores_flushRealm) (grow_addRef r)
  mapped := fun _ _ i h => (h.any.same i).mapped
  here := fun _ _ i h hr => (h.any.realm i).elim (fun e => e.trans hr) id
  realm := fun w i hm => ⟨(closed_any C r).realm w i hm, fun _ h => h, fun _ _ _ => rfl⟩
  flag := fun w i ref hm hr => ⟨(closed_any C r).flag w i ref hm hr, fun _ h => h, fun _ _ _ => rfl⟩

/-- Objects that contain their parts and can be stored -/
def Tight (T : ObjId → Prop) (h : Heap) : Prop := ∀ j, T j → (h j).mapped = true → BodyOk h (h j).body ∧ ∀ k ∈ (h j).body.subs, T k

theorem Guards.writeOut (ht : Tight T h) (hr : r ≠ []) (n : Nat) : ∀ (force : Bool) (i : ObjId), T i →
    Guards C B r T h (fun _ => True) (writeOut C n (some r) force i) (Prot C B r (h i).kind) := by
  induction n with
  | zero => intro force i _; exact Guards.raise _ _
  | succ n ih =>
    intro force i hi w hw _
    have hgrow := (closed_grow C r).writeOut hr (n + 1) force i w
    suffices hx : Kept C B r T h (MM.writeOut C (n + 1) (some r) force i w).2 ∧ ∀ a, (MM.writeOut C (n + 1) (some r) force i w).1 = .ok a →
        Prot C B r (h i).kind a (MM.writeOut C (n + 1) (some r) force i w).2 from ⟨hx.1, hgrow, hx.2⟩
    clear hgrow
    by_cases hm : (w.heap i).mapped = true
    · have hmh : (h i).mapped = true := by rw [← (hw.same i).mapped]; exact hm
      have hbody := (hw.same i).body
      obtain ⟨hb, hsub⟩ := ht i hi hmh
      have hmo := Guards.mapOut (C := C) (B := B) (r := r) (T := T) (h := h) (b := (w.heap i).body) force (by rw [hbody]; exact hb.data)
        (by rw [hbody]; exact hb.slots) (wr := MM.writeOut C n (some r)) (fun f k hk => ih f k (hsub k (by rw [← hbody]; exact hk)))
      have hkind : (w.heap i).body.data.kind = (h i).kind := by rw [hbody]; rfl
      rw [hkind] at hmo
      have n1 : Kept C B r T h { w with heap := w.heap.set i { w.heap i with realm := some r } } :=
        hw.touch i _ ⟨(hw.same i).mapped, hbody, fun hf => by rw [hmh] at hf; cases hf⟩ fun hj hx => hw.flagged i hj hx
      have hfl1 : (({ w with heap := w.heap.set i { w.heap i with realm := some r } } : World).heap i).savedOn =
        (w.heap i).savedOn := by simp
      have hprot : ∀ ref, Prot C B r (h i).kind ref w → Prot C B r (h i).kind ref
        ({ w with heap := w.heap.set i { w.heap i with realm := some r } } : World) := fun _ h => h
      rw [writeOut_mapped hr hm rfl]
      generalize ({ w with heap := w.heap.set i { w.heap i with realm := some r } } : World) = w1 at n1 hfl1 hprot
      split
      · exact ⟨hw, fun a h => by cases h⟩
      · cases hsv : isSavedOn (n + 1) w1.heap r i with
        | error e => exact ⟨n1, fun a h => by cases h⟩
        | ok saved =>
          simp only
          split
          · rename_i hsf
            obtain ⟨rfl, _⟩ := hsf
            have hfl : r ∈ (w.heap i).savedOn := by
              refine Classical.byContradiction fun hno => ?_
              unfold isSavedOn at hsv
              rw [if_pos (by rw [hfl1]; exact hno)] at hsv
              cases hsv
            obtain ⟨ref, h1, h2⟩ := hw.flagged i hi hfl
            rw [h1]
            exact ⟨n1, fun a h => by cases h; exact hprot _ h2⟩
          · obtain ⟨m1, _, m2⟩ := hmo _ n1 trivial
            cases hx : MM.mapOut C (MM.writeOut C n (some r)) r force (w.heap i).body w1 with
            | mk res w2 =>
              rw [hx] at m1 m2
              cases res with
              | error e => exact ⟨m1, fun a h => by cases h⟩
              | ok ref =>
                refine ⟨m1.touch i _ ⟨(m1.same i).mapped, (m1.same i).body, fun hf => by rw [hmh] at hf; cases hf⟩
                  fun _ _ => ⟨ref, rfl, m2 ref rfl⟩, fun a h => ?_⟩
                cases h
                exact m2 ref rfl
    · rw [writeOut_away (by simpa using hm)]
      cases h1 : (w.heap i).realm with
      | none => exact ⟨hw, fun a h => by cases h⟩
      | some x =>
        cases h2 : (w.heap i).ref with
        | none => exact ⟨hw, fun a h => by cases h⟩
        | some ref =>
          simp only
          split
          · rename_i hfl
            obtain ⟨ref', e1, e2⟩ := hw.flagged i hi hfl
            rw [h2] at e1
            cases e1
            exact ⟨hw, fun a h => by cases h; exact e2⟩
          · exact ⟨hw, fun a h => by cases h⟩

theorem Guards.writeAs (ht : Tight T h) (hr : r ≠ []) (via : Via) (n : Nat) (force : Bool) {i : ObjId}
    (hi : T i) (hv : via ≠ .own → pubName (h i).kind = none) :
    Guards C B r T h (fun _ => True) (writeAs C via n (some r) force i) (fun ref w => Prot C B r (h i).kind ref w ∧
      (via ≠ .own → TreeListed B ref w)) := by
  cases via with
  | own => exact (Guards.writeOut ht hr n force i hi).mono (fun _ h => h) fun _ _ h => ⟨h, fun h => absurd rfl h⟩
  | dataset => exact (Guards.proxy (fun ref => up_prot _ ref) (fun _ _ hx => hx.1.hashLoc (hv (by simp)))
      (Guards.writeOut ht hr n force i hi)).mono (fun _ h => h) fun _ _ h => ⟨h.1, fun _ => h.2⟩
  | file =>
    intro w hw _
    have e : MM.writeAs C .file n (some r) force i w = fileTreeWrite C (some r) (MM.writeOut C n (some r) force i) w :=
      writeFileTree_eq hr n force i w
    rw [e]
    obtain ⟨h1, h2, h3⟩ := Guards.files (fun ref => up_prot _ ref) (fun _ _ hx => hx.1.hashLoc (hv (by simp)))
      (Guards.writeOut ht hr n force i hi) w hw trivial
    exact ⟨h1, h2, fun v hv => ⟨(h3 v hv).1, fun _ => (h3 v hv).2⟩⟩

end

end MM
