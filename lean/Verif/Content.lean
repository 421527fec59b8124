/-
The content of objects, as a user sees it by navigating from an object to its
parts.  This is the specification for reading, writing and purging.
-/
import Verif.Mapper

namespace MM

/-- Where content is: in an object in memory, or in a repository under a reference
of a class. -/
inductive Node
  | mem (i : ObjId)
  | sto (r : Realm) (l : Link)

/-- A reference to a stored object by its hash, or a none reference. -/
def Ref.direct (ref : Ref) : Bool :=
  match ref.loc with
  | some l => isHash l || l == noneLocation
  | none => false

/-- Stored metadata is found through a second reference; it holds a hash. -/
def innerDirect (C : Cfg) (L : Log) (r : Realm) (k : Kind) (ref : Ref) : Bool :=
  if k = .metadata ∧ ref.isNone = false then
    match ref.loc with
    | none => false
    | some loc => match textAt C L r loc with
      | .error _ => false
      | .ok s => match Ref.fromText C.floats s with
        | .error _ => false
        | .ok ref' => match ref'.loc with
          | some l => isHash l
          | none => false
  else true

/-- What reading gives, if all references in it are direct.  The code only stores
direct references; a stored reference by name would change its meaning when the
name is set again. -/
def strictFetch (C : Cfg) (L : Log) (r : Realm) (k : Kind) (ref : Ref) : Except PyErr (Body Link) :=
  match fetch C L r k ref with
  | .error e => .error e
  | .ok b =>
    if b.kids.all (fun e => e.2.2.ref.direct) && innerDirect C L r k ref then .ok b
    else .error .value

/-- What is at a place, with the places of its parts: loaded objects are looked at
in memory, the others in their repository. -/
def view (C : Cfg) (L : Log) (h : Heap) : Node → Except PyErr (Body Node)
  | .mem i =>
    if (h i).mapped then .ok ((h i).body.map .mem)
    else match (h i).realm, (h i).ref with
      | some r, some ref => (strictFetch C L r (h i).kind ref).map (Body.map (.sto r))
      | _, _ => .error .assertion
  | .sto r l => (strictFetch C L r l.kind l.ref).map (Body.map (.sto r))

/-- What a user finds: nothing can be read, nothing is there, or an object with
its own data, the time stamp it is filed under, and whether it is a tree node
without children. -/
inductive Res
  | missing
  | absent
  | found (stamp : Str) (d : Data) (blank : Bool)

/-- A tree node without children -/
def Body.blank {κ : Type} (b : Body κ) : Bool := b.data.kind.isMtree && b.kids.isEmpty

/-- Follow the keys from a place.  An empty file tree of a root record counts as no
file tree, because the code stores it so (metadatarootrecordmapper.py 73-81). -/
def look (C : Cfg) (L : Log) (h : Heap) : List Key → Str → Node → Res
  | [], t, n => match view C L h n with
    | .ok b => .found t b.data b.blank
    | .error _ => .missing
  | k :: ks, _, n => match view C L h n with
    | .error _ => .missing
    | .ok b => match dget b.kids k with
      | none => .absent
      | some (t', c) =>
        match view C L h c with
        | .ok b' => if k = .ft ∧ b'.blank = true then .absent else look C L h ks t' c
        | .error _ => .missing

/-- Two places hold the same content. -/
def SameContent (C : Cfg) (L : Log) (h : Heap) (n : Node) (L' : Log) (h' : Heap) (m : Node) : Prop :=
  ∀ ks t, look C L h ks t n = look C L' h' ks t m

/-- Everything at a place can be read, at every depth. -/
def Full (C : Cfg) (L : Log) (h : Heap) (n : Node) : Prop :=
  ∀ ks t, look C L h ks t n ≠ .missing

/-- Blobs that wait in caches, as changes of the repositories. -/
def pending (caches : List (Realm × List Str)) : Log :=
  caches.flatMap fun e => e.2.map fun s => .save e.1 (.blob s)

/-- The repositories as they are when the caches are flushed. -/
def World.eff (w : World) : Log := pending w.caches ++ w.repo.log

/-! ### Lemmas -/

theorem look_missing_of_view {C : Cfg} {L : Log} {h : Heap} {n : Node} {e : PyErr}
    (hv : view C L h n = .error e) (ks : List Key) (t : Str) : look C L h ks t n = .missing := by
  cases ks <;> simp [look, hv]

theorem view_ok_of_look {C : Cfg} {L : Log} {h : Heap} {n : Node} {ks : List Key} {t : Str}
    (hl : look C L h ks t n ≠ .missing) : ∃ b, view C L h n = .ok b := by
  cases hv : view C L h n with
  | ok b => exact ⟨b, rfl⟩
  | error e => exact absurd (look_missing_of_view hv ks t) hl

theorem look_nil {C : Cfg} {L : Log} {h : Heap} {n : Node} {b : Body Node} (t : Str)
    (hv : view C L h n = .ok b) : look C L h [] t n = .found t b.data b.blank := by
  simp [look, hv]

/-- The stamp only shows at the end. -/
theorem look_stamp {C : Cfg} {L : Log} {h : Heap} {n : Node} (k : Key) (ks : List Key) (t t' : Str) :
    look C L h (k :: ks) t n = look C L h (k :: ks) t' n := rfl

theorem look_cons {C : Cfg} {L : Log} {h : Heap} {n : Node} {b : Body Node} {k : Key} {ks : List Key}
    {t : Str} (hv : view C L h n = .ok b) :
    look C L h (k :: ks) t n = match dget b.kids k with
      | none => .absent
      | some (t', c) =>
        match view C L h c with
        | .ok b' => if k = .ft ∧ b'.blank = true then .absent else look C L h ks t' c
        | .error _ => .missing := by
  rw [look, hv]

theorem look_cons_none {C : Cfg} {L : Log} {h : Heap} {n : Node} {b : Body Node} {k : Key}
    {ks : List Key} {t : Str} (hv : view C L h n = .ok b) (hk : dget b.kids k = none) :
    look C L h (k :: ks) t n = .absent := by rw [look_cons hv, hk]

theorem look_cons_some {C : Cfg} {L : Log} {h : Heap} {n : Node} {b : Body Node} {k : Key}
    {ks : List Key} {t t' : Str} {c : Node} (hv : view C L h n = .ok b)
    (hk : dget b.kids k = some (t', c)) (hft : k ≠ .ft) :
    look C L h (k :: ks) t n = look C L h ks t' c := by
  rw [look_cons hv, hk]
  simp only
  cases hc : view C L h c with
  | ok b' => simp [hft]
  | error e => simp [look_missing_of_view hc]

theorem look_cons_blank {C : Cfg} {L : Log} {h : Heap} {n : Node} {b b' : Body Node}
    {ks : List Key} {t t' : Str} {c : Node} (hv : view C L h n = .ok b)
    (hk : dget b.kids .ft = some (t', c)) (hc : view C L h c = .ok b') (hb : b'.blank = true) :
    look C L h (.ft :: ks) t n = .absent := by
  rw [look_cons hv, hk]; simp [hc, hb]

theorem look_cons_ft {C : Cfg} {L : Log} {h : Heap} {n : Node} {b b' : Body Node}
    {ks : List Key} {t t' : Str} {c : Node} (hv : view C L h n = .ok b)
    (hk : dget b.kids .ft = some (t', c)) (hc : view C L h c = .ok b') (hb : b'.blank = false) :
    look C L h (.ft :: ks) t n = look C L h ks t' c := by
  rw [look_cons hv, hk]; simp [hc, hb]

/-- When two places have the same content, so do corresponding parts. -/
inductive SlotEq (C : Cfg) (L : Log) (h : Heap) (L' : Log) (h' : Heap) (k : Key) :
    Option (Str × Node) → Option (Str × Node) → Prop
  | none : SlotEq C L h L' h' k none none
  | some (t : Str) (c c' : Node) : SameContent C L h c L' h' c' → Full C L h c →
      SlotEq C L h L' h' k (some (t, c)) (some (t, c'))
  | blankL (t : Str) (c : Node) (b : Body Node) : k = .ft → view C L h c = .ok b →
      b.blank = true → SlotEq C L h L' h' k (some (t, c)) none
  | blankR (t : Str) (c : Node) (b : Body Node) : k = .ft → view C L' h' c = .ok b →
      b.blank = true → SlotEq C L h L' h' k none (some (t, c))

/-- Two places have the same content if their data and all their parts agree. -/
theorem same_of_slots {C : Cfg} {L L' : Log} {h h' : Heap} {n m : Node} {b b' : Body Node}
    (hn : view C L h n = .ok b) (hm : view C L' h' m = .ok b') (hd : b'.data = b.data)
    (hb : b'.blank = b.blank)
    (hs : ∀ k, SlotEq C L h L' h' k (dget b.kids k) (dget b'.kids k)) :
    SameContent C L h n L' h' m ∧ Full C L h n := by
  have key : ∀ ks t, look C L h ks t n = look C L' h' ks t m ∧ look C L h ks t n ≠ .missing := by
    intro ks t
    cases ks with
    | nil => rw [look_nil t hn, look_nil t hm, hd, hb]; simp
    | cons k ks =>
      have := hs k
      cases e1 : dget b.kids k with
      | none =>
        rw [look_cons_none hn e1]
        rw [e1] at this
        cases e2 : dget b'.kids k with
        | none => rw [look_cons_none hm e2]; simp
        | some x =>
          rw [e2] at this
          cases this with
          | blankR t' c bb hk hv hbl =>
            subst hk
            rw [look_cons_blank hm e2 hv hbl]; simp
      | some x =>
        rw [e1] at this
        cases e2 : dget b'.kids k with
        | none =>
          rw [e2] at this
          cases this with
          | blankL t' c bb hk hv hbl =>
            subst hk
            rw [look_cons_blank hn e1 hv hbl, look_cons_none hm e2]; simp
        | some y =>
          rw [e2] at this
          cases this with
          | some t' c c' hsame hfull =>
            obtain ⟨bc, hbc⟩ := view_ok_of_look (hfull [] [])
            have h0 := hsame [] []
            rw [look_nil [] hbc] at h0
            have hne : look C L' h' [] [] c' ≠ .missing := by rw [← h0]; simp
            obtain ⟨bc', hbc'⟩ := view_ok_of_look hne
            rw [look_nil [] hbc'] at h0
            injection h0 with _ _ hbb
            by_cases hk : k = .ft ∧ bc.blank = true
            · obtain ⟨rfl, hbl⟩ := hk
              rw [look_cons_blank hn e1 hbc hbl, look_cons_blank hm e2 hbc' (by rw [← hbb]; exact hbl)]
              simp
            · have g1 : look C L h (k :: ks) t n = look C L h ks t' c := by
                rw [look_cons hn, e1]; simp [hbc, hk]
              have g2 : look C L' h' (k :: ks) t m = look C L' h' ks t' c' := by
                rw [look_cons hm, e2]; simp [hbc', ← hbb, hk]
              rw [g1, g2]
              exact ⟨hsame ks t', hfull ks t'⟩
  exact ⟨fun ks t => (key ks t).1, fun ks t => (key ks t).2⟩

theorem SameContent.refl (C : Cfg) (L : Log) (h : Heap) (n : Node) : SameContent C L h n L h n :=
  fun _ _ => rfl

theorem SameContent.symm {C : Cfg} {L L' : Log} {h h' : Heap} {n m : Node}
    (hs : SameContent C L h n L' h' m) : SameContent C L' h' m L h n := fun ks t => (hs ks t).symm

theorem SameContent.trans {C : Cfg} {L L' L'' : Log} {h h' h'' : Heap} {n m o : Node}
    (hs : SameContent C L h n L' h' m) (hs' : SameContent C L' h' m L'' h'' o) :
    SameContent C L h n L'' h'' o := fun ks t => (hs ks t).trans (hs' ks t)

theorem Full.of_same {C : Cfg} {L L' : Log} {h h' : Heap} {n m : Node}
    (hs : SameContent C L h n L' h' m) (hf : Full C L h n) : Full C L' h' m :=
  fun ks t => by rw [← hs ks t]; exact hf ks t

/-- Parts of a readable place are readable. -/
theorem Full.kid {C : Cfg} {L : Log} {h : Heap} {n : Node} {b : Body Node} {k : Key} {t : Str}
    {c : Node} (hf : Full C L h n) (hv : view C L h n = .ok b) (hk : dget b.kids k = some (t, c)) :
    (∃ b', view C L h c = .ok b' ∧ k = .ft ∧ b'.blank = true) ∨
      (Full C L h c ∧ ∀ ks t0, look C L h (k :: ks) t0 n = look C L h ks t c) := by
  have h0 := hf [k] []
  cases hc : view C L h c with
  | error e => rw [look_cons hv, hk] at h0; simp [hc] at h0
  | ok b' =>
    by_cases hb : k = .ft ∧ b'.blank = true
    · exact Or.inl ⟨b', rfl, hb.1, hb.2⟩
    · right
      have g : ∀ ks t0, look C L h (k :: ks) t0 n = look C L h ks t c := by
        intro ks t0; rw [look_cons hv, hk]; simp [hc, hb]
      refine ⟨?_, g⟩
      intro ks t0
      cases ks with
      | nil => rw [look_nil t0 hc]; simp
      | cons k' ks => rw [look_stamp k' ks t0 t, ← g (k' :: ks) []]; exact hf _ _

/-! #### More objects in the repositories do not change content -/

theorem textAt_mono {C : Cfg} {L L' : Log} {r : Realm} {loc s : Str}
    (hr : ∀ o, resolve C L r loc = some o → resolve C L' r loc = some o)
    (h : textAt C L r loc = .ok s) : textAt C L' r loc = .ok s := by
  unfold textAt at h ⊢
  cases hres : resolve C L r loc with
  | none => simp [hres] at h
  | some o => rw [hr o hres]; simpa [hres] using h

theorem treeAt_mono {C : Cfg} {L L' : Log} {r : Realm} {loc : Str} {es : List TreeEntry}
    (hr : ∀ o, resolve C L r loc = some o → resolve C L' r loc = some o)
    (h : treeAt C L r loc = .ok es) : treeAt C L' r loc = .ok es := by
  unfold treeAt at h ⊢
  cases hres : resolve C L r loc with
  | none => simp [hres] at h
  | some o => rw [hr o hres]; simpa [hres] using h

theorem jsonAt_mono {C : Cfg} {L L' : Log} {r : Realm} {loc : Str} {j : Json}
    (hr : ∀ o, resolve C L r loc = some o → resolve C L' r loc = some o)
    (h : jsonAt C L r loc = .ok j) : jsonAt C L' r loc = .ok j := by
  unfold jsonAt at h ⊢
  cases ht : textAt C L r loc with
  | error e => simp [ht] at h
  | ok s => rw [textAt_mono hr ht]; simpa [ht] using h

/-- Reading gives the same after more objects were stored, when the location is a
hash or a name that still means the same. -/
def LocKept (L L' : Log) (r : Realm) (loc : Str) : Prop :=
  isHash loc = true ∨ refOf L' r loc = refOf L r loc

theorem LocKept.resolve {C : Cfg} {L L' : Log} (hg : Grows L L') (hc : CollisionFree C L')
    {r : Realm} {loc : Str} (hk : LocKept L L' r loc) (o : GitObj)
    (h : resolve C L r loc = some o) : resolve C L' r loc = some o := by
  rcases hk with hk | hk
  · rw [resolve_hash hk] at h ⊢; exact findObj_mono hg hc h
  · unfold MM.resolve at h ⊢
    rw [hk]
    split
    · rename_i hh; rw [if_pos hh] at h; exact findObj_mono hg hc h
    · rename_i hh
      rw [if_neg hh] at h
      split at h
      · exact findObj_mono hg hc h
      · cases h

theorem ok_bind {α β : Type} {x : Except PyErr α} {f : α → Except PyErr β} {b : β}
    (h : (x >>= f) = .ok b) : ∃ a, x = .ok a ∧ f a = .ok b := by
  cases x with
  | error e => cases h
  | ok a => exact ⟨a, rfl, h⟩

theorem bind_of_eq_ok {α β : Type} {x : Except PyErr α} {a : α} (f : α → Except PyErr β)
    (h : x = .ok a) : (x >>= f) = f a := by rw [h]; rfl

theorem strictFetch_ok {C : Cfg} {L : Log} {r : Realm} {k : Kind} {ref : Ref} {b : Body Link}
    (h : strictFetch C L r k ref = .ok b) :
    fetch C L r k ref = .ok b ∧ b.kids.all (fun e => e.2.2.ref.direct) = true ∧
      innerDirect C L r k ref = true := by
  unfold strictFetch at h
  cases hf : fetch C L r k ref with
  | error e => simp [hf] at h
  | ok b' =>
    rw [hf] at h
    simp only at h
    split at h
    · rename_i hc
      cases h
      simp only [Bool.and_eq_true] at hc
      exact ⟨rfl, hc.1, hc.2⟩
    · cases h

theorem innerDirect_metadata {C : Cfg} {L : Log} {r : Realm} {ref : Ref} {loc : Str}
    (hl : ref.loc = some loc) (hn : ref.isNone = false) (h : innerDirect C L r .metadata ref = true) :
    ∃ s ref' l, textAt C L r loc = .ok s ∧ Ref.fromText C.floats s = .ok ref' ∧
      ref'.loc = some l ∧ isHash l = true := by
  unfold innerDirect at h
  rw [if_pos ⟨rfl, hn⟩, hl] at h
  simp only at h
  cases ht : textAt C L r loc with
  | error e => simp [ht] at h
  | ok s =>
    simp only [ht] at h
    cases hr : Ref.fromText C.floats s with
    | error e => simp [hr] at h
    | ok ref' =>
      simp only [hr] at h
      cases hl' : ref'.loc with
      | none => simp [hl'] at h
      | some l => simp only [hl'] at h; exact ⟨s, ref', l, rfl, hr, hl', h⟩

theorem innerDirect_of {C : Cfg} {L : Log} {r : Realm} {ref ref' : Ref} {loc s l : Str}
    (hl : ref.loc = some loc) (ht : textAt C L r loc = .ok s)
    (hr : Ref.fromText C.floats s = .ok ref') (hl' : ref'.loc = some l) (hh : isHash l = true)
    (k : Kind) : innerDirect C L r k ref = true := by
  unfold innerDirect
  split
  · simp [hl, ht, hr, hl', hh]
  · rfl

theorem innerDirect_ne {C : Cfg} {L : Log} {r : Realm} {ref : Ref} {k : Kind} (hk : k ≠ .metadata) :
    innerDirect C L r k ref = true := by
  unfold innerDirect
  rw [if_neg (fun h => hk h.1)]

/-- What could be read can still be read, and is the same. -/
theorem strictFetch_mono {C : Cfg} {L L' : Log} (hg : Grows L L') (hc : CollisionFree C L')
    {r : Realm} {k : Kind} {ref : Ref} {b : Body Link}
    (hk : ∀ loc, ref.loc = some loc → ref.isNone = false → LocKept L L' r loc)
    (h : strictFetch C L r k ref = .ok b) : strictFetch C L' r k ref = .ok b := by
  obtain ⟨hf, hd, hi⟩ := strictFetch_ok h
  have main : fetch C L' r k ref = .ok b ∧ innerDirect C L' r k ref = true := by
    unfold fetch at hf ⊢
    by_cases hn : ref.isNone = true
    · rw [if_pos hn] at hf ⊢
      refine ⟨hf, ?_⟩
      unfold innerDirect
      simp [hn]
    · rw [if_neg hn] at hf ⊢
      have hn' : ref.isNone = false := by simpa using hn
      by_cases hacc : k.accepts ref.cls = true
      · rw [if_pos hacc] at hf ⊢
        cases hl : ref.loc with
        | none => simp [hl] at hf
        | some loc =>
          simp only [hl] at hf ⊢
          have hr := fun o => LocKept.resolve hg hc (hk loc hl hn') (C := C) o
          cases k with
          | metadata =>
            obtain ⟨s, ref', l, ht, hr', hl', hh⟩ := innerDirect_metadata hl hn' hi
            have ht' := textAt_mono hr ht
            refine ⟨?_, innerDirect_of hl ht' hr' hl' hh _⟩
            simp only [decode] at hf ⊢
            rw [bind_of_eq_ok _ ht, bind_of_eq_ok _ hr', hl'] at hf
            rw [bind_of_eq_ok _ ht', bind_of_eq_ok _ hr', hl']
            obtain ⟨s', hs', hf⟩ := ok_bind hf
            simp only
            rw [bind_of_eq_ok _ (textAt_mono
              (fun o => LocKept.resolve hg hc (Or.inl hh) (C := C) o) hs')]
            exact hf
          | text =>
            refine ⟨?_, innerDirect_ne (by simp)⟩
            simp only [decode] at hf ⊢
            obtain ⟨s, hs, hf⟩ := ok_bind hf
            rw [bind_of_eq_ok _ (textAt_mono hr hs)]; exact hf
          | mtree leaf =>
            refine ⟨?_, innerDirect_ne (by simp)⟩
            simp only [decode] at hf ⊢
            obtain ⟨s, hs, hf⟩ := ok_bind hf
            rw [bind_of_eq_ok _ (treeAt_mono hr hs)]; exact hf
          | uuidset =>
            refine ⟨?_, innerDirect_ne (by simp)⟩
            simp only [decode] at hf ⊢
            obtain ⟨s, hs, hf⟩ := ok_bind hf
            rw [bind_of_eq_ok _ (treeAt_mono hr hs)]; exact hf
          | mrr =>
            refine ⟨?_, innerDirect_ne (by simp)⟩
            simp only [decode] at hf ⊢
            obtain ⟨s, hs, hf⟩ := ok_bind hf
            rw [bind_of_eq_ok _ (jsonAt_mono hr hs)]; exact hf
          | vlist =>
            refine ⟨?_, innerDirect_ne (by simp)⟩
            simp only [decode] at hf ⊢
            obtain ⟨s, hs, hf⟩ := ok_bind hf
            rw [bind_of_eq_ok _ (jsonAt_mono hr hs)]; exact hf
          | tvl =>
            refine ⟨?_, innerDirect_ne (by simp)⟩
            simp only [decode] at hf ⊢
            obtain ⟨s, hs, hf⟩ := ok_bind hf
            rw [bind_of_eq_ok _ (jsonAt_mono hr hs)]; exact hf
      · rw [if_neg hacc] at hf; cases hf
  unfold strictFetch
  rw [main.1]
  simp only
  rw [hd, main.2]
  rfl

/-- A stored place whose reference is direct. -/
def Node.direct : Node → Prop
  | .mem _ => False
  | .sto _ l => l.ref.direct = true

theorem isNone_iff {ref : Ref} : ref.isNone = true ↔ ref.loc = some noneLocation := by
  unfold Ref.isNone; simp

theorem locKept_of_direct {L L' : Log} {r : Realm} {ref : Ref} (hd : ref.direct = true) :
    ∀ loc, ref.loc = some loc → ref.isNone = false → LocKept L L' r loc := by
  intro loc hl hn
  left
  unfold Ref.direct at hd
  rw [hl] at hd
  simp only [Bool.or_eq_true, beq_iff_eq] at hd
  rcases hd with hd | hd
  · exact hd
  · have : ref.isNone = true := isNone_iff.mpr (by rw [hl, hd])
    rw [this] at hn; cases hn

theorem except_map_ok {α β : Type} {f : α → β} {x : Except PyErr α} {b : β}
    (h : x.map f = .ok b) : ∃ a, x = .ok a ∧ b = f a := by
  cases x with
  | error e => cases h
  | ok a => injection h with h; exact ⟨a, rfl, h.symm⟩

theorem view_sto {C : Cfg} {L : Log} {h : Heap} {r : Realm} {l : Link} {b : Body Node} :
    view C L h (.sto r l) = .ok b ↔ ∃ a, strictFetch C L r l.kind l.ref = .ok a ∧ b = a.map (.sto r) := by
  simp only [view]
  constructor
  · exact except_map_ok
  · rintro ⟨a, ha, rfl⟩; rw [ha]; rfl

theorem view_mapped {C : Cfg} {L : Log} {h : Heap} {i : ObjId} (hm : (h i).mapped = true) :
    view C L h (.mem i) = .ok ((h i).body.map .mem) := by
  simp only [view]; rw [if_pos hm]

theorem view_away {C : Cfg} {L : Log} {h : Heap} {i : ObjId} {b : Body Node}
    (hm : (h i).mapped = false) :
    view C L h (.mem i) = .ok b ↔ ∃ r ref a, (h i).realm = some r ∧ (h i).ref = some ref ∧
      strictFetch C L r (h i).kind ref = .ok a ∧ b = a.map (.sto r) := by
  simp only [view]
  rw [if_neg (by simp [hm])]
  cases hr : (h i).realm with
  | none => simp
  | some r =>
    cases hf : (h i).ref with
    | none => simp
    | some ref =>
      simp only
      constructor
      · intro h; obtain ⟨a, ha, hb⟩ := except_map_ok h; exact ⟨r, ref, a, rfl, rfl, ha, hb⟩
      · rintro ⟨r', ref', a, h1, h2, ha, rfl⟩
        cases h1; cases h2; rw [ha]; rfl

theorem dget_kids_sto {r : Realm} {b : Body Link} {k : Key} {t : Str} {c : Node}
    (h : dget (b.map (Node.sto r)).kids k = some (t, c)) :
    ∃ l, dget b.kids k = some (t, l) ∧ c = .sto r l := by
  rw [Body.dget_map] at h
  cases hd : dget b.kids k with
  | none => simp [hd] at h
  | some e =>
    simp only [hd, Option.map_some, Option.some.injEq, Prod.mk.injEq] at h
    obtain ⟨t', l⟩ := e
    simp only at h
    exact ⟨l, by rw [h.1], h.2.symm⟩

theorem direct_of_dget {b : Body Link} {k : Key} {t : Str} {l : Link}
    (hd : b.kids.all (fun e => e.2.2.ref.direct) = true) (hk : dget b.kids k = some (t, l)) :
    l.ref.direct = true := by
  rw [List.all_eq_true] at hd
  exact hd _ (mem_of_dget hk)

/-- Stored content only grows. -/
theorem look_sto_mono {C : Cfg} {L L' : Log} {h h' : Heap} (hg : Grows L L')
    (hc : CollisionFree C L') : ∀ (ks : List Key) (t : Str) (r : Realm) (l : Link),
      (∀ loc, l.ref.loc = some loc → l.ref.isNone = false → LocKept L L' r loc) →
      look C L h ks t (.sto r l) ≠ .missing →
      look C L' h' ks t (.sto r l) = look C L h ks t (.sto r l) := by
  intro ks
  induction ks with
  | nil =>
    intro t r l hk hne
    obtain ⟨b, hv⟩ := view_ok_of_look hne
    have hv' : view C L' h' (.sto r l) = .ok b := by
      simp only [view] at hv ⊢
      obtain ⟨a, ha, hb⟩ := except_map_ok hv
      rw [strictFetch_mono hg hc hk ha, hb]; rfl
    rw [look_nil t hv, look_nil t hv']
  | cons k ks ih =>
    intro t r l hk hne
    obtain ⟨b, hv⟩ := view_ok_of_look hne
    have hv0 := hv
    simp only [view] at hv0
    obtain ⟨a, ha, hb⟩ := except_map_ok hv0
    have hv' : view C L' h' (.sto r l) = .ok b := by
      simp only [view]
      rw [strictFetch_mono hg hc hk ha, hb]; rfl
    cases hkid : dget b.kids k with
    | none => rw [look_cons_none hv hkid, look_cons_none hv' hkid]
    | some e =>
      obtain ⟨t', c⟩ := e
      rw [hb] at hkid
      obtain ⟨l', hl', rfl⟩ := dget_kids_sto hkid
      rw [← hb] at hkid
      have hdir := direct_of_dget (strictFetch_ok ha).2.1 hl'
      cases hc' : view C L h (.sto r l') with
      | error e =>
        rw [look_cons hv, hkid] at hne; simp [hc'] at hne
      | ok b1 =>
        have hc1 : view C L' h' (.sto r l') = .ok b1 := by
          simp only [view] at hc' ⊢
          obtain ⟨a1, ha1, hb1⟩ := except_map_ok hc'
          rw [strictFetch_mono hg hc (locKept_of_direct hdir) ha1, hb1]; rfl
        by_cases hft : k = .ft ∧ b1.blank = true
        · obtain ⟨rfl, hbl⟩ := hft
          rw [look_cons_blank hv hkid hc' hbl, look_cons_blank hv' hkid hc1 hbl]
        · have g1 : look C L h (k :: ks) t (.sto r l) = look C L h ks t' (.sto r l') := by
            rw [look_cons hv, hkid]; simp [hc', hft]
          have g2 : look C L' h' (k :: ks) t (.sto r l) = look C L' h' ks t' (.sto r l') := by
            rw [look_cons hv', hkid]; simp [hc1, hft]
          rw [g1] at hne ⊢
          rw [g2]
          exact ih t' r l' (locKept_of_direct hdir) hne

/-- Objects show the same: loaded ones have the same content, unloaded ones the same
reference. -/
structure SameObj (o o' : Obj) : Prop where
  mapped : o'.mapped = o.mapped
  body : o'.body = o.body
  away : o.mapped = false → o'.realm = o.realm ∧ o'.ref = o.ref

theorem SameObj.refl (o : Obj) : SameObj o o := ⟨rfl, rfl, fun _ => ⟨rfl, rfl⟩⟩

theorem SameObj.trans {a b c : Obj} (h : SameObj a b) (h' : SameObj b c) : SameObj a c :=
  ⟨h'.mapped.trans h.mapped, h'.body.trans h.body, fun e =>
    ⟨(h'.away (h.mapped.trans e)).1.trans (h.away e).1,
     (h'.away (h.mapped.trans e)).2.trans (h.away e).2⟩⟩

/-- Unloaded objects have references that still mean the same. -/
def HeapKept (L L' : Log) (h : Heap) : Prop :=
  ∀ j r ref loc, (h j).mapped = false → (h j).realm = some r → (h j).ref = some ref →
    ref.loc = some loc → ref.isNone = false → LocKept L L' r loc

/-- The content of objects in memory only grows. -/
theorem look_mem_mono {C : Cfg} {L L' : Log} {h h' : Heap} (hg : Grows L L')
    (hc : CollisionFree C L') (hk : HeapKept L L' h) (hs : ∀ j, SameObj (h j) (h' j)) :
    ∀ (ks : List Key) (t : Str) (i : ObjId), look C L h ks t (.mem i) ≠ .missing →
      look C L' h' ks t (.mem i) = look C L h ks t (.mem i) := by
  have hview : ∀ i b, view C L h (.mem i) = .ok b → view C L' h' (.mem i) = .ok b := by
    intro i b hv
    by_cases hm : (h i).mapped = true
    · rw [view_mapped hm] at hv
      rw [view_mapped ((hs i).mapped.trans hm), (hs i).body]; exact hv
    · have hm' : (h i).mapped = false := by simpa using hm
      obtain ⟨r, ref, a, hr, hf, ha, hb⟩ := (view_away hm').mp hv
      have hkind : (h' i).kind = (h i).kind := by unfold Obj.kind; rw [(hs i).body]
      refine (view_away ((hs i).mapped.trans hm')).mpr ⟨r, ref, a, ?_, ?_, ?_, hb⟩
      · rw [((hs i).away hm').1, hr]
      · rw [((hs i).away hm').2, hf]
      · rw [hkind]
        exact strictFetch_mono hg hc (fun loc hl hn => hk i r ref loc hm' hr hf hl hn) ha
  have kidkind : ∀ i b k t c, view C L h (.mem i) = .ok b → dget b.kids k = some (t, c) →
      (∃ j, c = .mem j) ∨ ∃ r l, c = .sto r l ∧ l.ref.direct = true := by
    intro i b k t c hv hkid
    by_cases hm : (h i).mapped = true
    · rw [view_mapped hm] at hv
      cases hv
      rw [Body.dget_map] at hkid
      cases hd : dget (h i).body.kids k with
      | none => simp [hd] at hkid
      | some e =>
        simp only [hd, Option.map_some, Option.some.injEq, Prod.mk.injEq] at hkid
        exact Or.inl ⟨e.2, hkid.2.symm⟩
    · have hm' : (h i).mapped = false := by simpa using hm
      obtain ⟨r, ref, a, hr, hf, ha, rfl⟩ := (view_away hm').mp hv
      obtain ⟨l, hl, rfl⟩ := dget_kids_sto hkid
      exact Or.inr ⟨r, l, rfl, direct_of_dget (strictFetch_ok ha).2.1 hl⟩
  intro ks
  induction ks with
  | nil =>
    intro t i hne
    obtain ⟨b, hv⟩ := view_ok_of_look hne
    rw [look_nil t hv, look_nil t (hview i b hv)]
  | cons k ks ih =>
    intro t i hne
    obtain ⟨b, hv⟩ := view_ok_of_look hne
    have hv' := hview i b hv
    cases hkid : dget b.kids k with
    | none => rw [look_cons_none hv hkid, look_cons_none hv' hkid]
    | some e =>
      obtain ⟨t', c⟩ := e
      cases hcv : view C L h c with
      | error e => rw [look_cons hv, hkid] at hne; simp [hcv] at hne
      | ok b1 =>
        have hcv' : view C L' h' c = .ok b1 := by
          rcases kidkind i b k t' c hv hkid with ⟨j, rfl⟩ | ⟨r, l, rfl, hdir⟩
          · exact hview j b1 hcv
          · simp only [view] at hcv ⊢
            obtain ⟨a1, ha1, hb1⟩ := except_map_ok hcv
            rw [strictFetch_mono hg hc (locKept_of_direct hdir) ha1, hb1]; rfl
        by_cases hft : k = .ft ∧ b1.blank = true
        · obtain ⟨rfl, hbl⟩ := hft
          rw [look_cons_blank hv hkid hcv hbl, look_cons_blank hv' hkid hcv' hbl]
        · have g1 : look C L h (k :: ks) t (.mem i) = look C L h ks t' c := by
            rw [look_cons hv, hkid]; simp [hcv, hft]
          have g2 : look C L' h' (k :: ks) t (.mem i) = look C L' h' ks t' c := by
            rw [look_cons hv', hkid]; simp [hcv', hft]
          rw [g1] at hne ⊢
          rw [g2]
          rcases kidkind i b k t' c hv hkid with ⟨j, rfl⟩ | ⟨r, l, rfl, hdir⟩
          · exact ih t' j hne
          · exact look_sto_mono hg hc ks t' r l (locKept_of_direct hdir) hne

theorem stored_pending {caches : List (Realm × List Str)} {r : Realm} {o : GitObj} :
    Stored (pending caches) r o ↔ ∃ bs s, (r, bs) ∈ caches ∧ s ∈ bs ∧ o = .blob s := by
  unfold Stored pending
  rw [List.mem_flatMap]
  constructor
  · rintro ⟨⟨r', bs⟩, hm, ho⟩
    rw [List.mem_map] at ho
    obtain ⟨s, hs, he⟩ := ho
    injection he with h1 h2
    simp only at h1 hs
    subst h1
    exact ⟨bs, s, hm, hs, h2.symm⟩
  · rintro ⟨bs, s, hm, hs, rfl⟩
    exact ⟨(r, bs), hm, List.mem_map.mpr ⟨s, hs, rfl⟩⟩

theorem savesOnly_pending (caches : List (Realm × List Str)) : SavesOnly (pending caches) := by
  intro op ho
  unfold pending at ho
  rw [List.mem_flatMap] at ho
  obtain ⟨e, _, ho⟩ := ho
  rw [List.mem_map] at ho
  obtain ⟨s, _, rfl⟩ := ho
  exact ⟨_, _, rfl⟩

theorem refOf_eff (w : World) (r : Realm) (n : Str) : refOf w.eff r n = refOf w.repo.log r n :=
  refOf_append_saves (savesOnly_pending w.caches) _ r n

end MM
