/-
C43: protection from garbage collection.
-/
import Verif.Lifetime
import Verif.Check
import Verif.Props.References
import Verif.Walk
import Verif.Common

namespace MM

/-- Garbage collection: names stay, nothing is added, and what git reaches from the names stays. -/
structure Collected (C : Cfg) (r : Realm) (L L' : Log) : Prop where
  names : ∀ n, refOf L' r n = refOf L r n
  fewer : ∀ o, Stored L' r o → Stored L r o
  kept : ∀ o, Stored L r o → Reachable C L r (C.hash o) → Stored L' r o

/-- The reference to a top-level object: its name, under any class name -/
def TopLevel (l : Link) : Prop :=
  (l.kind = .tvl ∧ l.ref.loc = some tvlRefName) ∨ (l.kind = .uuidset ∧ l.ref.loc = some uuidSetRefName)

/-- No root record is an element of a version list at or below the object. -/
def NoRecords (C : Cfg) (L : Log) (r : Realm) (l : Link) : Prop := ∀ h, ¬ ListedRecord C L r l h

section
variable {C : Cfg} {r : Realm}

theorem TopLevel.pub {l : Link} (h : TopLevel l) : ∃ nm, pubName l.kind = some nm ∧ l.ref.loc = some nm ∧ isHash nm = false := by
  rcases h with ⟨h1, h2⟩ | ⟨h1, h2⟩
  · exact ⟨_, by rw [h1]; rfl, h2, by decide⟩
  · exact ⟨_, by rw [h1]; rfl, h2, by decide⟩

/-- C43, as far as it holds: when the object references were flushed, git reaches everything that
is needed to read a top-level object, except for root records that are elements of version lists.
What is missing: these records (see `C43_false`), and object references that another repository
got (see `C43_other_false`). -/
theorem C43_partial (hr : r ≠ []) {w : World} {ks : List Link} (h : Lifetime C r w ks) (hp : w.refs = []) {l : Link}
    (hl : TopLevel l) {x : Str} (hx : Needs C w.repo.log r l x) :
    Reachable C w.repo.log r x ∨ ListedRecord C w.repo.log r l x := by
  have hg := h.guarded hr
  obtain ⟨nm, hk, hloc, hnh⟩ := hl.pub
  have hR : ∀ t h, (fun x => x ∈ w.refs ∨ Recorded C w.repo.log r x) (t, h) → Reachable C w.repo.log r h := by
    intro t h hh
    rcases hh with hh | hh
    · rw [hp] at hh; cases hh
    · exact hh.reachable
  cases hx with
  | self _ loc _ h1 h2 h3 =>
    rw [hloc] at h2; cases h2
    unfold target at h3
    rw [hnh] at h3
    exact Or.inl (.named _ _ h3)
  | inner _ _ _ _ _ h1 => rw [h1] at hk; cases hk
  | part _ b e _ hf he hne =>
    have hn : l.ref.isNone = false := by
      cases hn : l.ref.isNone with
      | false => rfl
      | true => rw [fetch_none hf hn] at he; cases he
    have hd := fetch_decode hf hloc hn
    obtain ⟨y, hy, hyh, hdy⟩ := hg.behind hk hnh hd
    have hs := hg.named l.kind nm y hk hy
    rw [eff_nil hg.caches] at hs
    have hacc : l.kind.accepts l.kind.name = true := by
      cases l.kind <;> first | rfl | (rename_i l; cases l <;> rfl)
    have hfy : fetch C w.repo.log r l.kind ⟨l.kind.name, some y⟩ = .ok b := by
      unfold fetch
      have : Ref.isNone ⟨l.kind.name, some y⟩ = false := by unfold Ref.isNone; simpa using isHash_ne_none hyh
      rw [this, hacc]
      exact hdy
    have hN : Needs C w.repo.log r ⟨l.kind, ⟨l.kind.name, some y⟩⟩ x := .part _ b e x hfy he hne
    rcases hs.needs hg.distinct hR hN rfl (fun z hz => by cases hz; exact Or.inl (.named _ _ hy)) with h1 | h1 | ⟨h1, _⟩
    · exact Or.inl h1
    · refine Or.inr ?_
      cases h1 with
      | here _ b' e' _ g1 g2 g3 g4 g5 =>
        simp only at g1 g2
        rw [hfy] at g2; cases g2
        exact .here l b e' x g1 hf g3 g4 g5
      | part _ b' e' _ g1 g2 g3 =>
        simp only at g1
        rw [hfy] at g1; cases g1
        exact .part l b e' x hf g2 g3
    · simp only at h1
      rw [h1] at hk; cases hk

/-- C43 for top-level objects without root records in version lists -/
theorem C43_no_records_partial (hr : r ≠ []) {w : World} {ks : List Link} (h : Lifetime C r w ks) (hp : w.refs = []) {l : Link}
    (hl : TopLevel l) (hno : NoRecords C w.repo.log r l) {x : Str} (hx : Needs C w.repo.log r l x) : Reachable C w.repo.log r x :=
  (C43_partial hr h hp hl hx).resolve_right (hno x)

theorem fetch_kinds {L : Log} {k : Kind} {ref : Ref} {b : Body Link} (hf : fetch C L r k ref = .ok b) :
    ∀ e ∈ b.kids, KidOk k e.1 e.2.2.kind := by
  intro e he
  cases hn : ref.isNone with
  | true => rw [fetch_none hf hn] at he; cases he
  | false =>
    cases hl : ref.loc with
    | none =>
      unfold fetch at hf
      rw [hn, hl] at hf
      simp only [Bool.false_eq_true, if_false] at hf
      split at hf <;> cases hf
    | some loc => exact decode_kidOk (fetch_decode hf hl hn) e he

/-- There are no version lists in trees, root records and metadata. -/
theorem ListedRecord.kind {L : Log} {l : Link} {x : Str} (h : ListedRecord C L r l x) :
    l.kind = .vlist ∨ l.kind = .tvl ∨ l.kind = .uuidset := by
  induction h with
  | here l b e x h1 => exact h1.elim Or.inl fun h => Or.inr (Or.inl h)
  | part l b e x hf he _ ih =>
    have hk := fetch_kinds hf e he
    revert hk ih
    cases l.kind <;> cases e.1 <;> intro ih hk <;> first
      | exact hk.elim
      | exact Or.inl rfl
      | exact Or.inr (Or.inl rfl)
      | exact Or.inr (Or.inr rfl)
      | (exfalso; simp only [KidOk] at hk; rw [hk] at ih; rcases ih with h | h | h <;> cases h)
      | (exfalso; rename_i leaf _
         rcases hk with hk | hk <;> rw [hk] at ih <;> cases leaf <;> rcases ih with h | h | h <;> cases h)

/-- The elements of a tree version list are dataset trees. -/
theorem noRecords_of_trees {L : Log} {ref : Ref} (htree : ∀ b, fetch C L r .tvl ref = .ok b → ∀ e ∈ b.kids, e.2.2.kind ≠ .mrr) :
    NoRecords C L r ⟨.tvl, ref⟩ := by
  intro x hl
  cases hl with
  | here _ b e _ _ h2 h3 h4 => exact htree b h2 e h3 h4
  | part _ b e _ h2 h3 h4 =>
    have hk := fetch_kinds h2 e h3
    simp only at hk
    revert hk
    cases e.1 <;> intro hk <;> first
      | exact hk.elim
      | (rcases hk with hk | hk <;> rcases h4.kind with h | h | h <;> rw [hk] at h <;> cases h)

/-- C43 for a tree version list: if all its elements are dataset trees (and they are, if they are
added as the API documents it), then git reaches everything that is needed to read it. -/
theorem C43_tree_versions_partial (hr : r ≠ []) {w : World} {ks : List Link} (h : Lifetime C r w ks) (hp : w.refs = [])
    {cls : Str} (htree : ∀ b, fetch C w.repo.log r .tvl ⟨cls, some tvlRefName⟩ = .ok b → ∀ e ∈ b.kids, e.2.2.kind ≠ .mrr)
    {x : Str} (hx : Needs C w.repo.log r ⟨.tvl, ⟨cls, some tvlRefName⟩⟩ x) : Reachable C w.repo.log r x :=
  C43_no_records_partial hr h hp (Or.inl ⟨rfl, rfl⟩) (noRecords_of_trees htree) hx

/-- C43 for trees: a tree that is written through its class, `DatasetTree` or `FileTree`, is
reached with everything in it once the object references were flushed. -/
theorem C43_trees_partial (hr : r ≠ []) {w w' : World} {ks : List Link} {via : Via} {n : Nat} {force : Bool} {i : ObjId} {ref : Ref}
    {checked : List Realm} {s' : RefState} (h : Lifetime C r w ks) (hv : via ≠ .own) {leaf : Leaf} (hk : (w.heap i).kind = .mtree leaf)
    (hw : writeAs C via n (some r) force i w = (.ok ref, w')) (hs : Storable w.heap i)
    (hf : flush C r ⟨w'.repo, w'.refs, checked⟩ = (.ok (), s')) (hrd : StoreReadable r ⟨w'.repo, w'.refs, checked⟩)
    (hc : CollisionFree C s'.repo.log) (hc' : CollisionFree C w'.repo.log) {x : Str}
    (hx : Needs C s'.repo.log r ⟨.mtree leaf, ref⟩ x) : Reachable C s'.repo.log r x := by
  obtain ⟨g1, g2⟩ := (h.guarded hr).write hr hw hc' hs fun _ => ⟨leaf, hk⟩
  obtain ⟨g3, g4⟩ := g1.flush hf hrd hc
  have hl := g2 hv
  have hcached : s'.cached = [] :=
    (flush_any (s := ⟨w'.repo, w'.refs, checked⟩) g1.wells g1.hashes hc hf).done rfl
  have hR : ∀ x, x ∈ s'.cached ∨ Recorded C s'.repo.log r x → Reachable C s'.repo.log r x.2 := by
    rintro x (hh | hh)
    · rw [hcached] at hh; cases hh
    · exact hh.reachable
  have hprot := g3.known _ (List.mem_cons_self ..)
  simp only [hk] at hprot
  have hsupp := hprot.supp rfl
  rw [eff_nil g3.caches] at hsupp
  have hself : ∀ z, ref.loc = some z → Reachable C s'.repo.log r z := by
    intro z hz
    have hn : ref.isNone = false := by
      cases hn : ref.isNone with
      | false => rfl
      | true => exact absurd hx (not_needs_none hn)
    obtain ⟨y, e1, e2⟩ := hl hn
    rw [hz] at e1; cases e1
    exact hR _ (g4.listed _ e2)
  rcases hsupp.needs hc (fun t h hh => hR (t, h) hh) hx rfl (fun z hz => Or.inl (hself z hz)) with h1 | h1 | ⟨h1, _⟩
  · exact h1
  · rcases h1.kind with h | h | h <;> cases h
  · cases h1

/-! ### Garbage collection -/

theorem Collected.distinct {L L' : Log} (hg : Collected C r L L') (hc : CollisionFree C L) {o o' : GitObj} (h : Stored L' r o)
    (h' : Stored L' r o') (he : C.hash o = C.hash o') : o = o' :=
  hc r o o' (hg.fewer o h) (hg.fewer o' h') he

theorem Collected.find {L L' : Log} (hg : Collected C r L L') (hc : CollisionFree C L) {x : Str} (hx : Reachable C L r x) :
    findObj C L' r x = findObj C L r x := by
  cases hf : findObj C L r x with
  | none =>
    cases hf' : findObj C L' r x with
    | none => rfl
    | some o =>
      obtain ⟨h1, rfl⟩ := findObj_stored hf'
      have := findObj_isSome (C := C) (hg.fewer o h1)
      rw [hf] at this; cases this
  | some o =>
    obtain ⟨h1, rfl⟩ := findObj_stored hf
    have h2 := hg.kept o h1 hx
    have h3 := findObj_isSome (C := C) h2
    cases hf' : findObj C L' r (C.hash o) with
    | none => rw [hf'] at h3; cases h3
    | some o' =>
      obtain ⟨h4, h5⟩ := findObj_stored hf'
      rw [hg.distinct hc h4 h2 h5]

theorem Collected.resolve {L L' : Log} (hg : Collected C r L L') (hc : CollisionFree C L) {loc : Str}
    (hx : isHash loc = true → Reachable C L r loc) : resolve C L' r loc = resolve C L r loc := by
  unfold MM.resolve
  split
  · rename_i h; exact hg.find hc (hx h)
  · rw [hg.names]
    cases hr : refOf L r loc with
    | none => rfl
    | some y => exact hg.find hc (.named _ _ hr)

/-- What reading gives does not change, if git reaches everything that is needed. -/
theorem Collected.strictFetch {L L' : Log} (hg : Collected C r L L') (hc : CollisionFree C L) {l : Link}
    (hx : ∀ x, Needs C L r l x → Reachable C L r x) : strictFetch C L' r l.kind l.ref = strictFetch C L r l.kind l.ref := by
  cases hn : l.ref.isNone with
  | true =>
    have h1 : ∀ L, fetch C L r l.kind l.ref = fetch C [] r l.kind l.ref := by
      intro L; unfold fetch; rw [if_pos hn, if_pos hn]
    have h2 : ∀ L, innerDirect C L r l.kind l.ref = true := by
      intro L; unfold innerDirect; rw [hn]; simp
    unfold MM.strictFetch
    rw [h1 L, h1 L', h2 L, h2 L']
  | false =>
    cases hl : l.ref.loc with
    | none => unfold MM.strictFetch fetch innerDirect; rw [hn, hl]
    | some loc =>
      have hres : MM.resolve C L' r loc = MM.resolve C L r loc :=
        hg.resolve hc fun hh => hx loc (.self l loc loc hn hl (by unfold target; rw [hh]; rfl))
      have ht : textAt C L' r loc = textAt C L r loc := by unfold textAt; rw [hres]
      have hj : jsonAt C L' r loc = jsonAt C L r loc := by unfold jsonAt; rw [ht]
      have htr : treeAt C L' r loc = treeAt C L r loc := by unfold treeAt; rw [hres]
      have hd : decode C L' r l.kind loc = decode C L r l.kind loc := by
        by_cases hk : l.kind = .metadata
        · rw [hk]
          simp only [decode, ht]
          cases hte : textAt C L r loc with
          | error e => rfl
          | ok s =>
            cases hre : Ref.fromText C.floats s with
            | error e => simp [hre, bind, Except.bind]
            | ok ref =>
              simp only [hre, bind, Except.bind]
              cases hrl : ref.loc with
              | none => rfl
              | some loc' =>
                have hres' : MM.resolve C L' r loc' = MM.resolve C L r loc' :=
                  hg.resolve hc fun _ => hx loc' (.inner l loc s ref loc' hk hn hl hte hre hrl)
                have ht' : textAt C L' r loc' = textAt C L r loc' := by unfold textAt; rw [hres']
                simp only [ht']
        · unfold decode
          cases hkk : l.kind with
          | metadata => exact absurd hkk hk
          | _ => simp only [ht, hj, htr]
      have hf : fetch C L' r l.kind l.ref = fetch C L r l.kind l.ref := by
        unfold fetch; rw [hn, hl]; simp only [hd]
      have hi : innerDirect C L' r l.kind l.ref = innerDirect C L r l.kind l.ref := by
        unfold innerDirect; rw [hn, hl]; simp only [ht]
      unfold MM.strictFetch
      rw [hf, hi]

theorem fetch_of_strict {L : Log} {k : Kind} {ref : Ref} {b : Body Link} (h : strictFetch C L r k ref = .ok b) :
    fetch C L r k ref = .ok b := by
  unfold strictFetch at h
  cases hf : fetch C L r k ref with
  | error e => rw [hf] at h; cases h
  | ok b' =>
    rw [hf] at h
    simp only at h
    split at h
    · exact h
    · cases h

theorem Collected.look {L L' : Log} (hg : Collected C r L L') (hc : CollisionFree C L) (hp hp' : Heap) : ∀ (ks : List Key) (t : Str) (l : Link),
    (∀ x, Needs C L r l x → Reachable C L r x) → look C L' hp' ks t (.sto r l) = look C L hp ks t (.sto r l) := by
  have hview : ∀ l : Link, (∀ x, Needs C L r l x → Reachable C L r x) → view C L' hp' (.sto r l) = view C L hp (.sto r l) := by
    intro l hl
    simp only [view]
    rw [hg.strictFetch hc hl]
  intro ks
  induction ks with
  | nil => intro t l hl; simp only [MM.look]; rw [hview l hl]
  | cons k ks ih =>
    intro t l hl
    simp only [MM.look]
    rw [hview l hl]
    cases hv : view C L hp (.sto r l) with
    | error e => rfl
    | ok b =>
      simp only
      cases hd : dget b.kids k with
      | none => rfl
      | some tc =>
        obtain ⟨t', c⟩ := tc
        simp only
        simp only [view] at hv
        cases hf : MM.strictFetch C L r l.kind l.ref with
        | error e => rw [hf] at hv; cases hv
        | ok b0 =>
          rw [hf] at hv
          cases hv
          obtain ⟨e, he, hee⟩ := List.mem_map.mp (mem_of_dget hd)
          cases hee
          have hsub : ∀ x, Needs C L r e.2.2 x → Reachable C L r x :=
            fun x hx => hl x (.part l b0 e x (fetch_of_strict hf) he hx)
          rw [hview _ hsub]
          cases view C L hp (.sto r e.2.2) with
          | error e => rfl
          | ok b' =>
            simp only
            split
            · rfl
            · exact ih _ e.2.2 hsub

/-- So garbage collection does not change what is read from a top-level object without root
records in version lists: at every depth, everything is as before. -/
theorem C43_collected_partial (hr : r ≠ []) {w : World} {ks : List Link} (h : Lifetime C r w ks) (hp : w.refs = []) {l : Link}
    (hl : TopLevel l) (hno : NoRecords C w.repo.log r l) {L' : Log} (hg : Collected C r w.repo.log L') (m m' : Heap) :
    SameContent C L' m' (.sto r l) w.repo.log m (.sto r l) :=
  fun ks t => hg.look (h.guarded hr).distinct m m' ks t l fun _ hx => C43_no_records_partial hr h hp hl hno hx

end

/-! ### Examples -/

theorem lifetime_populate {C : Cfg} {r : Realm} {ks : List Link} (bs : List (Body ObjId)) : ∀ {w : World}, Lifetime C r w ks →
    Lifetime C r (populate w bs) ks := by
  induction bs with
  | nil => intro w h; exact h
  | cons b bs ih => intro w h; exact ih (Lifetime.new w ks b h)

theorem lifetime_start {C : Cfg} {r : Realm} : Lifetime C r (start ⟨[], []⟩) [] :=
  Lifetime.start _ rfl rfl (fun _ => rfl) (fun o h => by cases h) (fun _ => rfl) (fun _ _ _ h => by cases h)

/-- The flush after the write of an object of the examples -/
def flushAfter (x : Except PyErr Ref × World) (r : Realm) : Except PyErr Unit × RefState :=
  flush sampleCfg r ⟨x.2.repo, x.2.refs, []⟩

/-- The tree version list of the examples is written, and the object references are flushed. -/
def flushedWorld : World :=
  { sampleWrite.2 with repo := (flushAfter sampleWrite sampleRealm).2.repo, refs := (flushAfter sampleWrite sampleRealm).2.cached }

theorem flushedWorld_ok : rOk (flushAfter sampleWrite sampleRealm) = some () := by decide +kernel
theorem flushedWorld_distinct : distinctHashes sampleCfg (flushAfter sampleWrite sampleRealm).2.repo.log = true := by decide +kernel

theorem flushedWorld_quiet : sampleWrite.2.repo.faults = [] := by decide +kernel

theorem flushedWorld_lifetime : ∃ ks, Lifetime sampleCfg sampleRealm flushedWorld ks := by
  have hw : writeAs sampleCfg .own 20 (some sampleRealm) false 6 sampleWorld = (.ok (okRef sampleWrite), sampleWrite.2) := sampleWrite_ok
  have h1 : Lifetime sampleCfg sampleRealm sampleWrite.2 _ :=
    Lifetime.write _ _ .own 20 false 6 _ _ (lifetime_populate _ lifetime_start) hw
      sampleWrite_distinct (sample_storable (by decide)) (fun h => absurd rfl h)
  refine ⟨_, Lifetime.flush _ _ [] _ h1 (of_rOk flushedWorld_ok) (fun k h => ?_) (collisionFree_of_check flushedWorld_distinct)⟩
  simp only [flushedWorld_quiet] at h
  revert h
  simp

/-- Hashes that are needed, down to a depth -/
def needsList (C : Cfg) (L : Log) (r : Realm) : Nat → Link → List Str
  | 0, _ => []
  | n + 1, l => if l.ref.isNone then [] else match l.ref.loc with
    | none => []
    | some loc => (target L r loc).toList ++
      (if l.kind = .metadata then match textAt C L r loc with
        | .error _ => []
        | .ok s => match Ref.fromText C.floats s with
          | .error _ => []
          | .ok ref => ref.loc.toList
      else []) ++
      match fetch C L r l.kind l.ref with
      | .error _ => []
      | .ok b => b.kids.flatMap fun e => needsList C L r n e.2.2

theorem needsList_sound {C : Cfg} {L : Log} {r : Realm} {x : Str} : ∀ (n : Nat) (l : Link), x ∈ needsList C L r n l → Needs C L r l x := by
  intro n
  induction n with
  | zero => intro l h; cases h
  | succ n ih =>
    intro l h
    unfold needsList at h
    split at h
    · cases h
    · rename_i hn
      simp only [Bool.not_eq_true] at hn
      split at h
      · cases h
      · rename_i loc hl
        rcases List.mem_append.mp h with h | h
        · rcases List.mem_append.mp h with h | h
          · exact .self l loc x hn hl (by simpa using h)
          · split at h
            · rename_i hk
              split at h
              · cases h
              · rename_i s hs
                split at h
                · cases h
                · rename_i ref hr
                  exact .inner l loc s ref x hk hn hl hs hr (by simpa using h)
            · cases h
        · split at h
          · cases h
          · rename_i b hb
            obtain ⟨e, he, hx⟩ := List.mem_flatMap.mp h
            exact .part l b e x hb he (ih _ hx)

/-- A set of hashes that holds the targets of all names and the entries of its trees -/
def closedCheck (C : Cfg) (L : Log) (r : Realm) (S : List Str) : Bool :=
  (L.all fun op => match op with
    | .setRef r' _ h => decide (r' = r → h ∈ S)
    | _ => true) &&
  S.all fun h => match findObj C L r h with
    | some (.tree es) => es.all fun e => decide (e.hash ∈ S)
    | _ => true

theorem refOf_setRef {L : Log} {r : Realm} {n h : Str} (hr : refOf L r n = some h) : GitOp.setRef r n h ∈ L := by
  induction L with
  | nil => cases hr
  | cons op L ih =>
    cases op with
    | save r' o => exact List.mem_cons_of_mem _ (ih hr)
    | setRef r' n' h' =>
      simp only [refOf] at hr
      split at hr
      · rename_i he
        obtain ⟨rfl, rfl⟩ := he
        cases hr
        exact List.mem_cons_self ..
      · exact List.mem_cons_of_mem _ (ih hr)
    | delRef r' n' =>
      simp only [refOf] at hr
      split at hr
      · cases hr
      · exact List.mem_cons_of_mem _ (ih hr)

theorem reachable_closed {C : Cfg} {L : Log} {r : Realm} {S : List Str} (hS : closedCheck C L r S = true) {x : Str}
    (hx : Reachable C L r x) : x ∈ S := by
  simp only [closedCheck, Bool.and_eq_true, List.all_eq_true] at hS
  induction hx with
  | named n h hr =>
    have := hS.1 _ (refOf_setRef hr)
    simpa using this
  | entry h es e _ hf he ih =>
    have := hS.2 h ih
    rw [hf] at this
    simp only [List.all_eq_true, decide_eq_true_eq] at this
    exact this e he

/-- The hashes that git reaches in a repository in which all trees in the log are taken for reached -/
def treesAndNames (L : Log) (r : Realm) : List Str :=
  L.flatMap fun op => match op with
    | .setRef r' _ h => if r' = r then [h] else []
    | .save r' (.tree es) => if r' = r then es.map TreeEntry.hash else []
    | _ => []

/-- What reading the tree version list of the examples takes: nine hashes, one of them the hash of
the metadata of the file `a/b`. -/
theorem flushedWorld_needs : (needsList sampleCfg flushedWorld.repo.log sampleRealm 9 tvlLink).length = 9 ∧
    sampleHash (.blob ((sampleSets 2).toText FloatText.sample)) ∈ needsList sampleCfg flushedWorld.repo.log sampleRealm 9 tvlLink := by
  decide +kernel

theorem flushedWorld_kinds : (match fetch sampleCfg flushedWorld.repo.log sampleRealm .tvl tvlLink.ref with
    | .ok b => b.kids.all fun e => decide (e.2.2.kind ≠ .mrr)
    | .error _ => false) = true := by
  decide +kernel

theorem flushedWorld_trees : ∀ b, fetch sampleCfg flushedWorld.repo.log sampleRealm .tvl tvlLink.ref = .ok b →
    ∀ e ∈ b.kids, e.2.2.kind ≠ .mrr := by
  intro b hb e he
  have := flushedWorld_kinds
  rw [hb] at this
  simp only [List.all_eq_true, decide_eq_true_eq] at this
  exact this e he

/-- Git reaches this metadata. -/
example : Reachable sampleCfg flushedWorld.repo.log sampleRealm (sampleHash (.blob ((sampleSets 2).toText FloatText.sample))) := by
  obtain ⟨ks, h⟩ := flushedWorld_lifetime
  exact C43_tree_versions_partial (cls := c!"TreeVersionList") (by decide) h (by decide +kernel) flushedWorld_trees (needsList_sound 9 tvlLink flushedWorld_needs.2)

/-- Somebody stores a blob; nothing refers to it. -/
def litterWorld : World := outside (.save sampleRealm (.blob c!"x") :: flushedWorld.repo.log) [] flushedWorld

theorem litter_facts : distinctHashes sampleCfg litterWorld.repo.log = true ∧ litterWorld.refs = [] ∧
    closedCheck sampleCfg litterWorld.repo.log sampleRealm (treesAndNames litterWorld.repo.log sampleRealm) = true ∧
    sampleHash (.blob c!"x") ∉ treesAndNames litterWorld.repo.log sampleRealm ∧
    (match fetch sampleCfg litterWorld.repo.log sampleRealm .tvl tvlLink.ref with
    | .ok b => b.kids.all fun e => decide (e.2.2.kind ≠ .mrr)
    | .error _ => false) = true := by
  decide +kernel

theorem collected_litter {C : Cfg} {r : Realm} {L : Log} {o : GitObj} {S : List Str} (h1 : closedCheck C (.save r o :: L) r S = true)
    (h2 : C.hash o ∉ S) : Collected C r (.save r o :: L) L := by
  refine ⟨fun _ => rfl, fun o ho => List.mem_cons_of_mem _ ho, fun o' ho hre => ?_⟩
  rcases List.mem_cons.mp ho with he | he
  · cases he
    exact absurd (reachable_closed h1 hre) h2
  · exact he

theorem lifetime_litter {C : Cfg} {r : Realm} {w : World} {ks : List Link} (hr : r ≠ []) (h : Lifetime C r w ks) (s : Str)
    (hc : CollisionFree C (.save r (.blob s) :: w.repo.log)) : Lifetime C r (outside (.save r (.blob s) :: w.repo.log) [] w) ks := by
  refine Lifetime.outside _ ks _ [] h (fun x o ho => List.mem_cons_of_mem _ ho) (fun _ _ => rfl) hc fun es hes => ?_
  rcases List.mem_cons.mp hes with he | he
  · cases he
  · exact (h.guarded hr).wells es he

/-- Garbage collection removes it, and what is read from the list stays. -/
example : SameContent sampleCfg flushedWorld.repo.log sampleWorld.heap (.sto sampleRealm tvlLink)
    litterWorld.repo.log sampleWorld.heap (.sto sampleRealm tvlLink) := by
  obtain ⟨h1, h2, h3, h4, h5⟩ := litter_facts
  have hcol : Collected sampleCfg sampleRealm litterWorld.repo.log flushedWorld.repo.log := collected_litter h3 h4
  obtain ⟨ks, h⟩ := flushedWorld_lifetime
  have hl : Lifetime sampleCfg sampleRealm litterWorld ks := lifetime_litter (by decide) h _ (collisionFree_of_check h1)
  refine C43_collected_partial (by decide) hl h2 (Or.inl ⟨rfl, rfl⟩) (noRecords_of_trees (ref := tvlLink.ref) fun b hb e he => ?_) hcol _ _
  rw [hb] at h5
  simp only [List.all_eq_true, decide_eq_true_eq] at h5
  exact h5 e he

/-- The dataset tree of the examples is written through its class. -/
def treeSave : Except PyErr Ref × World := writeAs sampleCfg .dataset 20 (some sampleRealm) false 5 sampleWorld

theorem treeSave_ok : isOk treeSave = true ∧ rOk (flushAfter treeSave sampleRealm) = some () ∧ treeSave.2.repo.faults = [] ∧
    distinctHashes sampleCfg treeSave.2.repo.log = true ∧ distinctHashes sampleCfg (flushAfter treeSave sampleRealm).2.repo.log = true := by
  decide +kernel

/-- It meets the hypotheses of the theorem on trees. -/
example (x : Str) (hx : Needs sampleCfg (flushAfter treeSave sampleRealm).2.repo.log sampleRealm ⟨.mtree .mrr, okRef treeSave⟩ x) :
    Reachable sampleCfg (flushAfter treeSave sampleRealm).2.repo.log sampleRealm x := by
  obtain ⟨h1, h2, h3, h4, h5⟩ := treeSave_ok
  have hw : writeAs sampleCfg .dataset 20 (some sampleRealm) false 5 sampleWorld = (.ok (okRef treeSave), treeSave.2) := of_isOk h1
  have hl : Lifetime sampleCfg sampleRealm sampleWorld [] := lifetime_populate _ lifetime_start
  have hk : (sampleWorld.heap 5).kind = .mtree .mrr := by decide
  have hf : flush sampleCfg sampleRealm ⟨treeSave.2.repo, treeSave.2.refs, []⟩ = (.ok (), (flushAfter treeSave sampleRealm).2) := of_rOk h2
  have hc : CollisionFree sampleCfg (flushAfter treeSave sampleRealm).2.repo.log := collisionFree_of_check h5
  have hc' : CollisionFree sampleCfg treeSave.2.repo.log := collisionFree_of_check h4
  refine C43_trees_partial (by decide) hl (by simp) hk hw (sample_storable (by decide)) hf (fun k h => ?_) hc hc' hx
  simp only [h3] at h
  revert h
  simp

/-- The UUID set of the examples is written. -/
def recordSave : Except PyErr Ref × World := writeAs sampleCfg .own 20 (some sampleRealm) false 8 sampleWorld

/-- The object references are flushed. -/
def recordWorld : World :=
  { recordSave.2 with repo := (flushAfter recordSave sampleRealm).2.repo, refs := (flushAfter recordSave sampleRealm).2.cached }

theorem recordSave_ok : isOk recordSave = true ∧ rOk (flushAfter recordSave sampleRealm) = some () ∧ recordSave.2.repo.faults = [] ∧
    distinctHashes sampleCfg recordSave.2.repo.log = true ∧ distinctHashes sampleCfg (flushAfter recordSave sampleRealm).2.repo.log = true ∧ recordWorld.refs = [] := by
  decide +kernel

theorem recordWorld_lost : closedCheck sampleCfg recordWorld.repo.log sampleRealm (treesAndNames recordWorld.repo.log sampleRealm) = true ∧
    ∃ x ∈ needsList sampleCfg recordWorld.repo.log sampleRealm 9 uuidSetLink, x ∉ treesAndNames recordWorld.repo.log sampleRealm := by
  decide +kernel

/-- C43 is false for root records that are elements of version lists: a UUID set with a version
list with a root record is written and the object references are flushed, but git does not reach
the root record.  So garbage collection removes it. -/
theorem C43_false : ∃ (C : Cfg) (r : Realm) (w : World) (ks : List Link) (l : Link) (x : Str), Lifetime C r w ks ∧ w.refs = [] ∧
    TopLevel l ∧ Needs C w.repo.log r l x ∧ ¬ Reachable C w.repo.log r x := by
  obtain ⟨h1, h2, h3, h4, h5, h6⟩ := recordSave_ok
  obtain ⟨g1, x, g2, g3⟩ := recordWorld_lost
  have hw : writeAs sampleCfg .own 20 (some sampleRealm) false 8 sampleWorld = (.ok (okRef recordSave), recordSave.2) := of_isOk h1
  have hl : Lifetime sampleCfg sampleRealm recordSave.2 _ :=
    Lifetime.write _ _ .own 20 false 8 _ _ (lifetime_populate _ lifetime_start) hw
      (collisionFree_of_check h4) (sample_storable (by decide)) (fun h => absurd rfl h)
  refine ⟨sampleCfg, sampleRealm, recordWorld, _, uuidSetLink, x, Lifetime.flush _ _ [] _ hl (of_rOk h2) (fun k h => ?_) (collisionFree_of_check h5),
    h6, Or.inr ⟨rfl, rfl⟩, needsList_sound 9 _ g2, fun hr => g3 (reachable_closed g1 hr)⟩
  simp only [h3] at h
  revert h
  simp

/-- The tree version list of the examples is written to one repository, then the object references
of another one are flushed. -/
def otherFlush : Except PyErr Unit × RefState := flushAfter sampleWrite c!"/other"

/-- Now those of the first are flushed. -/
def ownFlush : Except PyErr Unit × RefState := flush sampleCfg sampleRealm otherFlush.2

theorem ownFlush_ok : rOk otherFlush = some () ∧ rOk ownFlush = some () ∧ ownFlush.2.cached = [] := by decide +kernel

theorem ownFlush_lost : closedCheck sampleCfg ownFlush.2.repo.log sampleRealm (treesAndNames ownFlush.2.repo.log sampleRealm) = true ∧
    ∃ x ∈ needsList sampleCfg ownFlush.2.repo.log sampleRealm 9 tvlLink, x ∉ treesAndNames ownFlush.2.repo.log sampleRealm := by
  decide +kernel

/-- C43 is false with two repositories: the pending object references are not kept by repository.
A tree version list is written to one repository, the object references of another repository are
flushed, then those of the first one.  All succeeds, and git does not reach what is needed. -/
theorem C43_other_false : ∃ (C : Cfg) (r r' : Realm) (w w' : World) (n : Nat) (i : ObjId) (ref : Ref) (s s' : RefState) (x : Str),
    r ≠ r' ∧ Lifetime C r w [] ∧ writeAs C .own n (some r) false i w = (.ok ref, w') ∧
    flush C r' ⟨w'.repo, w'.refs, []⟩ = (.ok (), s) ∧ flush C r s = (.ok (), s') ∧ s'.cached = [] ∧
    Needs C s'.repo.log r tvlLink x ∧ ¬ Reachable C s'.repo.log r x := by
  obtain ⟨h1, h2, h3⟩ := ownFlush_ok
  obtain ⟨g1, x, g2, g3⟩ := ownFlush_lost
  exact ⟨sampleCfg, sampleRealm, c!"/other", sampleWorld, sampleWrite.2, 20, 6, _, otherFlush.2, ownFlush.2, x, by decide,
    lifetime_populate _ lifetime_start, sampleWrite_ok, of_rOk h1, of_rOk h2, h3, needsList_sound 9 _ g2,
    fun hr => g3 (reachable_closed g1 hr)⟩

end MM
