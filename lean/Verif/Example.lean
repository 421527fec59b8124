/-
A configuration, a set of objects and a repository for the examples next to the
theorems.
-/
import Verif.Session

namespace MM

/-- A hexadecimal digit -/
def hexOf (n : Nat) : Char := "0123456789abcdef".toList.getD (n % 16) '0'

/-- Digits of a number -/
def hexDigits (n : Nat) : Str :=
  [hexOf n, hexOf (n / 16), hexOf (n / 256), hexOf (n / 4096), hexOf (n / 65536),
   hexOf (n / 1048576), hexOf (n / 16777216), hexOf (n / 268435456)]

/-- A number for a string -/
def digest (s : Str) : Nat := s.foldl (fun a c => (a * 31 + c.toNat) % 4294967291) 7

/-- The number of an object for the examples -/
def objDigest : GitObj → Nat
  | .blob s => digest s
  | .tree es => digest (c!"tree" ++ treeSpec es)

/-- A hash for the examples -/
def sampleHash (o : GitObj) : Str := hexDigits (objDigest o) ++ List.replicate 32 '0'

theorem hexOf_valid (n : Nat) : (hexVal (hexOf n)).isSome = true := by
  unfold hexOf
  have : n % 16 < 16 := Nat.mod_lt _ (by decide)
  generalize n % 16 = m at this
  revert m
  decide

theorem sampleHash_valid (o : GitObj) : isHash (sampleHash o) = true := by
  unfold sampleHash hexDigits isHash
  simp [hexOf_valid]
  decide

/-- A configuration for the examples -/
def sampleCfg : Cfg where
  hash := sampleHash
  valid := sampleHash_valid
  floats := FloatText.sample
  maxsize := 1
  stdin := []

/-- A process that has just been started. -/
def start (s : Repo) : World := ⟨fun _ => Obj.new (Body.empty .text), 0, s, [], []⟩

/-- Create objects with the given contents, one after the other. -/
def populate (w : World) (bs : List (Body ObjId)) : World :=
  bs.foldl (fun w b => create (Obj.new b) w) w

/-- The parts of an object are created before it. -/
def partsFirst : ObjId → List (Body ObjId) → Bool
  | _, [] => true
  | n, b :: bs => b.subs.all (fun k => decide (k < n)) && partsFirst (n + 1) bs

theorem session_populate {C : Cfg} {r : Realm} (bs : List (Body ObjId)) : ∀ {w : World}, Session C r w →
    (∀ j, (w.heap j).savedOn = []) → partsFirst w.next bs = true →
    Session C r (populate w bs) ∧ ∀ j, ((populate w bs).heap j).savedOn = [] := by
  induction bs with
  | nil => intro w hs h0 _; exact ⟨hs, h0⟩
  | cons b bs ih =>
    intro w hs h0 hp
    simp only [partsFirst, Bool.and_eq_true, List.all_eq_true, decide_eq_true_eq] at hp
    have hsv : ∀ j, ((create (Obj.new b) w).heap j).savedOn = [] := by
      intro j
      by_cases hj : j = w.next
      · subst hj; rw [create_self]; rfl
      · rw [create_ne _ _ hj]; exact h0 j
    refine ih (w := create (Obj.new b) w) (Session.new w b hs hp.1 ?_) hsv hp.2
    intro p hp'
    rw [hsv] at hp'; cases hp'

theorem session_start {C : Cfg} {r : Realm} (s : Repo) : Session C r (start s) :=
  Session.start _ rfl rfl fun _ => rfl

/-- Metadata of a run of an extractor, for the examples. -/
def sampleSets (n : Int) : Sets :=
  Sets.addRun [] c!"ext" ⟨.int n, .str c!"name", .str c!"mail", ⟨.str c!"1.0", []⟩, .obj [(c!"v", .int n)]⟩

/-- A dataset id for the examples -/
def sampleUuid : Uuid := ⟨1, by decide⟩

/-- Objects for the examples: a root record (4) with dataset-level metadata (0) and
a file tree (3) with metadata (1) at the path `a/b`; a dataset tree (5) and a
version list (7) with this root record; a tree version list (6) and a UUID set (8). -/
def sampleBodies : List (Body ObjId) :=
  [⟨.metadata (sampleSets 1), []⟩,
   ⟨.metadata (sampleSets 2), []⟩,
   ⟨.mtree .metadata, [(.name c!"b", [], 1)]⟩,
   ⟨.mtree .metadata, [(.name c!"a", [], 2)]⟩,
   ⟨.mrr (some sampleUuid) (some c!"v1"), [(.dlm, [], 0), (.ft, [], 3)]⟩,
   ⟨.mtree .mrr, [(.name c!".datalad_metadata", [], 4)]⟩,
   ⟨.tvl, [(.ver c!"v1" ⟨[], []⟩, c!"0.1", 5)]⟩,
   ⟨.vlist, [(.ver c!"v1" ⟨[], []⟩, c!"0.1", 4)]⟩,
   ⟨.uuidset, [(.uuid sampleUuid, [], 7)]⟩]

/-- The repository of the examples -/
def sampleRealm : Realm := c!"/repo"

/-- A process with these objects and an empty repository -/
def sampleWorld : World := populate (start ⟨[], []⟩) sampleBodies

/-- Check that no two stored objects have the same hash. -/
def distinctHashes (C : Cfg) (L : Log) : Bool :=
  L.all fun a => L.all fun b => match a, b with
    | .save r o, .save r' o' => decide (r = r' → C.hash o = C.hash o' → o = o')
    | _, _ => true

theorem collisionFree_of_check {C : Cfg} {L : Log} (h : distinctHashes C L = true) :
    CollisionFree C L := by
  intro r o o' h1 h2 h3
  simp only [distinctHashes, List.all_eq_true] at h
  have := h _ h1 _ h2
  simp only [decide_eq_true_eq] at this
  exact this trivial h3

/-- The reference returned by code that succeeds -/
def okRef (x : Except PyErr Ref × World) : Ref := match x.1 with
  | .ok ref => ref
  | .error _ => Ref.noneRef []

/-- The code succeeds. -/
def isOk {α : Type} (x : Except PyErr α × World) : Bool := match x.1 with
  | .ok _ => true
  | .error _ => false

theorem of_isOk {x : Except PyErr Ref × World} (h : isOk x = true) : x = (.ok (okRef x), x.2) := by
  obtain ⟨x1, x2⟩ := x
  cases x1 with
  | ok a => rfl
  | error e => cases h

/-- The result of a call that succeeds -/
def okVal {α : Type} (x : Except PyErr α × World) : Option α := match x.1 with
  | .ok a => some a
  | .error _ => none

theorem of_okVal {α : Type} {x : Except PyErr α × World} {a : α} (h : okVal x = some a) :
    x = (.ok a, x.2) := by
  obtain ⟨x1, x2⟩ := x
  cases x1 with
  | ok b => cases h; rfl
  | error e => cases h

/-- The error of a call that fails -/
def errOf {α : Type} (x : Except PyErr α × World) : Option PyErr := match x.1 with
  | .ok _ => none
  | .error e => some e

theorem of_errOf {α : Type} {x : Except PyErr α × World} {e : PyErr} (h : errOf x = some e) :
    x = (.error e, x.2) := by
  obtain ⟨x1, x2⟩ := x
  cases x1 with
  | ok a => cases h
  | error e' => cases h; rfl

theorem sample_session : Session sampleCfg sampleRealm sampleWorld ∧
    ∀ j, (sampleWorld.heap j).savedOn = [] :=
  session_populate sampleBodies (session_start _) (fun _ => rfl) (by decide)

theorem sample_alone (i : ObjId) : Alone sampleRealm sampleWorld.heap i := by
  intro nm _ j _ ref _ _
  rw [sample_session.2 j]
  refine ⟨by simp, Or.inl ?_⟩
  have : ∀ (bs : List (Body ObjId)) (w : World), (∀ j, (w.heap j).mapped = true) →
      ∀ j, ((populate w bs).heap j).mapped = true := by
    intro bs
    induction bs with
    | nil => intro w h; exact h
    | cons b bs ih =>
      intro w h
      refine ih _ fun j => ?_
      by_cases hj : j = w.next
      · subst hj; rw [create_self]; rfl
      · rw [create_ne _ _ hj]; exact h j
  exact this sampleBodies _ (fun _ => rfl) j

theorem sample_noStaleParent (i : ObjId) : NoStaleParent sampleRealm sampleWorld.heap i := by
  intro p hp
  rw [sample_session.2] at hp; cases hp

/-- Reachable objects are in a set that holds the parts of its elements. -/
theorem reach_closed {h : Heap} {S : ObjId → Prop} (hS : ∀ p, S p → (h p).mapped = true →
    ∀ k ∈ (h p).body.subs, S k) {i j : ObjId} (hr : Reach h i j) (hi : S i) : S j := by
  induction hr with
  | refl => exact hi
  | step i k j hm hk _ ih => exact ih (hS i hi hm k hk)

theorem wf_sampleSets (n : Int) : (sampleSets n).WF := by
  have e : sampleSets n = [(c!"ext", ⟨[⟨.str c!"1.0", []⟩],
      [(0, ⟨.int n, .str c!"name", .str c!"mail", ⟨.str c!"1.0", []⟩, .obj [(c!"v", .int n)]⟩)]⟩)] := rfl
  rw [e]
  simp [Sets.WF, InstanceSet.WF, Instance.WF, Config.WF, Json.WF, Json.WFObj, dkeys]

theorem sample_storable {i : ObjId} (hi : i < 9) : Storable sampleWorld.heap i := by
  intro j hr _
  have hj : j < 9 := by
    refine reach_closed (S := fun p => p < 9) ?_ hr hi
    have : ∀ p, p < 9 → ∀ k ∈ (sampleWorld.heap p).body.subs, k < 9 := by decide +kernel
    exact fun p hp _ k hk => this p hp k hk
  have hcan : Canonical ⟨[], []⟩ := by constructor <;> simp
  have hj' : j = 0 ∨ j = 1 ∨ j = 2 ∨ j = 3 ∨ j = 4 ∨ j = 5 ∨ j = 6 ∨ j = 7 ∨ j = 8 := by oomega
  have slots : ∀ (b : Body ObjId), (∀ x ∈ b.kids.map (fun e => (e.1, e.2.1, (sampleWorld.heap e.2.2).kind)),
      SlotOk b.data.kind x.1 x.2.1 x.2.2) →
      ∀ e ∈ b.kids, SlotOk b.data.kind e.1 e.2.1 (sampleWorld.heap e.2.2).kind :=
    fun b hb e he => hb _ (List.mem_map_of_mem he)
  rcases hj' with rfl | rfl | rfl | rfl | rfl | rfl | rfl | rfl | rfl
  · exact ⟨wf_sampleSets 1, List.nodup_nil, by intro e he; cases he⟩
  · exact ⟨wf_sampleSets 2, List.nodup_nil, by intro e he; cases he⟩
  · refine ⟨trivial, by decide +kernel, slots _ ?_⟩
    intro x hx
    rw [show List.map _ _ = [(Key.name c!"b", [], Kind.metadata)] from rfl, List.mem_singleton] at hx
    subst hx
    exact ⟨rfl, ⟨by decide, by decide, by decide, by decide⟩, Or.inr rfl⟩
  · refine ⟨trivial, by decide +kernel, slots _ ?_⟩
    intro x hx
    rw [show List.map _ _ = [(Key.name c!"a", [], Kind.mtree .metadata)] from rfl, List.mem_singleton] at hx
    subst hx
    exact ⟨rfl, ⟨by decide, by decide, by decide, by decide⟩, Or.inl rfl⟩
  · refine ⟨⟨⟨_, rfl⟩, ⟨_, rfl⟩⟩, by decide +kernel, slots _ ?_⟩
    intro x hx
    rw [show List.map _ _ = [(Key.dlm, [], Kind.metadata), (Key.ft, [], Kind.mtree .metadata)] from rfl] at hx
    simp only [List.mem_cons, List.not_mem_nil, or_false] at hx
    rcases hx with rfl | rfl
    · exact ⟨rfl, rfl⟩
    · exact ⟨rfl, rfl⟩
  · refine ⟨trivial, by decide +kernel, slots _ ?_⟩
    intro x hx
    rw [show List.map _ _ = [(Key.name c!".datalad_metadata", [], Kind.mrr)] from rfl,
      List.mem_singleton] at hx
    subst hx
    exact ⟨rfl, ⟨by decide, by decide, by decide, by decide⟩, Or.inr rfl⟩
  · refine ⟨trivial, by decide +kernel, slots _ ?_⟩
    intro x hx
    rw [show List.map _ _ = [(Key.ver c!"v1" ⟨[], []⟩, c!"0.1", Kind.mtree .mrr)] from rfl,
      List.mem_singleton] at hx
    subst hx
    exact ⟨hcan, Or.inl rfl⟩
  · refine ⟨trivial, by decide +kernel, slots _ ?_⟩
    intro x hx
    rw [show List.map _ _ = [(Key.ver c!"v1" ⟨[], []⟩, c!"0.1", Kind.mrr)] from rfl,
      List.mem_singleton] at hx
    subst hx
    exact ⟨hcan, Or.inr rfl⟩
  · refine ⟨trivial, by decide +kernel, slots _ ?_⟩
    intro x hx
    rw [show List.map _ _ = [(Key.uuid sampleUuid, [], Kind.vlist)] from rfl, List.mem_singleton] at hx
    subst hx
    exact ⟨rfl, rfl⟩

/-- Writing the tree version list of the example -/
def sampleWrite : Except PyErr Ref × World :=
  writeAs sampleCfg .own 20 (some sampleRealm) false 6 sampleWorld

theorem sampleWrite_ok : writeAs sampleCfg .own 20 (some sampleRealm) false 6 sampleWorld =
    (.ok (okRef sampleWrite), sampleWrite.2) := of_isOk (by decide +kernel)

theorem sampleWrite_distinct : CollisionFree sampleCfg sampleWrite.2.repo.log :=
  collisionFree_of_check (by decide +kernel)

theorem sampleWrite_session : Session sampleCfg sampleRealm sampleWrite.2 :=
  Session.write _ _ _ _ _ _ _ sample_session.1 sampleWrite_ok sampleWrite_distinct
    (sample_storable (by decide)) (sample_alone _) (sample_noStaleParent _)

end MM
