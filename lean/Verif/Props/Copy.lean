/-
C23, C24 and C33: copying objects to another repository.

`deepcopy C n (some r) pre i` in `Classes.lean` copies the object `i` to the repository
`r`; `pre` is the prefix for the paths of versions, `metadataPath [[]]` is no prefix.
The specification is `SameContent` and `look` in `Content.lean`, see `Props/Session.lean`.
-/
import Verif.CopyDone
import Verif.Props.Maps

namespace MM

variable {C : Cfg} {r : Realm}

/-! ### Reading from one repository -/

/-- What is left of the repositories if all but one are lost. -/
def only (r : Realm) (L : Log) : Log := L.filter fun op => decide (op.realm = r)

theorem findObj_only (L : Log) (h : Str) : findObj C (only r L) r h = findObj C L r h := by
  induction L with
  | nil => rfl
  | cons op L ih =>
    unfold only at ih ⊢
    cases op with
    | save r' o =>
      by_cases e : r' = r
      · rw [List.filter_cons_of_pos (by simp [GitOp.realm, e])]
        simp only [findObj, ih]
      · rw [List.filter_cons_of_neg (by simp [GitOp.realm, e]), ih]
        simp [findObj, e]
    | setRef r' n h' =>
      by_cases e : r' = r
      · rw [List.filter_cons_of_pos (by simp [GitOp.realm, e])]
        simp only [findObj, ih]
      · rw [List.filter_cons_of_neg (by simp [GitOp.realm, e]), ih]
        simp [findObj]
    | delRef r' n =>
      by_cases e : r' = r
      · rw [List.filter_cons_of_pos (by simp [GitOp.realm, e])]
        simp only [findObj, ih]
      · rw [List.filter_cons_of_neg (by simp [GitOp.realm, e]), ih]
        simp [findObj]

theorem refOf_only (L : Log) (n : Str) : refOf (only r L) r n = refOf L r n := by
  induction L with
  | nil => rfl
  | cons op L ih =>
    unfold only at ih ⊢
    cases op with
    | save r' o =>
      by_cases e : r' = r
      · rw [List.filter_cons_of_pos (by simp [GitOp.realm, e])]
        simp only [refOf, ih]
      · rw [List.filter_cons_of_neg (by simp [GitOp.realm, e]), ih]
        simp [refOf]
    | setRef r' n' h' =>
      by_cases e : r' = r
      · rw [List.filter_cons_of_pos (by simp [GitOp.realm, e])]
        simp only [refOf, ih]
      · rw [List.filter_cons_of_neg (by simp [GitOp.realm, e]), ih]
        simp [refOf, e]
    | delRef r' n' =>
      by_cases e : r' = r
      · rw [List.filter_cons_of_pos (by simp [GitOp.realm, e])]
        simp only [refOf, ih]
      · rw [List.filter_cons_of_neg (by simp [GitOp.realm, e]), ih]
        simp [refOf, e]

theorem resolve_only (L : Log) (loc : Str) : resolve C (only r L) r loc = resolve C L r loc := by
  unfold resolve
  rw [findObj_only, refOf_only]
  cases refOf L r loc with
  | none => rfl
  | some h => simp only [findObj_only]

theorem strictFetch_only (L : Log) (k : Kind) (ref : Ref) :
    strictFetch C (only r L) r k ref = strictFetch C L r k ref := by
  have ht : ∀ l, textAt C (only r L) r l = textAt C L r l := fun l => by unfold textAt; rw [resolve_only]
  have ht' : ∀ l, treeAt C (only r L) r l = treeAt C L r l := fun l => by unfold treeAt; rw [resolve_only]
  have hj : ∀ l, jsonAt C (only r L) r l = jsonAt C L r l := fun l => by unfold jsonAt; rw [ht]
  have hd : ∀ l, decode C (only r L) r k l = decode C L r k l := by
    intro l
    unfold decode
    cases k <;> simp only [ht, ht', hj]
  have hf : fetch C (only r L) r k ref = fetch C L r k ref := by
    unfold fetch
    simp only [hd]
  have hi : innerDirect C (only r L) r k ref = innerDirect C L r k ref := by
    unfold innerDirect
    simp only [ht]
  unfold strictFetch
  rw [hf, hi]

/-- What a repository holds under a reference is found in this repository alone. -/
theorem look_only {L : Log} {h : Heap} (l : Link) :
    SameContent C L h (.sto r l) (only r L) h (.sto r l) := by
  intro ks t
  refine look_congr (fun n => ∃ l, n = .sto r l) ?_ ks t _ ⟨l, rfl⟩
  rintro n ⟨l, rfl⟩
  refine Or.inr ⟨?_, ?_⟩
  · simp only [view, strictFetch_only]
  · intro b hb e he
    obtain ⟨a, _, rfl⟩ := view_sto.mp hb
    rw [Body.map_kids] at he
    obtain ⟨x, _, rfl⟩ := List.mem_map.mp he
    exact ⟨_, rfl⟩

/-! ### C24 -/

/-- C24: if copying an object to a repository succeeds, the copy has the content of the
original.  It is an object that is not loaded, and what it stands for is in the
destination, completely and without any other repository.  All objects that existed,
in particular the original and its parts, have the same content and are loaded or not
loaded as before.  This holds for all object graphs in all load states and for all
patterns of failures.

`Copyable`: everything in the original can be stored (see C17), it holds no `Text`, and
in the destination no object stands for the UUID set if a UUID set is copied (see C38).
`hp`: tree version lists are excluded, see `C24_tree_list_false`. -/
theorem C24_copy_partial (hr : r ≠ []) {n : Nat} {i c : ObjId} {w w' : World} (hc : Copyable C r w i)
    (hp : (w.heap i).kind ≠ .tvl) (h : deepcopy C n (some r) (metadataPath [[]]) i w = (.ok c, w'))
    (hcf : CollisionFree C w'.repo.log) :
    SameContent C w.repo.log w.heap (.mem i) w'.repo.log w'.heap (.mem c) ∧
    ((w'.heap c).mapped = false ∧ (w'.heap c).realm = some r ∧ (w'.heap c).kind = (w.heap i).kind ∧
      ∃ ref, (w'.heap c).ref = some ref ∧ ∀ h0,
        SameContent C w.repo.log w.heap (.mem i) (only r w'.repo.log) h0 (.sto r ⟨(w.heap i).kind, ref⟩)) ∧
    w.next ≤ c ∧
    ∀ j, j < w.next → (w'.heap j).mapped = (w.heap j).mapped ∧
      ((w.heap j).mapped = true → w'.heap j = w.heap j) ∧
      SameContent C w.repo.log w.heap (.mem j) w'.repo.log w'.heap (.mem j) := by
  have hm := deepcopy_ok hr n (C01_canonical [[]]) hc hp h hcf
  have hsame := copied_same hc.fine hc.keep hm.copied
  refine ⟨hsame, ⟨hm.stub.away, hm.stub.realm, hm.kind, ?_⟩, hm.new, ?_⟩
  · obtain ⟨ref, g1, g2⟩ := hm.stub.good hm.pass.fine
    refine ⟨ref, g1, fun h0 => ?_⟩
    have h2 := g2.same
    rw [hm.kind, normRef_ne hp] at h2
    exact (hsame.trans (h2.trans (look_sto_heap (h' := h0) r _))).trans (look_only _)
  · intro j hj
    refine ⟨?_, hm.pass.loaded j hj, hm.pass.content j hj⟩
    cases hmj : (w.heap j).mapped with
    | true => rw [hm.pass.loaded j hj hmj, hmj]
    | false => exact (hm.pass.away j hj hmj).mapped

/-- C24 does not hold for tree version lists: no copy of one can be read, whatever the
list holds.  Its reference has the class `VersionList`, see C25. -/
theorem C24_tree_list_false (hr : r ≠ []) {n : Nat} {pre : PPath} {i c : ObjId} {w w' : World} (hpre : Canonical pre)
    (hc : Copyable C r w i) (hk : (w.heap i).kind = .tvl)
    (h : deepcopy C n (some r) pre i w = (.ok c, w')) (hcf : CollisionFree C w'.repo.log) :
    (w'.heap c).mapped = false ∧ ensureMapped C c w' = (.error .assertion, w') := by
  have := deepcopy_tvl hr hpre hc hk h hcf
  exact ⟨this.away, this.fails⟩

/-- C24 does not hold for texts: every copy of a text is a new text without content. -/
theorem C24_text_false (hr : r ≠ []) {n : Nat} {pre : PPath} {i c : ObjId} {w w' : World} {s : Str}
    (hm : (w.heap i).mapped = true) (hd : (w.heap i).body.data = .text (some s))
    (h : deepcopy C n (some r) pre i w = (.ok c, w')) :
    (∃ bl, look C w.repo.log w.heap [] [] (.mem i) = .found [] (.text (some s)) bl) ∧
    ∃ bl, look C w'.repo.log w'.heap [] [] (.mem c) = .found [] (.text none) bl := by
  cases n with
  | zero => cases h
  | succ n =>
    unfold deepcopy withMapped at h
    rw [M.bind_of_ok (ensureMapped_mapped hm)] at h
    simp only [Bool.false_eq_true, if_false] at h
    rw [M.bind_of_ok (getObj_run i w)] at h
    unfold copyImpl at h
    rw [hd] at h
    simp only at h
    rw [M.bind_of_ok (show alloc (Obj.new (Body.empty .text)) w = (.ok w.next, MM.create _ w) from rfl)] at h
    obtain ⟨ref, w1, h1, h2⟩ := M.bind_ok h
    cases h2
    have any := writeOut_any (C := C) hr n false w.next (MM.create (Obj.new (Body.empty .text)) w)
    rw [h1] at any
    have hs := any.same w.next
    rw [create_self] at hs
    refine ⟨⟨false, ?_⟩, ⟨false, ?_⟩⟩
    · rw [look_nil _ (view_mapped hm)]
      show Res.found [] (w.heap i).body.data _ = _
      unfold Body.blank
      rw [Body.map_data, hd]
      rfl
    · have hm' : (w'.heap w.next).mapped = true := hs.mapped
      have hb' : (w'.heap w.next).body = Body.empty .text := hs.body
      rw [look_nil _ (view_mapped hm'), hb']
      rfl

/-- A root record without dataset-level metadata cannot be purged. -/
theorem purge_bare {n : Nat} {c : ObjId} {w : World} (hm : (w.heap c).mapped = true) (hk : (w.heap c).kind = .mrr)
    (hd : dget (w.heap c).body.kids .dlm = none) {u : Unit} {w' : World} : purge n c w ≠ (.ok u, w') := by
  intro h
  cases n with
  | zero => cases h
  | succ n =>
    unfold purge at h
    rw [M.bind_of_ok (getObj_run c w), if_pos hm] at h
    by_cases hs : (w.heap c).savedOn = []
    · rw [if_pos hs] at h; cases h
    · rw [if_neg hs, if_pos ⟨hk, hd⟩] at h; cases h

/-- A loaded root record without dataset-level metadata is never copied: see C26. -/
theorem C24_bare_fails (hr : r ≠ []) (n : Nat) {pre : PPath} {i : ObjId} {w : World}
    (hm : (w.heap i).mapped = true) (hk : (w.heap i).kind = .mrr) (hd : dget (w.heap i).body.kids .dlm = none) :
    ∃ e, (deepcopy C n (some r) pre i w).1 = .error e := by
  cases hx : deepcopy C n (some r) pre i w with
  | mk res w' =>
    cases res with
    | error e => exact ⟨e, rfl⟩
    | ok c =>
      exfalso
      cases n with
      | zero => cases hx
      | succ n =>
        unfold deepcopy withMapped at hx
        rw [M.bind_of_ok (ensureMapped_mapped hm)] at hx
        simp only [Bool.false_eq_true, if_false] at hx
        rw [M.bind_of_ok (getObj_run i w)] at hx
        have hdat : ∃ a b, (w.heap i).body.data = .mrr a b := by
          unfold Obj.kind at hk
          cases hd : (w.heap i).body.data <;> rw [hd] at hk <;> first | exact ⟨_, _, rfl⟩ | cases hk
        obtain ⟨a, b, hdat⟩ := hdat
        unfold copyImpl at hx
        rw [hdat, hd] at hx
        simp only at hx
        obtain ⟨dlm, w1, h1, h2⟩ := M.bind_ok hx
        cases h1
        obtain ⟨ft, w2, h3, h4⟩ := M.bind_ok h2
        rw [M.bind_of_ok (show alloc (Obj.new ⟨.mrr a b, mrrKids none ft⟩) w2 = (.ok w2.next, MM.create _ w2) from rfl)] at h4
        unfold settle at h4
        obtain ⟨ref, w3, h5, h6⟩ := M.bind_ok h4
        obtain ⟨u, w4, h7, _⟩ := M.bind_ok h6
        have any := writeOut_any (C := C) hr n false w2.next (MM.create (Obj.new ⟨.mrr a b, mrrKids none ft⟩) w2)
        rw [h5] at any
        have hs := any.same w2.next
        rw [create_self] at hs
        refine purge_bare hs.mapped ?_ ?_ h7
        · unfold Obj.kind; rw [hs.body]; rfl
        · rw [hs.body]
          show dget (mrrKids none ft) .dlm = none
          rw [dget_mrrKids_dlm]; rfl

/-- Code that fails and writes nothing -/
def Refuses {α : Type} (x : W α) : Prop := ∀ w, (∃ e, (x w).1 = .error e) ∧ (x w).2.repo.log = w.repo.log

theorem Refuses.bind {α β : Type} {x : W α} (h : Refuses x) (f : α → W β) : Refuses (x >>= f) := by
  intro w
  obtain ⟨⟨e, h1⟩, h2⟩ := h w
  have : x w = (.error e, (x w).2) := Prod.ext h1 rfl
  rw [M.bind_of_error this]
  exact ⟨⟨e, rfl⟩, h2⟩

/-- Destinations that new objects cannot be written to -/
def NoDest (C : Cfg) (dest : Option Realm) : Prop :=
  ∀ n b w, (∃ e, (writeOut C n dest false w.next (MM.create (Obj.new b) w)).1 = .error e) ∧
    (writeOut C n dest false w.next (MM.create (Obj.new b) w)).2.repo.log = w.repo.log

theorem noDest_none : NoDest C none := by
  intro n b w
  obtain ⟨h1, e, h2⟩ := (C23_no_destination (C := C) n false w.next (MM.create (Obj.new b) w)).2
    (Or.inr (by rw [create_self]; rfl))
  exact ⟨⟨e, h2⟩, by rw [h1]; rfl⟩

theorem noDest_remote (hrem : Ref.isRemote r = true) : NoDest C (some r) := by
  intro n b w
  cases n with
  | zero => exact ⟨⟨_, rfl⟩, rfl⟩
  | succ n =>
    rw [writeOut, M.bind_of_ok (getObj_run _ _), create_self, if_pos (show (Obj.new b).mapped = true from rfl)]
    have hne : r ≠ [] := by rintro rfl; exact absurd hrem (by decide)
    have hdst : destOf (some r) (Obj.new b).realm = some r := by
      cases r with
      | nil => exact absurd rfl hne
      | cons c r => rfl
    rw [hdst]
    simp only
    rw [if_pos hrem]
    exact ⟨⟨_, rfl⟩, rfl⟩

theorem settle_refuses {dest : Option Realm} (hd : NoDest C dest) (n : Nat) (b : Body ObjId) (w : World) :
    (∃ e, (settle C n dest w.next (MM.create (Obj.new b) w)).1 = .error e) ∧
      (settle C n dest w.next (MM.create (Obj.new b) w)).2.repo.log = w.repo.log := by
  obtain ⟨⟨e, h1⟩, h2⟩ := hd n b w
  unfold settle
  rw [M.bind_of_error (Prod.ext h1 rfl)]
  exact ⟨⟨e, rfl⟩, h2⟩

theorem filled_refuses {dest : Option Realm} (hdest : NoDest C dest) {cp : ObjId → W ObjId} (hcp : ∀ k, Refuses (cp k)) (n : Nat) (d : Data)
    (ins : ObjId → Key × (Str × ObjId) → ObjId → W Unit) (l : List (Key × (Str × ObjId))) :
    Refuses (alloc (Obj.new ⟨d, []⟩) >>= fun j => M.forEach (fun e => cp e.2.2 >>= fun k => ins j e k) l >>=
      fun _ => settle C n dest j) := by
  intro w
  rw [M.bind_of_ok (show alloc (Obj.new ⟨d, []⟩) w = (.ok w.next, MM.create _ w) from rfl)]
  cases l with
  | nil => rw [M.bind_of_ok (M.forEach_nil _ _)]; exact settle_refuses hdest n _ w
  | cons e l =>
    rw [M.forEach_cons]
    exact (((hcp e.2.2).bind _).bind _).bind _ (MM.create (Obj.new ⟨d, []⟩) w)

theorem copyImpl_refuses {dest : Option Realm} (hdest : NoDest C dest) {cp : ObjId → W ObjId} (hcp : ∀ k, Refuses (cp k)) (n : Nat) (pre : PPath) (b : Body ObjId) :
    Refuses (copyImpl C cp n dest pre b) := by
  unfold copyImpl
  cases hd : b.data with
  | text s =>
    intro w
    simp only
    rw [M.bind_of_ok (show alloc (Obj.new (Body.empty .text)) w = (.ok w.next, MM.create _ w) from rfl)]
    obtain ⟨⟨e, h1⟩, h2⟩ := hdest n (Body.empty .text) w
    rw [M.bind_of_error (Prod.ext h1 rfl)]
    exact ⟨⟨e, rfl⟩, h2⟩
  | metadata m => intro w; exact settle_refuses hdest n _ w
  | mtree leaf => exact filled_refuses hdest hcp n _ (fun j e k => addChild C j e.1.entryName k) _
  | vlist => exact filled_refuses hdest hcp n _ (insVersion C pre) _
  | tvl => exact filled_refuses hdest hcp n _ (insVersion C pre) _
  | uuidset => exact filled_refuses hdest hcp n _ (fun j e k => updObj j fun o =>
      { o with body := ⟨o.body.data, dset o.body.kids e.1 ([], k)⟩ }) _
  | mrr id v =>
    simp only
    cases dget b.kids .dlm with
    | some e => exact ((hcp e.2).bind _).bind _
    | none =>
      cases dget b.kids .ft with
      | some e =>
        intro w
        rw [M.bind_of_ok (show copyOpt cp none w = (.ok none, w) from rfl)]
        exact ((hcp e.2).bind _).bind _ w
      | none =>
        intro w
        rw [M.bind_of_ok (show copyOpt cp none w = (.ok none, w) from rfl),
          M.bind_of_ok (show copyOpt cp none w = (.ok none, w) from rfl)]
        exact settle_refuses hdest n _ w

theorem deepcopy_refuses {dest : Option Realm} (hdest : NoDest C dest) (n : Nat) : ∀ (pre : PPath) (i : ObjId) (w : World),
    (∃ e, (deepcopy C n dest pre i w).1 = .error e) ∧ (deepcopy C n dest pre i w).2.repo.log = w.repo.log := by
  induction n with
  | zero => intro pre i w; exact ⟨⟨_, rfl⟩, rfl⟩
  | succ n ih =>
    intro pre i w
    have hr : Refuses (getObj i >>= fun o => copyImpl C (deepcopy C n dest (metadataPath [[]])) n dest pre o.body) := by
      intro w
      rw [M.bind_of_ok (getObj_run i w)]
      exact copyImpl_refuses hdest (fun k => ih _ k) n pre _ w
    unfold deepcopy withMapped
    have hread := C23_read C i w
    cases he : ensureMapped C i w with
    | mk res w1 =>
      rw [he] at hread
      cases res with
      | error e => rw [M.bind_of_error he]; exact ⟨⟨e, rfl⟩, hread⟩
      | ok b =>
        rw [M.bind_of_ok he]
        obtain ⟨⟨e, h1⟩, h2⟩ := hr w1
        cases b with
        | false =>
          simp only [Bool.false_eq_true, if_false]
          exact ⟨⟨e, h1⟩, h2.trans hread⟩
        | true =>
          simp only [if_true]
          unfold M.finally_
          cases hb : (getObj i >>= fun o => copyImpl C (deepcopy C n dest (metadataPath [[]])) n dest pre o.body) w1 with
          | mk res2 w2 =>
            rw [hb] at h1 h2
            have hp := C23_purge n i w2
            cases hq : purge n i w2 with
            | mk res3 w3 =>
              rw [hq] at hp
              simp only at h1 h2 hp hread ⊢
              rw [hq]
              cases res3 with
              | ok u => exact ⟨⟨e, h1⟩, by rw [hp]; exact h2.trans hread⟩
              | error e2 => exact ⟨⟨e2, rfl⟩, by rw [hp]; exact h2.trans hread⟩

/-- Copying without a destination always fails, and writes nothing, although the
destination is an optional argument of `deepcopy`. -/
theorem C24_no_destination_fails (n : Nat) (pre : PPath) (i : ObjId) (w : World) :
    (∃ e, (deepcopy C n none pre i w).1 = .error e) ∧ (deepcopy C n none pre i w).2.repo.log = w.repo.log :=
  deepcopy_refuses noDest_none n pre i w

/-! ### C33 -/

/-- C33: copying a version list with a path prefix gives a list with one entry for each
entry, at the prefixed path, with the same version, time stamp and element: what is found
at and below the entry for the version `v` and the path `p` is found, in the copy, at the
entry for `v` and the path `pre / p`, and there are no other entries.  `Copyable`: see C24. -/
theorem C33_version_list_partial (hr : r ≠ []) {n : Nat} {pre : PPath} {i c : ObjId} {w w' : World}
    (hpre : Canonical pre) (hc : Copyable C r w i) (hk : (w.heap i).kind = .vlist)
    (h : deepcopy C n (some r) pre i w = (.ok c, w')) (hcf : CollisionFree C w'.repo.log) :
    (∀ v p, Canonical p → ∀ ks t, look C w'.repo.log w'.heap (.ver v (pre.join p) :: ks) t (.mem c) =
      look C w.repo.log w.heap (.ver v p :: ks) t (.mem i)) ∧
    (∀ k ks t, look C w'.repo.log w'.heap (k :: ks) t (.mem c) ≠ .absent →
      ∃ v p, Canonical p ∧ k = .ver v (pre.join p)) ∧
    (w'.heap c).kind = .vlist ∧
    ∀ p p', Canonical p → Canonical p' → pre.join p = pre.join p' → p = p' := by
  have hm := deepcopy_ok hr n hpre hc (by rw [hk]; intro hx; cases hx) h hcf
  exact ⟨fun v p hp ks t => hm.copied.parts (.ver v p) hp ks t,
    fun k ks t hne => hm.copied.version hc.fine hc.keep (Or.inl hk) hne, hm.kind.trans hk,
    fun p p' hp hp' => (C02_cancel pre p p' hpre hp hp').1⟩

/-- C33 for tree version lists: the same holds for what the destination holds under the
reference of the copy, read as a tree version list.  The copy itself cannot be read, see
`C24_tree_list_false`. -/
theorem C33_tree_list_partial (hr : r ≠ []) {n : Nat} {pre : PPath} {i c : ObjId} {w w' : World}
    (hpre : Canonical pre) (hc : Copyable C r w i) (hk : (w.heap i).kind = .tvl)
    (h : deepcopy C n (some r) pre i w = (.ok c, w')) (hcf : CollisionFree C w'.repo.log) :
    ∃ ref, (w'.heap c).ref = some ref ∧ ref.cls = c!"VersionList" ∧ ∀ h0,
      (∀ v p, Canonical p → ∀ ks t,
        look C w'.repo.log h0 (.ver v (pre.join p) :: ks) t (.sto r ⟨.tvl, c!"TreeVersionList", ref.loc⟩) =
          look C w.repo.log w.heap (.ver v p :: ks) t (.mem i)) ∧
      (∀ k ks t, look C w'.repo.log h0 (k :: ks) t (.sto r ⟨.tvl, c!"TreeVersionList", ref.loc⟩) ≠ .absent →
        ∃ v p, Canonical p ∧ k = .ver v (pre.join p)) := by
  obtain ⟨ref, h1, h2, _, h3⟩ := (deepcopy_tvl hr hpre hc hk h hcf).ref
  exact ⟨ref, h1, h2, h3⟩

/-! ### C23 -/

/-- C23 for copying: whatever the outcome, copying changes only the destination, and
deletes nothing there. -/
theorem C23_copy (hr : r ≠ []) (n : Nat) (pre : PPath) (i : ObjId) (w : World) :
    (∀ x o, Stored w.repo.log x o → Stored (deepcopy C n (some r) pre i w).2.repo.log x o) ∧
    (∀ x o, x ≠ r → Stored (deepcopy C n (some r) pre i w).2.repo.log x o → Stored w.repo.log x o) ∧
    (∀ x nm, x ≠ r → refOf (deepcopy C n (some r) pre i w).2.repo.log x nm = refOf w.repo.log x nm) := by
  obtain ⟨ops, h1, h2⟩ := logged_deepcopy (C := C) hr n pre i w
  rw [h1]
  refine ⟨fun x o h => List.mem_append_right _ h, ?_, ?_⟩
  · intro x o hx h
    rcases List.mem_append.mp h with h | h
    · exact absurd (h2 _ h) hx
    · exact h
  · intro x nm hx
    clear h1
    induction ops with
    | nil => rfl
    | cons op ops ih =>
      have hop := h2 op (List.mem_cons_self ..)
      rw [List.cons_append, ← ih fun o ho => h2 o (List.mem_cons_of_mem _ ho)]
      have hne : op.realm ≠ x := by rw [hop]; exact Ne.symm hx
      cases op with
      | save r' o => rfl
      | setRef r' n' h' => simp only [GitOp.realm] at hne; simp [refOf, hne]
      | delRef r' n' => simp only [GitOp.realm] at hne; simp [refOf, hne]

/-- C23 for copying to a remote repository: it fails and writes nothing anywhere. -/
theorem C23_copy_remote (hrem : Ref.isRemote r = true) (n : Nat) (pre : PPath) (i : ObjId) (w : World) :
    (∃ e, (deepcopy C n (some r) pre i w).1 = .error e) ∧
      (deepcopy C n (some r) pre i w).2.repo.log = w.repo.log :=
  deepcopy_refuses (noDest_remote hrem) n pre i w

/-- A remote repository -/
example : Ref.isRemote c!"ssh://host/repo" = true := by decide

/-! ### Examples -/

/-- Objects in memory that can be stored, without texts -/
theorem Keepable.of_loaded {L : Log} {h : Heap} {S : ObjId → Prop}
    (hS : ∀ p, S p → (h p).mapped = true ∧ BodyOk h (h p).body ∧ (h p).kind ≠ .text ∧ ∀ k ∈ (h p).body.subs, S k)
    {i : ObjId} (hi : S i) : Keepable C L h (.mem i) := by
  have step : ∀ i, S i → ∀ k ks t t' d bl, look C L h (k :: ks) t (.mem i) = .found t' d bl →
      ∃ t2 c, dget (h i).body.kids k = some (t2, c) ∧ S c ∧ look C L h ks t2 (.mem c) = .found t' d bl := by
    intro i hi k ks t t' d bl hl
    rw [look_cons (view_mapped (hS i hi).1), Body.dget_map] at hl
    cases hd : dget (h i).body.kids k with
    | none => rw [hd] at hl; cases hl
    | some x =>
      obtain ⟨t2, c⟩ := x
      rw [hd] at hl
      simp only [Option.map_some] at hl
      have hc := (hS i hi).2.2.2 c (dget_sub hd)
      rw [view_mapped (hS c hc).1] at hl
      simp only at hl
      refine ⟨t2, c, rfl, hc, ?_⟩
      split at hl
      · cases hl
      · exact hl
  refine ⟨?_, ?_⟩
  · intro ks
    induction ks generalizing i with
    | nil =>
      intro t t' d bl hl
      rw [look_nil _ (view_mapped (hS i hi).1)] at hl
      cases hl
      exact ⟨(hS i hi).2.1.data, (hS i hi).2.2.1⟩
    | cons k ks ih =>
      intro t t' d bl hl
      obtain ⟨t2, c, _, hc, h2⟩ := step i hi k ks t t' d bl hl
      exact ih hc _ _ _ _ h2
  · intro ks
    induction ks generalizing i with
    | nil =>
      intro k t t' d bl t2 d2 bl2 h1 h2
      rw [look_nil _ (view_mapped (hS i hi).1)] at h1
      cases h1
      obtain ⟨t3, c, g1, hc, g3⟩ := step i hi k [] t t2 d2 bl2 h2
      rw [look_nil _ (view_mapped (hS c hc).1)] at g3
      cases g3
      exact (hS i hi).2.1.slots _ (mem_of_dget g1)
    | cons k0 ks ih =>
      intro k t t' d bl t2 d2 bl2 h1 h2
      obtain ⟨t3, c, g1, hc, g3⟩ := step i hi k0 ks t t' d bl h1
      obtain ⟨t4, c', q1, _, q3⟩ := step i hi k0 (ks ++ [k]) t t2 d2 bl2 h2
      rw [g1] at q1
      cases q1
      exact ih hc k _ _ _ _ _ _ _ g3 q3

theorem populate_beyond (bs : List (Body ObjId)) : ∀ (w : World) (j : ObjId), (populate w bs).next ≤ j →
    w.next ≤ j ∧ (populate w bs).heap j = w.heap j := by
  induction bs with
  | nil => intro w j h; exact ⟨h, rfl⟩
  | cons b bs ih =>
    intro w j h
    obtain ⟨h1, h2⟩ := ih (MM.create (Obj.new b) w) j h
    have h1 : w.next + 1 ≤ j := h1
    refine ⟨by oomega, h2.trans (create_ne _ _ (by oomega))⟩

theorem sample_beyond {j : ObjId} (h : 9 ≤ j) : sampleWorld.heap j = Obj.new (Body.empty .text) :=
  (populate_beyond sampleBodies (start ⟨[], []⟩) j h).2

theorem sample_new (j : ObjId) : (sampleWorld.heap j).mapped = true ∧ (sampleWorld.heap j).realm = none ∧
    (sampleWorld.heap j).savedOn = [] := by
  by_cases h : j < 9
  · have : ∀ j, j < 9 → (sampleWorld.heap j).mapped = true ∧ (sampleWorld.heap j).realm = none ∧
        (sampleWorld.heap j).savedOn = [] := by decide +kernel
    exact this j h
  · rw [sample_beyond (Nat.not_lt.mp h)]; exact ⟨rfl, rfl, rfl⟩

theorem sample_keepable {L : Log} {i : ObjId} (hi : i < 9) : Keepable sampleCfg L sampleWorld.heap (.mem i) := by
  refine Keepable.of_loaded (S := fun p => p < 9) ?_ hi
  intro p hp
  refine ⟨(sample_new p).1, sample_storable hp p (Reach.refl p) (sample_new p).1, ?_, ?_⟩
  · have : ∀ p, p < 9 → (sampleWorld.heap p).kind ≠ .text := by decide +kernel
    exact this p hp
  · have : ∀ p, p < 9 → ∀ k ∈ (sampleWorld.heap p).body.subs, k < 9 := by decide +kernel
    exact this p hp

theorem sample_typed : FtTyped sampleWorld.heap := by
  intro p _ hk t c hd
  by_cases hp : p < 9
  · have : ∀ p, p < 9 → (sampleWorld.heap p).kind = .mrr → p = 4 := by decide +kernel
    cases this p hp hk
    have : dget (sampleWorld.heap 4).body.kids .ft = some ([], 3) := by decide +kernel
    rw [this] at hd
    cases hd
    decide +kernel
  · rw [sample_beyond (Nat.not_lt.mp hp)] at hk; cases hk

theorem sample_fine : Fine sampleCfg sampleWorld :=
  Sane.fine (r := sampleRealm) (by decide) (sample_session.1.sane (by decide)) sampleWorld_formed

theorem sample_copyable {i : ObjId} (hi : i < 9) : Copyable sampleCfg c!"/copy" sampleWorld i := by
  refine ⟨sample_fine, rfl, sample_typed, sample_keepable hi, hi, ?_⟩
  intro nm _ x ref _ _
  rw [(sample_new x).2.1, (sample_new x).2.2]
  exact ⟨by simp, by simp⟩

theorem FtTyped.any {w w' : World} (h : FtTyped w.heap) (ha : Any r w w') : FtTyped w'.heap := by
  intro p hm hk t c hd
  rw [(ha.same p).mapped] at hm
  rw [(ha.same p).body] at hd
  unfold Obj.kind at hk ⊢
  rw [(ha.same p).body] at hk
  rw [(ha.same c).body]
  exact h p hm hk t c hd

theorem FtTyped.purged {w w' : World} (h : FtTyped w.heap) (hp : Purged w w') : FtTyped w'.heap := by
  intro p hm hk t c hd
  rw [hp.kind] at hk ⊢
  have e := hp.mapped p hm
  rw [e] at hm hd
  exact h p hm hk t c hd

/-- Everything in the UUID set that was written and forgotten can be copied. -/
theorem forgotSet_copyable {i : ObjId} (hi : i < 9) : Copyable sampleCfg c!"/copy" forgotSet i := by
  have any := writeAs_any (C := sampleCfg) (r := sampleRealm) (by decide) .own 20 false 8 sampleWorld
  rw [setWrite_ok] at any
  simp only at any
  have pg := purge_purged 20 8 setWrite.2
  refine ⟨forgotSet_fine, by decide +kernel, ?_, ?_, ?_, ?_⟩
  · exact (sample_typed.any any).purged pg
  · have h1 := (sample_session.1.sane (by decide)).write_look (by decide) setWrite_ok
      (collisionFree_of_check (by decide +kernel)) (sample_storable (by decide)) (sample_alone _) i
    have h2 := C18_purge_partial (by decide) (setWrite_session.history (by decide)) 20 8
      ((setWrite_session.sane (by decide)).purgeable setWrite_ownName) i
    have e : forgotSet = (purge 20 8 setWrite.2).2 := rfl
    rw [e]
    exact ((sample_keepable hi).of_same h1).of_same h2
  · have : forgotSet.next = 9 := by decide +kernel
    rw [this]; exact hi
  · intro nm _ x ref _ _
    unfold forgotSet
    rw [pg.saved, pg.realm]
    refine ⟨fun h => ?_, fun h => ?_⟩
    · have := ((setWrite_session.sane (by decide)).home x _ h).1
      exact absurd this (by decide)
    · rcases any.realm x with e | e
      · rw [h, (sample_new x).2.1] at e; cases e
      · rw [h] at e; exact absurd e (by decide)

/-- The hypotheses of C24 hold for the UUID set of the examples, which was written and
forgotten: it is copied with the version list, the root record, the file tree and the
metadata in it.  For C33 its version list is copied below `pre/x`. -/
example : (Copyable sampleCfg c!"/copy" forgotSet 8 ∧ (forgotSet.heap 8).kind = .uuidset ∧
      (forgotSet.heap 8).mapped = false ∧
      ∃ c w', deepcopy sampleCfg 20 (some c!"/copy") (metadataPath [[]]) 8 forgotSet = (.ok c, w') ∧
        CollisionFree sampleCfg w'.repo.log ∧ c = 10) ∧
    Copyable sampleCfg c!"/copy" forgotSet 7 ∧ (forgotSet.heap 7).kind = .vlist ∧
      ∃ c w', deepcopy sampleCfg 20 (some c!"/copy") (metadataPath [c!"pre/x"]) 7 forgotSet = (.ok c, w') ∧
        CollisionFree sampleCfg w'.repo.log :=
  ⟨⟨forgotSet_copyable (by decide), by decide +kernel, by decide +kernel, 10, _, of_okVal (by decide +kernel),
    collisionFree_of_check (by decide +kernel), rfl⟩, forgotSet_copyable (by decide), by decide +kernel,
    10, _, of_okVal (by decide +kernel), collisionFree_of_check (by decide +kernel)⟩

/-- The tree version list of the examples can be copied; then the copy cannot be read. -/
example : Copyable sampleCfg c!"/copy" sampleWorld 6 ∧ (sampleWorld.heap 6).kind = .tvl ∧
    ∃ c w', deepcopy sampleCfg 20 (some c!"/copy") (metadataPath [c!"pre"]) 6 sampleWorld = (.ok c, w') ∧
      CollisionFree sampleCfg w'.repo.log ∧ ensureMapped sampleCfg c w' = (.error .assertion, w') := by
  have h : deepcopy sampleCfg 20 (some c!"/copy") (metadataPath [c!"pre"]) 6 sampleWorld = (.ok 9, _) :=
    of_okVal (by decide +kernel)
  have hcf : CollisionFree sampleCfg
      (deepcopy sampleCfg 20 (some c!"/copy") (metadataPath [c!"pre"]) 6 sampleWorld).2.repo.log :=
    collisionFree_of_check (by decide +kernel)
  exact ⟨sample_copyable (by decide), by decide +kernel, 9, _, h, hcf,
    (C24_tree_list_false (by decide) (C01_canonical _) (sample_copyable (by decide)) (by decide +kernel) h hcf).2⟩

/-- A text and a root record without dataset-level metadata -/
def oddBodies : List (Body ObjId) := [⟨.text (some c!"abc"), []⟩, ⟨.mrr (some sampleUuid) (some c!"v1"), []⟩]

/-- The text can be copied, and the copy is empty; the root record cannot be copied. -/
example : (∃ w', deepcopy sampleCfg 20 (some c!"/copy") (metadataPath [[]]) 0 (populate (start ⟨[], []⟩) oddBodies) =
      (.ok 2, w')) ∧
    ∃ e, (deepcopy sampleCfg 20 (some c!"/copy") (metadataPath [[]]) 1 (populate (start ⟨[], []⟩) oddBodies)).1 =
      .error e :=
  ⟨⟨_, of_okVal (by decide +kernel)⟩, C24_bare_fails (by decide) 20 (by decide) (by decide) (by decide)⟩

end MM
