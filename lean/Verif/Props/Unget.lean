/-
C59: the unget calls, which put an element back that was taken from a container.
-/
import Verif.Props.Retry
import Verif.Props.Copy

namespace MM

variable {C : Cfg} {r : Realm}

/-! ### When purging succeeds -/

theorem isSavedOn_purged {w w' : World} (hp : Purged w w') : ∀ {n : Nat} {i : ObjId}, isSavedOn n w.heap r i = .ok true →
    isSavedOn n w'.heap r i = .ok true := by
  intro n
  induction n with
  | zero => intro i h; cases h
  | succ n ih =>
    intro i h
    obtain ⟨h1, h2⟩ := isSavedOn_true.mp h
    refine isSavedOn_true.mpr ⟨by rw [hp.saved]; exact h1, fun hm k hk => ?_⟩
    have e := hp.mapped i hm
    rw [e] at hm hk
    exact ih (h2 hm k hk)

/-- All loaded root records below `i` have dataset-level metadata. -/
def NoBare (h : Heap) (i : ObjId) : Prop :=
  ∀ j, Reach h i j → (h j).mapped = true → (h j).kind = .mrr → dget (h j).body.kids .dlm ≠ none

theorem NoBare.purged {w w' : World} (hp : Purged w w') {i : ObjId} (h : NoBare w.heap i) : NoBare w'.heap i := by
  intro j hr hm hk
  have hr' : Reach w.heap i j := by
    clear hm hk h
    induction hr with
    | refl => exact Reach.refl _
    | step a k b ha hka _ ih =>
      have e := hp.mapped a ha
      rw [e] at ha hka
      exact Reach.step a k b ha hka ih
  have e := hp.mapped j hm
  rw [e] at hm hk ⊢
  exact h j hr' hm hk

/-- What is saved can be purged, unless a root record has no dataset-level metadata. -/
theorem purge_succeeds (n : Nat) : ∀ (i : ObjId) (w : World), isSavedOn n w.heap r i = .ok true → NoBare w.heap i →
    ∃ w', purge n i w = (.ok (), w') := by
  induction n with
  | zero => intro i w h; cases h
  | succ n ih =>
    intro i w h hb
    obtain ⟨h1, h2⟩ := isSavedOn_true.mp h
    unfold purge
    rw [M.bind_of_ok (getObj_run i w)]
    by_cases hm : (w.heap i).mapped = true
    · rw [if_pos hm, if_neg (by intro e; rw [e] at h1; cases h1),
        if_neg (fun e => hb i (Reach.refl _) hm e.1 e.2)]
      have loop : ∀ (ks : List ObjId) (w : World), (∀ k ∈ ks, isSavedOn n w.heap r k = .ok true ∧ NoBare w.heap k) →
          ∃ l w', M.forEach (purge n) ks w = (.ok l, w') := by
        intro ks
        induction ks with
        | nil => intro w _; exact ⟨[], w, rfl⟩
        | cons k ks ihk =>
          intro w hks
          obtain ⟨w1, e1⟩ := ih k w (hks k (List.mem_cons_self ..)).1 (hks k (List.mem_cons_self ..)).2
          have p1 := purge_purged n k w
          rw [e1] at p1
          obtain ⟨l, w2, e2⟩ := ihk w1 fun x hx => by
            have := hks x (List.mem_cons_of_mem _ hx)
            exact ⟨isSavedOn_purged p1 this.1, this.2.purged p1⟩
          refine ⟨() :: l, w2, ?_⟩
          rw [M.forEach_cons, M.bind_of_ok e1, M.bind_of_ok e2]
          rfl
      obtain ⟨l, w1, e1⟩ := loop _ w fun k hk =>
        ⟨h2 hm k hk, fun j hj => hb j (Reach.step i k j hm hk hj)⟩
      rw [M.bind_of_ok e1, updObj_run]
      exact ⟨_, rfl⟩
    · rw [if_neg hm]; exact ⟨w, rfl⟩

theorem purged_reach {w w' : World} (hp : Purged w w') {i j : ObjId} (hr : Reach w'.heap i j) : Reach w.heap i j := by
  induction hr with
  | refl => exact Reach.refl _
  | step a k b ha hka _ ih =>
    have e := hp.mapped a ha
    rw [e] at ha hka
    exact Reach.step a k b ha hka ih

theorem purged_clean {w w' : World} (hp : Purged w w') {i : ObjId} (hc : Clean r w.heap i) : Clean r w'.heap i := by
  induction hc with
  | mk i h1 _ ih =>
    refine Clean.mk i (by rw [hp.saved]; exact h1) fun hm k hk => ?_
    have e := hp.mapped i hm
    rw [e] at hm hk
    exact ih hm k hk

/-- Purging leaves everything alone that is no part of the purged object. -/
theorem purge_others (n : Nat) : ∀ (i : ObjId) (w : World) (x : ObjId), ¬ Reach w.heap i x →
    (purge n i w).2.heap x = w.heap x := by
  induction n with
  | zero => intro i w x _; rfl
  | succ n ih =>
    intro i w x hx
    unfold purge
    rw [M.bind_of_ok (getObj_run i w)]
    by_cases hm : (w.heap i).mapped = true
    · rw [if_pos hm]
      by_cases hs : (w.heap i).savedOn = []
      · rw [if_pos hs]; rfl
      · rw [if_neg hs]
        split
        · rfl
        · have loop : ∀ (ks : List ObjId) (w : World), (∀ k ∈ ks, ¬ Reach w.heap k x) →
              (M.forEach (purge n) ks w).2.heap x = w.heap x := by
            intro ks
            induction ks with
            | nil => intro w _; rfl
            | cons k ks ihk =>
              intro w hks
              have e1 := ih k w x (hks k (List.mem_cons_self ..))
              have p1 := purge_purged n k w
              rw [M.forEach_cons]
              cases hp : purge n k w with
              | mk res w1 =>
                rw [hp] at e1 p1
                cases res with
                | error e => rw [M.bind_of_error hp]; exact e1
                | ok u =>
                  rw [M.bind_of_ok hp]
                  have e2 := ihk w1 fun y hy hr => hks y (List.mem_cons_of_mem _ hy) (purged_reach p1 hr)
                  cases hq : M.forEach (purge n) ks w1 with
                  | mk res2 w2 =>
                    rw [hq] at e2
                    cases res2 with
                    | error e => rw [M.bind_of_error hq]; exact e2.trans e1
                    | ok l => rw [M.bind_of_ok hq]; exact e2.trans e1
          have e := loop _ w fun k hk hr => hx (Reach.step i k x hm hk hr)
          cases hf : M.forEach (purge n) (w.heap i).body.subs w with
          | mk res w1 =>
            rw [hf] at e
            cases res with
            | error e' => rw [M.bind_of_error hf]; exact e
            | ok l =>
              rw [M.bind_of_ok hf, updObj_run]
              have hxi : x ≠ i := by rintro rfl; exact hx (Reach.refl x)
              simp only [Heap.set_ne hxi]
              exact e
    · rw [if_neg hm]; rfl

/-! ### Writing and purging -/

/-- `x.write_out(destination)`, `x.purge()` -/
def putBack (C : Cfg) (via : Via) (n : Nat) (dest : Option Realm) (j : ObjId) : W Unit := do
  let _ ← writeAs C via n dest false j
  purge n j

/-- The object has been put back: nothing has changed for a user, the object is no longer loaded,
and the repository holds its content under its reference. -/
structure PutBack (C : Cfg) (r : Realm) (j : ObjId) (w w' : World) : Prop where
  content : ∀ x, SameContent C w.repo.log w.heap (.mem x) w'.repo.log w'.heap (.mem x)
  unloaded : (w'.heap j).mapped = false
  stored : ∃ ref, (w'.heap j).ref = some ref ∧
    ∀ h0, SameContent C w.repo.log w.heap (.mem j) w'.repo.log h0 (.sto r ⟨(w.heap j).kind, ref⟩)
  others : ∀ x, ¬ Reach w.heap j x → w'.heap x = w.heap x
  bodies : ∀ x, (w'.heap x).mapped = true → (w.heap x).mapped = true ∧ (w'.heap x).body = (w.heap x).body
  next : w'.next = w.next
  clean : Clean r w'.heap j
  history : History C r w'

/-- Elements of containers are no top-level objects. -/
def Inner (h : Heap) (j : ObjId) : Prop := pubName (h j).kind = none

theorem inner_reach {h : Heap} {i j : ObjId} (hr : Reach h i j) (hi : Inner h i) (hs : Storable h i) : Inner h j := by
  induction hr with
  | refl => exact hi
  | step a k b ha hka hkb ih =>
    refine ih ?_ fun x hx hm => hs x (Reach.step a k x ha hka hx) hm
    obtain ⟨e, he, rfl⟩ := List.mem_map.mp hka
    exact ((hs a (Reach.refl _) ha).slots e he).unnamed

theorem inner_part {h : Heap} {i : ObjId} (hm : (h i).mapped = true) (hs : Storable h i) {k : Key} {e : Str × ObjId}
    (hd : dget (h i).body.kids k = some e) : Storable h e.2 ∧ Inner h e.2 := by
  have hmem := mem_of_dget hd
  exact ⟨hs.kid hm (List.mem_map.mpr ⟨_, hmem, rfl⟩), ((hs i (Reach.refl _) hm).slots _ hmem).unnamed⟩

theorem clean_reach {h : Heap} {i j : ObjId} (hr : Reach h i j) (hc : Clean r h i) : Clean r h j := by
  induction hr with
  | refl => exact hc
  | step a k b ha hka _ ih =>
    cases hc with
    | mk _ _ h2 => exact ih (h2 ha k hka)

theorem putBack_ok {w w' : World} (hr : r ≠ []) (hs : History C r w) {via : Via} {n : Nat} {j : ObjId}
    (hx : putBack C via n (some r) j w = (.ok (), w')) (hc : CollisionFree C w'.repo.log)
    (hi : Inner w.heap j) (hsto : Storable w.heap j) (ht : Trusted C r w j) (ho : Owned r w.heap j) :
    PutBack C r j w w' := by
  have hal : Alone r w.heap j := fun nm h => by rw [hi] at h; cases h
  unfold putBack at hx
  obtain ⟨ref, w1, h1, h2⟩ := M.bind_ok hx
  have p1 := purge_purged n j w1
  rw [h2] at p1
  have hc1 : CollisionFree C w1.repo.log := by rw [← p1.repo]; exact hc
  have int := hs.intact hr
  have d := int.done hr h1 hc1 hsto hal ht ho
  have s1 := History.write _ _ _ _ _ _ _ hs h1 d.caches hc1 hsto hal
  have any := d.tried.any.same
  have hi1 : Inner w1.heap j := by unfold Inner; rw [(any j).kind]; exact hi
  have own : ∀ x, Reach w1.heap j x → OwnName w1.heap x := by
    intro x hx ref _
    have : Inner w1.heap x := inner_reach hx hi1 (hsto.mono any)
    unfold normRef
    rw [if_neg (fun e => by unfold Inner at this; rw [e] at this; cases this)]
  have pg : Purgeable C r w1 j := ⟨d.trusted, own, fun x hx _ => (clean_reach hx d.clean).flag⟩
  have s2 : History C r w' := by
    have := History.purge w1 n j s1 pg
    rw [h2] at this
    exact this
  have pp := (d.intact.purge n j w1 pg).1
  rw [h2] at pp
  refine ⟨fun x => (d.look x).trans (by rw [p1.repo]; exact pp.look x), purge_unmaps h2,
    ⟨ref, by rw [p1.ref]; exact d.hasRef, fun h0 => ?_⟩, fun x hx => ?_, fun x hm => ?_,
    p1.next.trans d.tried.any.next, purged_clean p1 d.clean, s2⟩
  rotate_left
  · have e := purge_others n j w1 x fun h => hx (h.mono any)
    rw [h2] at e
    exact e.trans (d.tried.limits.out x (Or.inl hx))
  · have e := p1.mapped x hm
    rw [e] at hm ⊢
    exact ⟨by rw [← (any x).mapped]; exact hm, (any x).body⟩
  have := (int.read_back d h0).1
  rw [show normRef (w.heap j).kind ref = ref by
    unfold normRef
    rw [if_neg (fun e => by unfold Inner at hi; rw [e] at hi; cases hi)]] at this
  rw [p1.repo]
  exact this

/-- While git works, putting back succeeds. -/
theorem putBack_works {w : World} (hr : r ≠ []) (hrem : Ref.isRemote r = false) (hs : History C r w) {via : Via} {j : ObjId}
    (hvia : via = .file → (w.heap j).kind = .mtree .metadata) (hi : Inner w.heap j) (hsto : Storable w.heap j)
    (ht : Trusted C r w j) (ho : Owned r w.heap j) (hbl : NoBlanks r w.heap j)
    (hn : NoHole C w j) (hb : NoBare w.heap j) (hf : w.repo.faults = []) :
    ∃ N, ∀ n, N ≤ n → CollisionFree C (writeAs C via n (some r) false j w).2.eff →
      ∃ w', putBack C via n (some r) j w = (.ok (), w') := by
  have hal : Alone r w.heap j := fun nm h => by rw [hi] at h; cases h
  have int := hs.intact hr
  obtain ⟨N, h⟩ := int.writes (force := false) hr hrem hvia hsto hal ht ho hbl hn hf
  refine ⟨N, fun n hN hc => ?_⟩
  obtain ⟨ref, w1, e1⟩ := h n hN hc
  rw [e1] at hc
  have hc1 : CollisionFree C w1.repo.log := by
    have : w1.eff = w1.repo.log := by unfold World.eff; rw [caches_writeAs e1 int.caches]; rfl
    rw [← this]; exact hc
  obtain ⟨rank, post⟩ := int.post hr e1 hc1 hsto hal ht ho
  have hb1 : NoBare w1.heap j := by
    intro x hx hm hk
    have e := post.step.same x
    rw [e.body]
    exact hb x (hx.mono post.step.same) (by rw [← e.mapped]; exact hm) (by rw [← e.kind]; exact hk)
  obtain ⟨w2, e2⟩ := purge_succeeds n j w1 post.saved hb1
  refine ⟨w2, ?_⟩
  unfold putBack
  rw [M.bind_of_ok e1, e2]

/-! ### The calls -/

/-- The way in which an element of a version list is written -/
def elementVia (k : Kind) : Via := if k.isMtree then .dataset else .own

theorem ungetVersioned_eq {w : World} (n : Nat) {i : ObjId} {v : Str} {p : PPath} {dest : Option Realm}
    {e : Str × ObjId} (hd : dget (w.heap i).body.kids (.ver v p) = some e) :
    ungetVersioned C n i v p dest w = putBack C (elementVia (w.heap e.2).kind) n dest e.2 w := by
  unfold ungetVersioned putBack
  rw [M.bind_of_ok (getObj_run i w), hd]
  simp only
  have : writeElement (writeOut C n dest false) e.2 w = writeAs C (elementVia (w.heap e.2).kind) n dest false e.2 w := by
    unfold writeElement elementVia
    rw [M.bind_of_ok (getObj_run e.2 w)]
    by_cases hk : (w.heap e.2).kind.isMtree = true
    · rw [if_pos hk, if_pos hk]; rfl
    · rw [if_neg hk, if_neg hk]; rfl
  rw [M.bind_run, M.bind_run, this]

/-- C59 for the elements of version lists (`unget_versioned_element`, `unget_dataset_tree`).  `ht`, `ho`:
as in C17, for the element only. -/
theorem C59_element_partial {w w' : World} (hr : r ≠ []) (hs : History C r w) {n : Nat} {i : ObjId} {v : Str} {p : PPath}
    {e : Str × ObjId} (hm : (w.heap i).mapped = true) (hd : dget (w.heap i).body.kids (.ver v p) = some e)
    (hx : ungetVersioned C n i v p (some r) w = (.ok (), w')) (hc : CollisionFree C w'.repo.log)
    (hsto : Storable w.heap i) (ht : Trusted C r w e.2) (ho : Owned r w.heap e.2) : PutBack C r e.2 w w' := by
  rw [ungetVersioned_eq n hd] at hx
  exact putBack_ok hr hs hx hc (inner_part hm hsto hd).2 (inner_part hm hsto hd).1 ht ho

/-- C59: while git works, elements of version lists can be put back. -/
theorem C59_element_works_partial {w : World} (hr : r ≠ []) (hrem : Ref.isRemote r = false) (hs : History C r w)
    {i : ObjId} {v : Str} {p : PPath} {e : Str × ObjId} (hm : (w.heap i).mapped = true)
    (hd : dget (w.heap i).body.kids (.ver v p) = some e) (hsto : Storable w.heap i) (ht : Trusted C r w e.2)
    (ho : Owned r w.heap e.2) (hbl : NoBlanks r w.heap e.2) (hn : NoHole C w e.2) (hb : NoBare w.heap e.2)
    (hf : w.repo.faults = []) :
    ∃ N, ∀ n, N ≤ n → CollisionFree C (ungetVersioned C n i v p (some r) w).2.eff →
      ∃ w', ungetVersioned C n i v p (some r) w = (.ok (), w') := by
  obtain ⟨N, h⟩ := putBack_works (via := elementVia (w.heap e.2).kind) hr hrem hs (by
    unfold elementVia; split <;> intro h <;> cases h) (inner_part hm hsto hd).2 (inner_part hm hsto hd).1 ht ho hbl hn hb hf
  refine ⟨N, fun n hN hc => ?_⟩
  rw [ungetVersioned_eq n hd] at hc ⊢
  refine h n hN ?_
  unfold putBack at hc
  cases hw : writeAs C (elementVia (w.heap e.2).kind) n (some r) false e.2 w with
  | mk res w1 =>
    cases res with
    | error x => rw [M.bind_of_error hw] at hc; exact hc
    | ok ref =>
      rw [M.bind_of_ok hw] at hc
      have pg := purge_purged n e.2 w1
      have : (purge n e.2 w1).2.eff = w1.eff := by unfold World.eff; rw [pg.repo, pg.caches]
      rw [this] at hc
      exact hc

/-- The root record in the version list of the example is put back. -/
def sampleUnget : Except PyErr Unit × World :=
  ungetVersioned sampleCfg 20 7 c!"v1" ⟨[], []⟩ (some sampleRealm) sampleWorld

theorem sampleUnget_ok : sampleUnget = (.ok (), sampleUnget.2) := of_isOk_unit (by decide +kernel)

theorem sampleUnget_putBack : PutBack sampleCfg sampleRealm 4 sampleWorld sampleUnget.2 :=
  C59_element_partial (i := 7) (v := c!"v1") (p := ⟨[], []⟩) (e := (c!"0.1", 4)) (n := 20) (by decide) sample_history
    (by decide +kernel) (by decide +kernel) sampleUnget_ok (collisionFree_of_check (by decide +kernel))
    (sample_storable (by decide)) (sample_trusted _) (sample_owned _)

/-- The hypotheses of `C59_element_works_partial` are met by the root record in the version list of the example. -/
example : NoBare sampleWorld.heap 4 ∧ NoBlanks sampleRealm sampleWorld.heap 4 ∧ NoHole sampleCfg sampleWorld 4 ∧
    sampleWorld.repo.faults = [] := by
  have closed : ∀ j, Reach sampleWorld.heap 4 j → j < 5 := fun j hj =>
    reach_closed (S := fun p => p < 5) (fun p hp _ k hk => by
      have : ∀ p, p < 5 → ∀ k ∈ (sampleWorld.heap p).body.subs, k < 5 := by decide +kernel
      exact this p hp k hk) hj (by decide)
  refine ⟨fun j hj _ hk => ?_, (sample_session.1.sane (by decide)).noBlanks 4, sample_noHole (by decide), rfl⟩
  have : ∀ j, j < 5 → (sampleWorld.heap j).kind = .mrr → dget (sampleWorld.heap j).body.kids .dlm ≠ none := by
    decide +kernel
  exact this j (closed j hj) hk

/-- C59 for metadata of a file tree (`unget_metadata`). -/
theorem C59_metadata_partial {w w' : World} (hr : r ≠ []) (hs : History C r w) {n : Nat} {j : ObjId}
    (hx : ungetMetadata C n j (some r) w = (.ok (), w')) (hc : CollisionFree C w'.repo.log)
    (hsto : Storable w.heap j) (ht : Trusted C r w j) (ho : Owned r w.heap j) :
    (w.heap j).kind = .metadata ∧ PutBack C r j w w' := by
  unfold ungetMetadata at hx
  rw [M.bind_of_ok (getObj_run j w)] at hx
  by_cases hk : (w.heap j).kind = .metadata
  · rw [decide_eq_true hk, M.bind_of_ok (M.assert_true w)] at hx
    exact ⟨hk, putBack_ok (via := .own) hr hs hx hc (by unfold Inner; rw [hk]; rfl) hsto ht ho⟩
  · rw [decide_eq_false hk, M.bind_of_error (M.assert_false w)] at hx
    cases hx

/-- C59 for the version lists in a UUID set (`unget_version_list`): the list must belong to a repository
already. -/
theorem C59_version_list_partial {w w' : World} (hr : r ≠ []) (hs : History C r w) {n : Nat} {i : ObjId} {u : Uuid}
    {e : Str × ObjId} (hm : (w.heap i).mapped = true) (hd : dget (w.heap i).body.kids (.uuid u) = some e)
    (hx : ungetVersionList C n i u w = (.ok (), w')) (hrl : (w.heap e.2).realm = none ∨ (w.heap e.2).realm = some r)
    (hc : CollisionFree C w'.repo.log)
    (hsto : Storable w.heap i) (ht : Trusted C r w e.2) (ho : Owned r w.heap e.2) : PutBack C r e.2 w w' := by
  unfold ungetVersionList at hx
  rw [M.bind_of_ok (getObj_run i w), hd] at hx
  simp only at hx
  obtain ⟨h1, h2⟩ := C23_no_destination (C := C) n false e.2 w
  by_cases hl : (w.heap e.2).mapped = true ∧ (w.heap e.2).realm = some r
  · refine putBack_ok (via := .own) (n := n) hr hs ?_ hc (inner_part hm hsto hd).2 (inner_part hm hsto hd).1 ht ho
    rw [← hx]
    unfold putBack
    rw [M.bind_run, M.bind_run, h1 r hl.1 hl.2 hr]
    rfl
  · exfalso
    have hor : (w.heap e.2).mapped = false ∨ (w.heap e.2).realm = none := by
      by_cases hmm : (w.heap e.2).mapped = true
      · exact Or.inr (hrl.resolve_right fun h => hl ⟨hmm, h⟩)
      · exact Or.inl (by simpa using hmm)
    obtain ⟨g1, x, g2⟩ := h2 hor
    rw [M.bind_of_error (Prod.ext g2 rfl : writeOut C n none false e.2 w = (.error x, _))] at hx
    cases hx

theorem Intact.fine {w : World} (hr : r ≠ []) (hs : Intact C r w) (hf : AllFormed w) : Fine C w := by
  refine ⟨hs.kids, hs.ranked, ?_, hs.stored, hf⟩
  intro j hm
  obtain ⟨ref, _, h1, _⟩ := hs.fetched hm
  refine ⟨r, ref, hr, hs.away j hm, h1, ?_⟩
  by_cases hn : ref.isNone = true
  · exact Or.inl hn
  · exact Or.inr (hs.marked j hm ref h1 (by simpa using hn))

/-- Reading after something was put back: `get_versioned_element` of any version list returns what it
returned before, with its content. -/
theorem C59_again_partial {w w' : World} (hr : r ≠ []) {j : ObjId} (hp : PutBack C r j w w') (hfm : AllFormed w)
    {i : ObjId} (hi : i < w.next) {v : Str} {p : PPath}
    (he : look C w.repo.log w.heap [.ver v p] [] (.mem i) ≠ .absent) (hf : w'.repo.faults = []) :
    ∃ t x w2, getVersioned C i v p w' = (.ok (t, p, x), w2) ∧
      ∀ ks, look C w.repo.log w.heap (.ver v p :: ks) [] (.mem i) = look C w2.repo.log w2.heap ks t (.mem x) := by
  have hfm' : AllFormed w' := fun x hm => by
    obtain ⟨h1, h2⟩ := hp.bodies x hm
    rw [h2]
    exact hfm x h1
  obtain ⟨_, g1, _, g2⟩ := C32_get ((hp.history.intact hr).fine hr hfm') (i := i) (by rw [hp.next]; exact hi) v p
  obtain ⟨⟨t, p', x⟩, hy⟩ := g2 hf (by rw [← hp.content i]; exact he)
  obtain ⟨rfl, h⟩ := g1 t p' x hy
  exact ⟨t, x, _, Prod.ext hy rfl, fun ks => (hp.content i _ _).trans (h ks)⟩

/-- The root record that was put back in the example is read again. -/
example : ∃ t x w2, getVersioned sampleCfg 7 c!"v1" ⟨[], []⟩ sampleUnget.2 = (.ok (t, ⟨[], []⟩, x), w2) ∧
    ∀ ks, look sampleCfg sampleWorld.repo.log sampleWorld.heap (.ver c!"v1" ⟨[], []⟩ :: ks) [] (.mem 7) =
      look sampleCfg w2.repo.log w2.heap ks t (.mem x) :=
  C59_again_partial (by decide) sampleUnget_putBack sampleWorld_formed (by decide +kernel)
    (by intro h; have := congrArg (fun x => match x with | .absent => true | _ => false) h
        revert this; decide +kernel) (by decide +kernel)

/-! ### When it fails -/

/-- C59 is false: a version list that was purged, and not read again since, knows none of its elements
(they may be still loaded and modified), and a new version list of a UUID set has no repository; putting
back fails, and nothing happens. -/
theorem C59_fails (n : Nat) (i : ObjId) (w : World) :
    (∀ m w0 v p dest, purge m i w0 = (.ok (), w) → (w0.heap i).mapped = true →
      ungetVersioned C n i v p dest w = (.error .key, w)) ∧
    (∀ u e, dget (w.heap i).body.kids (.uuid u) = some e →
      ((w.heap e.2).mapped = false ∨ (w.heap e.2).realm = none) →
      (ungetVersionList C n i u w).2 = w ∧ ∃ x, (ungetVersionList C n i u w).1 = .error x) := by
  constructor
  · intro m w0 v p dest hp hm
    have h : (w.heap i).body.kids = [] := by
      cases m with
      | zero => cases hp
      | succ m =>
        unfold purge at hp
        rw [M.bind_of_ok (getObj_run i w0), if_pos hm] at hp
        split at hp
        · cases hp
        · split at hp
          · cases hp
          · obtain ⟨l, w1, _, h2⟩ := M.bind_ok hp
            rw [updObj_run] at h2
            cases h2
            simp [Body.purged]
    unfold ungetVersioned
    rw [M.bind_of_ok (getObj_run i w), h]
    rfl
  · intro u e hd h
    obtain ⟨g1, x, g2⟩ := (C23_no_destination (C := C) n false e.2 w).2 h
    unfold ungetVersionList
    rw [M.bind_of_ok (getObj_run i w), hd]
    simp only
    rw [M.bind_of_error (Prod.ext g2 rfl : writeOut C n none false e.2 w = (.error x, _))]
    exact ⟨g1, x, rfl⟩

/-- C59 is false for every loaded root record without dataset-level metadata: it is never put back,
although it may be written. -/
theorem C59_bare_fails (hr : r ≠ []) (n : Nat) {i : ObjId} {v : Str} {p : PPath} {e : Str × ObjId} {w : World}
    (hd : dget (w.heap i).body.kids (.ver v p) = some e) (hm : (w.heap e.2).mapped = true)
    (hk : (w.heap e.2).kind = .mrr) (hb : dget (w.heap e.2).body.kids .dlm = none) :
    ∃ x, (ungetVersioned C n i v p (some r) w).1 = .error x := by
  cases hx : ungetVersioned C n i v p (some r) w with
  | mk res w' =>
    cases res with
    | error x => exact ⟨x, rfl⟩
    | ok u =>
      exfalso
      rw [ungetVersioned_eq n hd] at hx
      unfold putBack at hx
      obtain ⟨ref, w1, h1, h2⟩ := M.bind_ok hx
      have any := (writeAs_any (C := C) hr (elementVia (w.heap e.2).kind) n false e.2 w).same e.2
      rw [h1] at any
      exact purge_bare (by rw [any.mapped]; exact hm) (by rw [any.kind]; exact hk) (by rw [any.body]; exact hb) h2

/-! ### C21: the modification is lost for the container -/

theorem reach_edit {w : World} {i j : ObjId} {b : Body ObjId} (h : Reach w.heap i j) : Reach (edit j b w).heap i j := by
  induction h with
  | refl => exact Reach.refl _
  | step a k c ha hka _ ih =>
    by_cases e : a = c
    · subst e; exact Reach.refl _
    · exact Reach.step a k c (by rw [edit_ne b w e]; exact ha) (by rw [edit_ne b w e]; exact hka) ih

/-- What was saved passes for saved again, once the modified part does. -/
theorem clean_again {h0 h1 h2 : Heap} {j : ObjId} (hout : ∀ x, ¬ Reach h1 j x → h2 x = h0 x)
    (hin : ∀ x, Reach h1 j x → Clean r h2 x) {i : ObjId} (hc : Clean r h0 i) : Clean r h2 i := by
  induction hc with
  | mk i f _ ih =>
    by_cases hx : Reach h1 j i
    · exact hin i hx
    · have e := hout i hx
      refine Clean.mk i (by rw [e]; exact f) fun hm k hk => ?_
      rw [e] at hm hk
      exact ih hm k hk

theorem reach_same {h h' : Heap} (hs : ∀ j, SameObj (h j) (h' j)) {i j : ObjId} (hr : Reach h i j) : Reach h' i j := by
  induction hr with
  | refl => exact Reach.refl _
  | step a k c ha hka _ ih =>
    exact Reach.step a k c (by rw [(hs a).mapped]; exact ha) (by rw [(hs a).body]; exact hka) ih

theorem lost {w w2 : World} (hr : r ≠ []) (hrem : Ref.isRemote r = false) (hs : History C r w) {i j : ObjId}
    {b : Body ObjId} (hi : Clean r w.heap i) (ht : Truth C r w.repo.log w.heap i) (hij : Reach w.heap i j) (hne : i ≠ j)
    (hs1 : History C r (edit j b w)) (hout : ∀ x, ¬ Reach (edit j b w).heap j x → w2.heap x = (edit j b w).heap x)
    (hin : ∀ x, Reach (edit j b w).heap j x → Clean r w2.heap x) (hs2 : History C r w2)
    (hg : Grows w.repo.log w2.repo.log) (hc : CollisionFree C w2.repo.log)
    (hrefs : ∀ n, refOf w2.repo.log r n = refOf w.repo.log r n) :
    ∃ ref, (∃ N, ∀ m, N ≤ m → writeOut C m (some r) false i w2 = (.ok ref, w2)) ∧
      ∀ h0, SameContent C w.repo.log w.heap (.mem i) w2.repo.log h0
        (.sto r ⟨(w.heap i).kind, normRef (w.heap i).kind ref⟩) := by
  obtain ⟨rank, hrk⟩ := (hs1.intact hr).ranked
  have hji : ¬ Reach (edit j b w).heap j i := by
    intro h
    have h1 := hrk.reach h
    have h2 := hrk.reach (reach_edit (b := b) hij)
    rcases h1 with e | h1
    · exact hne e.symm
    · rcases h2 with e | h2
      · exact hne e
      · exact absurd h1 (Nat.lt_asymm h2)
  have hout0 : ∀ x, ¬ Reach (edit j b w).heap j x → w2.heap x = w.heap x := by
    intro x hx
    rw [hout x hx, edit_ne b w]
    rintro rfl
    exact hx (Reach.refl x)
  have ei := hout0 i hji
  obtain ⟨ref, h1, h2⟩ := ht hi
  have cl := clean_again hout0 hin hi
  obtain ⟨rank2, hrk2⟩ := (hs2.intact hr).ranked
  refine ⟨ref, ⟨rank2 i + 1, fun m hm => ?_⟩, fun h0 => ?_⟩
  · obtain ⟨bo, hb⟩ := isSavedOn_runs (r := r) hrk2 (n := m) (i := i) (Nat.lt_of_succ_le hm)
    cases bo with
    | false => exact absurd cl (not_clean_of_isSavedOn hb)
    | true =>
      refine write_saved hr hrem hb (by rw [ei]; exact h1) ?_
      rw [ei]
      exact ((hs.intact hr).home i r hi.flag).2
  · have h3 := h2.same
    intro ks t
    rw [h3 ks t]
    refine (look_sto_mono hg hc ks t r _ (fun loc _ _ => Or.inr (hrefs loc)) ?_).symm
    exact (Full.of_same h3 h2.full) ks t

/-- C21 is false for every container `i` and every modification of a part `j` of it: after the modified
part was written on its own, writing the container does nothing and returns its old reference, under
which the repository holds the container with the part as it was before.

`hi`: before the modification, the container was saved, as it is after it was written or read; `ht1`, `ho1`:
as in C17 for the write of the part. -/
theorem C21_lost {w w2 : World} (hr : r ≠ []) (hrem : Ref.isRemote r = false) (hs : History C r w) {i j : ObjId}
    {b : Body ObjId} {m : Nat} (hi : isSavedOn m w.heap r i = .ok true) (ht : Truth C r w.repo.log w.heap i)
    (hij : Reach w.heap i j) (hne : i ≠ j)
    (hj : (w.heap j).mapped = true) (hb : ∀ k ∈ b.subs, k < w.next) (hac : ∀ k ∈ b.subs, ¬ Reach (edit j b w).heap k j)
    (hin : Inner (edit j b w).heap j) (hsto : Storable (edit j b w).heap j) (ht1 : Trusted C r (edit j b w) j)
    (ho1 : Owned r (edit j b w).heap j) {via : Via} {n : Nat} {force : Bool} {refj : Ref}
    (h : writeAs C via n (some r) force j (edit j b w) = (.ok refj, w2)) (hc : CollisionFree C w2.repo.log) :
    ∃ ref, (∃ N, ∀ m, N ≤ m → writeOut C m (some r) false i w2 = (.ok ref, w2)) ∧
      ∀ h0, SameContent C w.repo.log w.heap (.mem i) w2.repo.log h0
        (.sto r ⟨(w.heap i).kind, normRef (w.heap i).kind ref⟩) := by
  have hs1 := History.edit w j b hs hj hb hac
  have int1 := hs1.intact hr
  have hal : Alone r (edit j b w).heap j := fun nm h => by rw [hin] at h; cases h
  have d := int1.done hr h hc hsto hal ht1 ho1
  refine lost hr hrem hs (clean_of_isSavedOn hi) ht hij hne hs1 (fun x hx => d.tried.limits.out x (Or.inl hx))
    (fun x hx => ?_) (History.write _ _ _ _ _ _ _ hs1 h d.caches hc hsto hal) (int1.grows d.tried.any d.caches) hc ?_
  · have : Reach w2.heap j x := reach_same d.tried.any.same hx
    exact clean_reach this d.clean
  · intro nm
    rcases d.tried.limits.refs r nm with ⟨_, e⟩ | e
    · rw [hin] at e; cases e
    · exact e

theorem leaf_reach {w : World} {j : ObjId} {d : Data} {x : ObjId} (h : Reach (edit j ⟨d, []⟩ w).heap j x) : x = j := by
  cases h with
  | refl => rfl
  | step _ k _ _ hk _ => rw [edit_self] at hk; cases hk

theorem leaf_storable {w : World} {j : ObjId} {m : Sets} (hm : m.WF) :
    Storable (edit j ⟨.metadata m, []⟩ w).heap j := by
  intro x hx _
  rw [leaf_reach hx, edit_self]
  exact ⟨hm, List.nodup_nil, by intro e he; cases he⟩

theorem leaf_owned {w : World} {j : ObjId} {d : Data} : Owned r (edit j ⟨d, []⟩ w).heap j := by
  intro p hp _ _ k hk
  rw [leaf_reach hp, edit_self] at hk
  cases hk

/-- Modifying an object keeps what the others pass for. -/
theorem Intact.edit_trusted {w : World} (hs : Intact C r w) {j : ObjId} {b : Body ObjId} (hm : (w.heap j).mapped = true)
    (hb : ∀ k ∈ b.subs, k < w.next) (hac : ∀ k ∈ b.subs, ¬ Reach (MM.edit j b w).heap k j)
    (ht : ∀ x, Truth C r w.repo.log w.heap x) (i : ObjId) : Trusted C r (MM.edit j b w) i :=
  fun x _ => (hs.edit hm hb hac).2 x (ht x)

theorem of_saved {n : Nat} {h : Heap} {i : ObjId}
    (hs : (match isSavedOn n h r i with | .ok b => b | .error _ => false) = true) : isSavedOn n h r i = .ok true := by
  cases hx : isSavedOn n h r i with
  | error e => rw [hx] at hs; cases hs
  | ok b => rw [hx] at hs; exact congrArg _ hs

/-- Other metadata for the file of the example -/
def changedBody : Body ObjId := ⟨.metadata (sampleSets 3), []⟩

/-- The metadata of the file is modified, after the tree version list was written, and then written on its own. -/
def changedWrite : Except PyErr Ref × World :=
  writeAs sampleCfg .own 20 (some sampleRealm) false 1 (edit 1 changedBody sampleWrite.2)

/-- The hypotheses of `C21_lost` are met by the tree version list of the example, when the metadata of the
file is modified. -/
example : ∃ ref, (∃ N, ∀ m, N ≤ m → writeOut sampleCfg m (some sampleRealm) false 6 changedWrite.2 = (.ok ref, changedWrite.2)) ∧
    ∀ h0, SameContent sampleCfg sampleWrite.2.repo.log sampleWrite.2.heap (.mem 6) changedWrite.2.repo.log h0
      (.sto sampleRealm ⟨(sampleWrite.2.heap 6).kind, normRef (sampleWrite.2.heap 6).kind ref⟩) := by
  have sane := sampleWrite_session.sane (r := sampleRealm) (by decide)
  have hj : (sampleWrite.2.heap 1).mapped = true := by decide +kernel
  have hb : ∀ k ∈ changedBody.subs, k < sampleWrite.2.next := fun k hk => by cases hk
  have hac : ∀ k ∈ changedBody.subs, ¬ Reach (edit 1 changedBody sampleWrite.2).heap k 1 := fun k hk => by cases hk
  have hst : ∀ {a k : ObjId} {j : ObjId}, (sampleWrite.2.heap a).mapped = true → k ∈ (sampleWrite.2.heap a).body.subs →
      Reach sampleWrite.2.heap k j → Reach sampleWrite.2.heap a j := fun h1 h2 h3 => Reach.step _ _ _ h1 h2 h3
  refine C21_lost (m := 20) (n := 20) (via := .own) (force := false) (refj := okRef changedWrite) (b := changedBody)
    (by decide) (by decide) (sampleWrite_session.history (by decide)) (i := 6) (j := 1) (of_saved (by decide +kernel))
    (sane.trusted 6 6 (Reach.refl 6)) ?_ (by decide) hj hb hac rfl (leaf_storable (wf_sampleSets 3))
    (sane.intact.edit_trusted hj hb hac (fun x => sane.trusted x x (Reach.refl x)) 1) leaf_owned (of_isOk (by decide +kernel))
    (collisionFree_of_check (by decide +kernel))
  · exact hst (k := 5) (by decide +kernel) (by decide +kernel) (hst (k := 4) (by decide +kernel) (by decide +kernel)
      (hst (k := 3) (by decide +kernel) (by decide +kernel) (hst (k := 2) (by decide +kernel) (by decide +kernel)
        (hst (k := 1) (by decide +kernel) (by decide +kernel) (Reach.refl 1)))))

end MM
