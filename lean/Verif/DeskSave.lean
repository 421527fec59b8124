/-
Further steps of a process that adds metadata, and what is in the repository after it saved its two
top-level objects.
-/
import Verif.DeskSteps
import Verif.Props.Publish

namespace MM

variable {C : Cfg} {r : Realm}

/-! ### Adding runs and file-level metadata -/

/-- A run was added to metadata. -/
theorem Desk.ran {t u : ObjId} {w w' : World} (hr : r ≠ []) (d : Desk C r t u w) {i : ObjId} (hi : i < w.next) (ext : Str)
    {run : Instance} (hw : run.WF) {res : Except PyErr Unit} (h : addExtractorRun C i ext run w = (res, w')) :
    Desk C r t u w' := by
  cases h1 : ensureMapped C i w with
  | mk r1 w1 =>
    have hl := d.sound.fine.loadsStep hi
    rw [h1] at hl
    have d1 := d.loads hr hl
    cases r1 with
    | error e =>
      unfold addExtractorRun at h
      rw [M.bind_of_error h1] at h
      cases h; exact d1
    | ok b =>
      have hm := (d.sound.fine.loaded hi h1).2
      have hi1 := Nat.lt_of_lt_of_le hi hl.next
      unfold addExtractorRun at h
      rw [M.bind_of_ok h1, M.bind_of_ok (getObj_run i w1)] at h
      cases hd : (w1.heap i).body.data with
      | metadata m =>
        rw [hd] at h
        simp only at h
        rw [change_run] at h
        cases h
        have hok := (d1.fit i hi1 hm).1
        rw [hd] at hok
        refine d1.rewrite hi1 hm ?_ (Sets.wf_addRun hok ext hw)
        show Kind.metadata = (w1.heap i).body.data.kind
        rw [hd]; rfl
      | _ => rw [hd] at h; cases h; exact d1

/-- An object was put into a tree. -/
theorem Desk.filed {t u : ObjId} {w w' : World} (hr : r ≠ []) (d : Desk C r t u w) {leaf : Leaf} {i x : ObjId}
    (hi : i < w.next) (hik : (w.heap i).kind = .mtree leaf) (hx : x < w.next) (hxk : (w.heap x).kind = leaf.kind)
    (hl : Loose w x) {p : List Str} (hp : ∀ n ∈ p, CompOk n ∧ NameOk n) {res : Except PyErr Unit}
    (h : addChildAt C x p i w = (res, w')) : Desk C r t u w' := by
  have hf := d.sound.fine
  cases res with
  | error e => exact d.loads hr (addChildAt_error p (fun n hn => (hp n hn).1) hf hi h)
  | ok _ =>
    obtain ⟨w1, q, n, rest, m, hpq, hlo, ha⟩ := addChildAt_ok p (fun n hn => (hp n hn).1) hf hi
      (by rw [hik]; rfl) h
    have d1 := d.loads hr hlo
    have hik1 : (w1.heap i).kind = .mtree leaf := (hlo.kind i hi).trans hik
    have hxk1 : (w1.heap x).kind = leaf.kind := (hlo.kind x hx).trans hxk
    refine d1.added ha (Nat.lt_of_lt_of_le hi hlo.next) hik1 (Nat.lt_of_lt_of_le hx hlo.next) hxk1 (fun hr => ?_)
      (hp n (by rw [hpq]; simp)).2 (fun y hy => (hp y (by rw [hpq]; simp [hy])).2) ?_ (hl.loads hlo d1 hx)
    · have h1 := d1.sound.typed.level hr
      rw [hxk1, d1.sound.typed.node ha.tree q i hik1 ha.lead] at h1
      cases leaf <;> exact absurd h1 (by decide)
    · rintro rfl
      have := d1.tk
      rw [hxk1] at this
      cases leaf <;> cases this

/-! ### What a desk allows -/

theorem Desk.below_lt {t u : ObjId} {w : World} (d : Desk C r t u w) {i j : ObjId} (hi : i < w.next) (hj : Reach w.heap i j) :
    j < w.next := hj.lt d.sound.fine.kids hi

theorem Desk.storable {t u : ObjId} {w : World} (d : Desk C r t u w) {i : ObjId} (hi : i < w.next) : Storable w.heap i := by
  intro j hj hm
  have hf := d.sound.fine.formed j hm
  obtain ⟨h1, h2⟩ := d.fit j (d.below_lt hi hj) hm
  refine ⟨h1, hf.keys, fun e he => ?_⟩
  have ht := d.sound.typed j hm e he
  have hk := h2 e he
  have hs := hf.stamps
  unfold Obj.kind at ht
  cases hd : (w.heap j).body.data.kind with
  | mtree leaf =>
    rw [hd] at ht hs
    cases hek : e.1 <;> rw [hek] at ht hk <;> try exact absurd ht id
    exact ⟨hs rfl e he, hk, ht⟩
  | mrr =>
    rw [hd] at ht hs
    cases hek : e.1 <;> rw [hek] at ht hk <;> try exact absurd ht id
    all_goals exact ⟨hs rfl e he, ht⟩
  | vlist =>
    rw [hd] at ht hs
    cases hek : e.1 <;> rw [hek] at ht hk <;> try exact absurd ht id
    exact ⟨hk, ht⟩
  | tvl =>
    rw [hd] at ht hs
    cases hek : e.1 <;> rw [hek] at ht hk <;> try exact absurd ht id
    exact ⟨hk, ht⟩
  | uuidset =>
    rw [hd] at ht hs
    cases hek : e.1 <;> rw [hek] at ht hk <;> try exact absurd ht id
    exact ⟨hs rfl e he, ht⟩
  | text => rw [hd] at ht; cases hek : e.1 <;> rw [hek] at ht <;> exact absurd ht id
  | metadata => rw [hd] at ht; cases hek : e.1 <;> rw [hek] at ht <;> exact absurd ht id

/-- All that is in the process can be stored. -/
theorem Desk.all_proper {t u : ObjId} {w : World} (d : Desk C r t u w) :
    ∀ j, j < w.next → Proper C w.repo.log w.heap (.mem j) := by
  intro j hj ks
  induction ks generalizing j with
  | nil =>
    intro s0 s dat b hl
    by_cases hm : (w.heap j).mapped = true
    · rw [look_nil _ (view_mapped hm)] at hl
      cases hl
      exact ⟨(d.fit j hj hm).1, fun k hk => by cases hk⟩
    · exact d.proper j hj (by simpa using hm) [] s0 s dat b hl
  | cons k ks ih =>
    intro s0 s dat b hl
    by_cases hm : (w.heap j).mapped = true
    · have hv := view_mapped (C := C) (L := w.repo.log) hm
      cases hk : dget (w.heap j).body.kids k with
      | none => rw [look_cons_none hv (by rw [Body.dget_map, hk]; rfl)] at hl; cases hl
      | some e =>
        have hc : e.2 < w.next := d.sound.fine.kids j hm e.2 (dget_sub (t := e.1) (c := e.2) hk)
        have hkf : KeyFit k := (d.fit j hj hm).2 _ (mem_of_dget hk)
        have hd : dget ((w.heap j).body.map Node.mem).kids k = some (e.1, .mem e.2) := by rw [Body.dget_map, hk]; rfl
        have hrec : look C w.repo.log w.heap ks e.1 (.mem e.2) = .found s dat b := by
          by_cases hft : k = .ft
          · subst hft
            obtain ⟨bc, hbc⟩ := view_ok_of_look (d.sound.fine.all e.2 [] [])
            cases hbl : bc.blank with
            | true => rw [look_cons_blank hv hd hbc hbl] at hl; cases hl
            | false => rw [look_cons_ft hv hd hbc hbl] at hl; exact hl
          · rw [look_cons_some hv hd hft] at hl; exact hl
        obtain ⟨h1, h2⟩ := ih e.2 hc e.1 s dat b hrec
        refine ⟨h1, fun x hx => ?_⟩
        rcases List.mem_cons.mp hx with e1 | e1
        · rw [e1]; exact hkf
        · exact h2 x e1
    · exact d.proper j hj (by simpa using hm) (k :: ks) s0 s dat b hl

/-! ### Saving one top-level object -/

theorem Named.norm {l : Link} {nm : Str} (h : Named l nm) : normRef l.kind l.ref = l.ref := by
  rcases h with ⟨rfl, rfl⟩ | ⟨rfl, rfl⟩ <;> rfl

/-- After saving a top-level object the repository shows its content under its name, also when
nothing had to be written. -/
theorem Intact.shown {w w' : World} (hr : r ≠ []) (hs : Intact C r w) {n : Nat} {force : Bool} {i : ObjId} {ref : Ref}
    (h : writeOut C n (some r) force i w = (.ok ref, w')) (hc : CollisionFree C w'.repo.log) (hsto : Storable w.heap i)
    (hal : Alone r w.heap i) (ht : Trusted C r w i) (ho : Owned r w.heap i) {l : Link} {nm : Str} (hl : Named l nm)
    (hk : (w.heap i).kind = l.kind) (hsh : r ∈ (w.heap i).savedOn → (w.heap i).ref = some l.ref) :
    Shows C r w i w'.repo.log l := by
  have key : ∀ h0, SameContent C w.repo.log w.heap (.mem i) w'.repo.log h0 (.sto r l) := by
    have saved : Clean r w.heap i → w'.repo.log = w.repo.log → ∀ h0,
        SameContent C w.repo.log w.heap (.mem i) w'.repo.log h0 (.sto r l) := by
      intro hcl hlog h0
      obtain ⟨ref', e1, g⟩ := ht i (Reach.refl i) hcl
      rw [hsh hcl.flag] at e1
      cases e1
      have := g.same
      rw [hk, hl.norm] at this
      rw [hlog]
      exact this.trans (look_sto_heap r _)
    by_cases hm : (w.heap i).mapped = true
    · by_cases hu : ¬ Clean r w.heap i ∨ force = true
      · intro h0
        obtain ⟨e, e1, _⟩ := hl.ref
        have := hs.published hr h hc hm hsto hal ht ho (nm := nm) (by rw [hk]; exact e1) hu h0
        rw [hk, ← e] at this
        exact this
      · have hcl : Clean r w.heap i := Classical.not_not.mp fun e => hu (Or.inl e)
        have hfo : force = false := by
          cases force with
          | false => rfl
          | true => exact absurd (Or.inr rfl) hu
        rw [hfo] at h
        exact saved hcl (by rw [(writeOut_saved hr hcl h).1])
    · have hm : (w.heap i).mapped = false := by simpa using hm
      cases n with
      | zero => cases h
      | succ n =>
        rw [writeOut_away hm] at h
        split at h
        · split at h
          · rename_i hf
            cases h
            exact saved (Clean.mk i hf fun e => by rw [hm] at e; cases e) rfl
          · cases h
        · cases h
  exact ⟨key, fun h0 => Full.of_same (key h0) (hs.full i)⟩

theorem Shows.later {w : World} {i : ObjId} {L L' : Log} {l : Link} {nm : Str} (h : Shows C r w i L l) (hl : Named l nm)
    (hg : Grows L L') (hc : CollisionFree C L') (hn : refOf L' r nm = refOf L r nm) : Shows C r w i L' l := by
  have := fun h0 => named_kept hg hc hl hn (Or.inr h.full) h0
  exact ⟨fun h0 => (h.same h0).trans (this h0), fun h0 => Full.of_same (this h0) (h.full h0)⟩

/-! ### Saving both -/

theorem Desk.alone_tree {t u : ObjId} {w : World} (d : Desk C r t u w) : Alone r w.heap t := by
  intro nm hnm j hj ref href hloc
  rw [d.tk] at hnm
  cases hnm
  exact absurd ((d.top href).1 hloc) hj

/-- What holds for the UUID set after the tree version list was saved. -/
theorem Desk.after_tree {t u : ObjId} {w w' : World} (hr : r ≠ []) (d : Desk C r t u w) {n : Nat} {force : Bool} {ref : Ref}
    (h : writeOut C n (some r) force t w = (.ok ref, w')) (hc : CollisionFree C w'.repo.log) :
    WriteDone C r t ref w w' ∧ w'.heap u = w.heap u ∧ Trusted C r w' u ∧ Owned r w'.heap u ∧ Alone r w'.heap u := by
  have hsto := d.storable d.tl
  have hty := d.sound.typed
  have hd := d.intact.done hr (via := .own) h hc hsto d.alone_tree (fun j _ => d.truth j) d.rooted.tree_owned
  have same := hd.tried.any.same
  have out : ∀ j, ¬ Reach w.heap t j → w'.heap j = w.heap j := fun j hj => hd.tried.limits.out j (Or.inl hj)
  have hut : ¬ Reach w.heap t u := by
    intro hu
    have := hty.level hu
    rw [d.tk, d.uk] at this
    exact absurd this (by decide)
  have reach : ∀ {a b}, Reach w'.heap a b → Reach w.heap a b := fun hab => hab.mono same
  have reach' : ∀ {a b}, Reach w.heap a b → Reach w'.heap a b := by
    intro a b hab
    induction hab with
    | refl => exact Reach.refl _
    | step a k c hm hk _ ih => exact Reach.step a k c (by rw [(same a).mapped]; exact hm) (by rw [(same a).body]; exact hk) ih
  have has : ∀ p k, (w'.heap p).mapped = true → k ∈ (w'.heap p).body.subs → Has w.heap p k := by
    intro p k h1 h2
    rw [(same p).mapped] at h1
    rw [(same p).body] at h2
    exact ⟨h1, h2⟩
  -- everything below the tree version list passes for saved now
  have below : ∀ {a b}, Reach w.heap a b → Clean r w'.heap a → Clean r w'.heap b := by
    intro a b hab
    induction hab with
    | refl => exact id
    | step a k c hm hk _ ih =>
      intro hcl
      exact ih (hcl.kid (by rw [(same a).mapped]; exact hm) (by rw [(same a).body]; exact hk))
  -- an object that leads to something below the tree version list is below it, or passes not for saved
  have gate : ∀ {a b}, Reach w.heap a b → Reach w.heap t b → Reach w.heap t a ∨ ¬ Clean r w'.heap a := by
    intro a b hab
    induction hab with
    | refl => exact fun hb => Or.inl hb
    | step a k c hm hk _ ih =>
      intro hb
      by_cases hta : Reach w.heap t a
      · exact Or.inl hta
      · right
        intro hcl
        have hck := hcl.kid (by rw [(same a).mapped]; exact hm) (by rw [(same a).body]; exact hk)
        rcases ih hb with e | e
        · rcases d.rooted.door k a e ⟨hm, hk⟩ with e1 | ⟨e1, _⟩
          · exact hta e1
          · have := hcl.flag
            rw [out a hta] at this
            exact e1.2 this
        · exact e hck
  refine ⟨hd, out u hut, ?_, ?_, ?_⟩
  · intro j _
    by_cases htj : Reach w.heap t j
    · exact hd.trusted j (reach' htj)
    · intro hcl
      refine d.intact.write_truth hd.tried hd.caches hc d.alone_tree (d.truth j) (Or.inr ?_) hcl
      intro k hjk htk
      rcases gate hjk htk with e | e
      · exact absurd e htj
      · exact absurd hcl e
  · intro p hp hf hm k hk _ q hq hmq hkq
    have hp' := reach hp
    have hq' := reach hq
    have hpk := has p k hm hk
    have hqk := has q k hmq hkq
    rcases d.rooted.set_shared hty d.tk d.uk hp' hq' hpk hqk with e | ⟨e, _⟩
    · exact e.symm
    · by_cases htp : Reach w.heap t p
      · have hlow := d.rooted.shared hty d.tk d.uk htp hp'
        rcases d.rooted.door k q (htp.snoc hpk) hqk with e1 | ⟨_, hkm⟩
        · exact d.rooted.tree k q p (htp.snoc hpk) e1 htp hqk hpk
        · exfalso
          obtain ⟨key, hkey⟩ := hty.sub hpk.1 hpk.2
          rw [hkm] at hkey
          cases hkp : (w.heap p).kind with
          | mtree lf =>
            rw [hkp] at hkey hlow
            cases key <;> try exact absurd hkey id
            rcases hkey with hkey | hkey
            · cases hkey
            · cases lf <;> first | cases hkey; done | exact absurd hlow (by decide)
          | mrr => rw [hkp] at hkey; cases key <;> first | exact absurd hkey id | cases hkey
          | vlist => rw [hkp] at hlow; exact absurd hlow (by decide)
          | tvl => rw [hkp] at hlow; exact absurd hlow (by decide)
          | uuidset => rw [hkp] at hlow; exact absurd hlow (by decide)
          | text => rw [hkp] at hkey; cases key <;> exact absurd hkey id
          | metadata => rw [hkp] at hkey; cases key <;> exact absurd hkey id
      · rw [out p htp] at hf
        exact absurd hf e
  · intro nm hnm j hj ref' href hloc
    rw [out u hut, d.uk] at hnm
    cases hnm
    exfalso
    by_cases htj : Reach w.heap t j
    · obtain ⟨ref2, e1, g⟩ := hd.trusted j (reach' htj) (below htj hd.clean)
      rw [href] at e1
      cases e1
      obtain ⟨l, e2, e3⟩ := g.ok.loc
      rw [hloc] at e2
      cases e2
      rcases e3 with e3 | ⟨e3, _⟩ | e3
      · exact absurd e3 (by decide)
      · exact absurd e3 (by decide)
      · rw [(same j).kind] at e3
        have hlev := hty.level htj
        rw [d.tk] at hlev
        cases hkj : (w.heap j).kind with
        | uuidset => rw [hkj] at hlev; exact absurd hlev (by decide)
        | tvl => rw [hkj] at e3; exact absurd e3 (by decide)
        | _ => rw [hkj] at e3; cases e3
    · rw [out j htj] at href
      exact hj ((d.top href).2 hloc)

/-- Both top-level objects were saved: the repository shows the content of both. -/
theorem Desk.saved {t u : ObjId} {w w1 w2 : World} (hr : r ≠ []) (d : Desk C r t u w) {n n' : Nat} {force force' : Bool}
    {ref ref' : Ref} (h1 : writeOut C n (some r) force t w = (.ok ref, w1))
    {L1 : Log} {fs : List Fault} (hg1 : Grows w1.repo.log L1) (hn1 : ∀ nm, refOf L1 r nm = refOf w1.repo.log r nm)
    (h2 : writeOut C n' (some r) force' u (outside L1 fs w1) = (.ok ref', w2)) {L : Log} (hg : Grows w2.repo.log L)
    (hc : CollisionFree C L) (hn : ∀ nm, nm = tvlRefName ∨ nm = uuidSetRefName → refOf L r nm = refOf w2.repo.log r nm) :
    Shows C r w t L tvlLink ∧ Shows C r w u L uuidSetLink := by
  have hc2 : CollisionFree C w2.repo.log := hc.mono hg
  have hk1 : ∀ {i w w'} {n : Nat} {force : Bool} {ref : Ref}, w.caches = [] → w'.caches = [] →
      writeOut C n (some r) force i w = (.ok ref, w') → Grows w.repo.log w'.repo.log := by
    intro i w w' n force ref ha hb hw
    have := writeOut_any (C := C) hr n force i w
    rw [hw] at this
    have hgr := this.grows (by rw [ha]; exact List.nodup_nil)
    unfold World.eff at hgr
    rw [ha, hb] at hgr
    exact hgr
  have hca1 : w1.caches = [] := caches_writeAs (via := .own) h1 d.intact.caches
  have hca2 : w2.caches = [] := caches_writeAs (via := .own) (w := outside L1 fs w1) h2 hca1
  have hg2 : Grows L1 w2.repo.log := hk1 (w := outside L1 fs w1) hca1 hca2 h2
  have hcL : CollisionFree C L1 := hc2.mono hg2
  have hc1 : CollisionFree C w1.repo.log := hcL.mono hg1
  obtain ⟨hd, hu, htr, how, hal⟩ := d.after_tree hr h1 hc1
  have s1 := d.intact.shown hr h1 hc1 (d.storable d.tl) d.alone_tree (fun j _ => d.truth j) d.rooted.tree_owned
    (nm := tvlRefName) (Or.inl ⟨rfl, rfl⟩) d.tk d.tshown
  have hsto : Storable w1.heap u := (d.storable d.ul).mono hd.tried.any.same
  obtain ⟨int, keep⟩ := hd.intact.outside (fs := fs) hg1 hn1 hcL
  have s2 := int.shown hr h2 hc2 hsto hal (fun j hj => keep j (htr j hj)) how (nm := uuidSetRefName) (Or.inr ⟨rfl, rfl⟩)
    (by show (w1.heap u).kind = _; rw [hu]; exact d.uk) (by show r ∈ (w1.heap u).savedOn → (w1.heap u).ref = _; rw [hu]; exact d.ushown)
  have hrefs := (writeAs_tried (C := C) hr .own n' force' u (outside L1 fs w1) hsto).limits.refs r tvlRefName
  have hw2 : (writeAs C .own n' (some r) force' u (outside L1 fs w1)).2 = w2 := by
    show (writeOut C n' (some r) force' u (outside L1 fs w1)).2 = w2
    rw [h2]
  have hu' : ((outside L1 fs w1).heap u).kind = .uuidset := by show (w1.heap u).kind = _; rw [hu, d.uk]
  rw [hw2, hu'] at hrefs
  have hrefs : refOf w2.repo.log r tvlRefName = refOf w1.repo.log r tvlRefName := by
    rcases hrefs with ⟨_, e⟩ | e
    · exact absurd e (by decide)
    · exact e.trans (hn1 _)
  refine ⟨s1.later (nm := tvlRefName) (Or.inl ⟨rfl, rfl⟩) ((hg1.trans hg2).trans hg) hc ((hn _ (Or.inl rfl)).trans hrefs), ?_⟩
  have s2' := s2.later (nm := uuidSetRefName) (Or.inr ⟨rfl, rfl⟩) hg hc (hn _ (Or.inr rfl))
  exact ⟨fun h0 => ((hd.look u).trans (hd.intact.outside_look (fs := fs) hg1 hn1 hcL u)).trans (s2'.same h0), s2'.full⟩

end MM
