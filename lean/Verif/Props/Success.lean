/-
C27, C51, C52, C53 and C57: when writing succeeds.
-/
import Verif.WriteTotal
import Verif.Parts
import Verif.History
import Verif.Props.Session
import Verif.Props.Tree
import Verif.Props.Listing

namespace MM

variable {C : Cfg} {r : Realm}

/-- No node inside a tree is empty, and no set of datasets is empty: if a place holds a tree,
no place directly in it is empty; if it holds a UUID set, there is something in it. -/
structure NoHole (C : Cfg) (w : World) (i : ObjId) : Prop where
  inner : ∀ ks k t d b t' d' b', look C w.repo.log w.heap ks [] (.mem i) = .found t d b → d.kind.isMtree = true →
    look C w.repo.log w.heap (ks ++ [k]) [] (.mem i) = .found t' d' b' → b' = false
  sets : ∀ ks t b, look C w.repo.log w.heap ks [] (.mem i) = .found t .uuidset b →
    ∃ k, look C w.repo.log w.heap (ks ++ [k]) [] (.mem i) ≠ .absent

theorem blank_kids {κ : Type} {b : Body κ} (h : b.kids ≠ []) : b.blank = false := by
  unfold Body.blank
  cases hk : b.kids with
  | nil => exact absurd hk h
  | cons a l => simp

/-- An object below another is found by a list of keys. -/
theorem reach_look {L : Log} {h : Heap} {i p : ObjId} (hre : Reach h i p) (hs : Storable h i)
    (hm : (h p).mapped = true) (hb : (h p).body.blank = false) :
    ∃ ks, ∀ t, ∃ t', ∀ ks', look C L h (ks ++ ks') t (.mem i) = look C L h ks' t' (.mem p) := by
  induction hre with
  | refl i => exact ⟨[], fun t => ⟨t, fun _ => rfl⟩⟩
  | step i k p hmi hk hre ih =>
    obtain ⟨ks, hks⟩ := ih (hs.kid hmi hk) hm hb
    obtain ⟨e, he, rfl⟩ := List.mem_map.mp hk
    have hget := dget_of_mem (hs i (Reach.refl i) hmi).keys he
    have hview : view C L h (.mem i) = .ok ((h i).body.map .mem) := view_mapped hmi
    have hd : dget ((h i).body.map Node.mem).kids e.1 = some (e.2.1, .mem e.2.2) := by
      rw [Body.dget_map, hget]; rfl
    refine ⟨e.1 :: ks, fun t => ?_⟩
    obtain ⟨t', ht'⟩ := hks e.2.1
    refine ⟨t', fun ks' => ?_⟩
    rw [← ht']
    rw [List.cons_append]
    by_cases hft : e.1 = .ft
    · have hk2 : (h e.2.2).mapped = true ∧ (h e.2.2).body.blank = false := by
        cases hre with
        | refl => exact ⟨hm, hb⟩
        | step _ k2 _ hm2 hk2 _ =>
          refine ⟨hm2, blank_kids ?_⟩
          intro h0
          obtain ⟨e2, he2, _⟩ := List.mem_map.mp hk2
          rw [h0] at he2; cases he2
      rw [hft] at hd ⊢
      refine look_cons_ft hview hd (view_mapped hk2.1) ?_
      have : ((h e.2.2).body.map Node.mem).blank = (h e.2.2).body.blank := by simp [Body.blank, Body.map]
      rw [this]; exact hk2.2
    · exact look_cons_some hview hd hft

/-- Parts of `i` that are not loaded are saved.  Only the parts read from a version list that holds
nothing for them are not: see C52. -/
def NoBlanks (r : Realm) (h : Heap) (i : ObjId) : Prop :=
  ∀ j, Reach h i j → (h j).mapped = false → r ∈ (h j).savedOn

theorem Sane.noBlanks {w : World} (hs : Sane C r w) (i : ObjId) : NoBlanks r w.heap i := fun j _ => hs.away j

theorem NoHole.writable {w : World} (hs : Intact C r w) {i : ObjId} (hb : NoBlanks r w.heap i) (hsto : Storable w.heap i)
    (hw : NoHole C w i) : Writable r w.heap i := by
  have hblank : ∀ p, ((w.heap p).body.map Node.mem).blank = (w.heap p).body.blank := by
    intro p; simp [Body.blank, Body.map]
  constructor
  · intro j hj hm
    have hsv := hb j hj hm
    obtain ⟨ref, _, h1, _⟩ := hs.fetched hm
    exact ⟨hsv, by rw [(hs.home j r hsv).2]; simp, by rw [h1]; simp⟩
  · intro p hp hm hk c hc hkc
    obtain ⟨e, he, rfl⟩ := List.mem_map.mp hc
    have hkids : (w.heap p).body.kids ≠ [] := by intro h0; rw [h0] at he; cases he
    obtain ⟨ks, hks⟩ := reach_look (C := C) (L := w.repo.log) hp hsto hm (blank_kids hkids)
    obtain ⟨t', ht'⟩ := hks []
    have hbo := hsto p hp hm
    have hget := dget_of_mem hbo.keys he
    have hft : e.1 ≠ .ft := by
      have := hbo.slots e he
      intro h0
      rw [h0] at this
      have hkd : (w.heap p).body.data.kind.isMtree = true := hk
      cases hx : (w.heap p).body.data.kind <;> rw [hx] at this hkd <;> first | (cases hkd; done) | exact this
    have h1 := ht' []
    rw [List.append_nil, look_nil t' (view_mapped hm)] at h1
    have h2 := ht' [e.1]
    rw [look_part hm hget hft] at h2
    have key : ∀ t d b, look C w.repo.log w.heap [] e.2.1 (.mem e.2.2) = .found t d b → b = false := by
      intro t d b h3
      exact hw.inner ks e.1 _ _ _ t d b h1 hk (h2.trans h3)
    refine ⟨fun hmc h0 => ?_, fun hmc ref href => ?_⟩
    · have := key _ _ _ (look_nil e.2.1 (view_mapped hmc))
      rw [hblank] at this
      unfold Body.blank at this
      have hkd : (w.heap e.2.2).body.data.kind.isMtree = true := hkc
      rw [h0, hkd] at this
      cases this
    · cases hnn : ref.isNone with
      | false => rfl
      | true =>
        exfalso
        have hx := hs.away _ hmc
        have hfull := hs.full e.2.2 [] e.2.1
        have hu := look_unloaded (C := C) (L := w.repo.log) (h' := w.heap) hmc hx href [] e.2.1
        rw [hu] at hfull
        obtain ⟨d, hd⟩ := none_blank hnn hkc hfull
        have := key _ _ _ (hu.trans hd)
        cases this
  · intro p hp hm hk h0
    have hb : (w.heap p).body.blank = false := by
      unfold Body.blank
      have hkd : (w.heap p).body.data.kind = .uuidset := hk
      rw [hkd]; rfl
    obtain ⟨ks, hks⟩ := reach_look (C := C) (L := w.repo.log) hp hsto hm hb
    obtain ⟨t', ht'⟩ := hks []
    have h1 := ht' []
    rw [List.append_nil, look_nil t' (view_mapped hm)] at h1
    have hdat : ((w.heap p).body.map Node.mem).data = .uuidset := by
      have hkd : (w.heap p).body.data.kind = .uuidset := hk
      show (w.heap p).body.data = _
      cases hx : (w.heap p).body.data <;> rw [hx] at hkd <;> first | rfl | cases hkd
    rw [hdat] at h1
    obtain ⟨k, hk'⟩ := hw.sets ks _ _ h1
    rw [ht' [k]] at hk'
    refine hk' (look_cons_none (view_mapped hm) ?_)
    rw [Body.dget_map, h0]; rfl

/-- A check for objects that are completely loaded. -/
def solidCheck : Nat → Heap → ObjId → Bool
  | 0, _, _ => false
  | n + 1, h, i => (h i).mapped && ((h i).kind != .uuidset || !((h i).body.kids.filter fun e => e.1 != .ft).isEmpty) &&
    (h i).body.kids.all fun e => solidCheck n h e.2.2 &&
      (!(h i).kind.isMtree || !(h e.2.2).kind.isMtree || !(h e.2.2).body.kids.isEmpty)

theorem noHole_of_check {w : World} {n : Nat} {i : ObjId} (hc : solidCheck n w.heap i = true) : NoHole C w i := by
  have open1 : ∀ {n i}, solidCheck n w.heap i = true → (w.heap i).mapped = true := by
    intro n i h
    cases n with
    | zero => cases h
    | succ n => simp only [solidCheck, Bool.and_eq_true] at h; exact h.1.1
  have hbl : ∀ j, ((w.heap j).body.map Node.mem).blank = (w.heap j).body.blank := by
    intro j; simp [Body.blank, Body.map]
  -- going down one key
  have down : ∀ {n i k ks t t0 d b}, solidCheck (n + 1) w.heap i = true →
      look C w.repo.log w.heap (k :: ks) t (.mem i) = .found t0 d b →
      ∃ e, (k, e) ∈ (w.heap i).body.kids ∧ ∀ ks', look C w.repo.log w.heap (k :: ks') t (.mem i) =
        look C w.repo.log w.heap ks' e.1 (.mem e.2) := by
    intro n i k ks t t0 d b h hl
    have hm := open1 h
    have hv : view C w.repo.log w.heap (.mem i) = .ok ((w.heap i).body.map .mem) := view_mapped hm
    cases hd : dget (w.heap i).body.kids k with
    | none =>
      rw [look_cons_none hv (by rw [Body.dget_map, hd]; rfl)] at hl
      cases hl
    | some e =>
      have hmem := mem_of_dget hd
      have hd' : dget ((w.heap i).body.map Node.mem).kids k = some (e.1, .mem e.2) := by
        rw [Body.dget_map, hd]; rfl
      have hce : solidCheck n w.heap e.2 = true := by
        simp only [solidCheck, Bool.and_eq_true, List.all_eq_true] at h
        exact (h.2 _ hmem).1
      have hve : view C w.repo.log w.heap (.mem e.2) = .ok ((w.heap e.2).body.map .mem) := view_mapped (open1 hce)
      refine ⟨e, hmem, fun ks' => ?_⟩
      by_cases hft : k = .ft
      · subst hft
        by_cases hb : ((w.heap e.2).body.map Node.mem).blank = true
        · rw [look_cons_blank hv hd' hve hb] at hl; cases hl
        · exact look_cons_ft hv hd' hve (by simpa using hb)
      · exact look_cons_some hv hd' hft
  have inner : ∀ ks n i t0 k t d b t' d' b', solidCheck n w.heap i = true →
      look C w.repo.log w.heap ks t0 (.mem i) = .found t d b → d.kind.isMtree = true →
      look C w.repo.log w.heap (ks ++ [k]) t0 (.mem i) = .found t' d' b' → b' = false := by
    intro ks
    induction ks with
    | nil =>
      intro n i t0 k t d b t' d' b' hc h1 hk h2
      cases n with
      | zero => cases hc
      | succ n =>
        have hm := open1 hc
        rw [look_nil t0 (view_mapped hm)] at h1
        injection h1 with _ h1 _
        obtain ⟨e, he, hl⟩ := down hc h2
        rw [List.nil_append, hl []] at h2
        have hc' := hc
        simp only [solidCheck, Bool.and_eq_true, List.all_eq_true] at hc'
        obtain ⟨h3, h4⟩ := hc'.2 _ he
        simp only at h3 h4
        rw [look_nil e.1 (view_mapped (open1 h3))] at h2
        injection h2 with _ _ h2
        rw [← h2, hbl]
        have hki : (w.heap i).kind.isMtree = true := by rw [← h1] at hk; exact hk
        unfold Body.blank
        have hkk : (w.heap e.2).kind = (w.heap e.2).body.data.kind := rfl
        rw [hki, hkk] at h4
        cases hx : (w.heap e.2).body.data.kind.isMtree with
        | false => rfl
        | true =>
          rw [hx] at h4
          simpa using h4
    | cons k0 ks ih =>
      intro n i t0 k t d b t' d' b' hc h1 hk h2
      cases n with
      | zero => cases hc
      | succ n =>
        obtain ⟨e, he, hl⟩ := down hc h1
        have hc' := hc
        simp only [solidCheck, Bool.and_eq_true, List.all_eq_true] at hc'
        rw [hl ks] at h1
        rw [List.cons_append, hl] at h2
        exact ih n e.2 e.1 k t d b t' d' b' (hc'.2 _ he).1 h1 hk h2
  have sets : ∀ ks n i t0 t b, solidCheck n w.heap i = true →
      look C w.repo.log w.heap ks t0 (.mem i) = .found t .uuidset b →
      ∃ k, look C w.repo.log w.heap (ks ++ [k]) t0 (.mem i) ≠ .absent := by
    intro ks
    induction ks with
    | nil =>
      intro n i t0 t b hc h1
      cases n with
      | zero => cases hc
      | succ n =>
        have hm := open1 hc
        rw [look_nil t0 (view_mapped hm)] at h1
        injection h1 with _ h1 _
        have hk : (w.heap i).kind = .uuidset := by
          show (w.heap i).body.data.kind = _
          have : ((w.heap i).body.map Node.mem).data = (w.heap i).body.data := rfl
          rw [← this, h1]; rfl
        have hc' := hc
        simp only [solidCheck, Bool.and_eq_true, List.all_eq_true] at hc'
        have h2 := hc'.1.2
        rw [hk] at h2
        have h5 : ∃ e ∈ (w.heap i).body.kids, e.1 ≠ .ft := by
          simpa using h2
        obtain ⟨e0, he0, hne0⟩ := h5
        obtain ⟨x, hget⟩ := Option.isSome_iff_exists.mp (dget_isSome.mpr (List.mem_map.mpr ⟨e0, he0, rfl⟩))
        · refine ⟨e0.1, fun h => ?_⟩
          have hv : view C w.repo.log w.heap (.mem i) = .ok ((w.heap i).body.map .mem) := view_mapped hm
          have hce := (hc'.2 _ (mem_of_dget hget)).1
          rw [List.nil_append, look_cons hv, Body.dget_map, hget] at h
          simp only [Option.map_some] at h
          rw [view_mapped (open1 hce)] at h
          simp only at h
          split at h
          · rename_i hb
            exact hne0 hb.1
          · rw [look_nil _ (view_mapped (open1 hce))] at h; cases h
    | cons k0 ks ih =>
      intro n i t0 t b hc h1
      cases n with
      | zero => cases hc
      | succ n =>
        obtain ⟨e, he, hl⟩ := down hc h1
        have hc' := hc
        simp only [solidCheck, Bool.and_eq_true, List.all_eq_true] at hc'
        rw [hl ks] at h1
        obtain ⟨k, hk⟩ := ih n e.2 e.1 t b (hc'.2 _ he).1 h1
        exact ⟨k, by rw [List.cons_append, hl]; exact hk⟩
  exact ⟨fun ks k t d b t' d' b' => inner ks n i [] k t d b t' d' b' hc, fun ks t b => sets ks n i [] t b hc⟩

theorem Setup.quiet {rank : ObjId → Nat} {S : Scope} {n : Nat} {i : ObjId} {w w' : World}
    (s : Setup C r rank S n i w) (q : Quiet w w') (hw : Works w') (hsm : (w.heap i).kind.small = true)
    (hc : CollisionFree C w'.eff) : Setup C r rank S n i w' := by
  have m := q.mid hc s.shape s.truth (rank := rank) (m := 0)
  refine ⟨q.caches s.nodup, ?_, ?_, m.shape, m.truth, ?_, ?_, ?_, hw, s.deep, ?_⟩
  · rw [q.heap]; exact s.ranked
  · rw [q.heap]; exact s.storable
  · rw [q.heap]; exact s.entry
  · rw [q.heap]; exact s.alone
  · rw [q.heap]; exact s.writable
  · rw [q.heap]; exact Or.inl hsm

/-- Writing succeeds while git works. -/
theorem Intact.writes_at {w : World} (hr : r ≠ []) (hrem : Ref.isRemote r = false) (hs : Intact C r w) {via : Via}
    {force : Bool} {i : ObjId} (hvia : via = .file → (w.heap i).kind = .mtree .metadata)
    (hsto : Storable w.heap i) (hal : Alone r w.heap i) (ht : Trusted C r w i) (ho : Owned r w.heap i)
    (hb : NoBlanks r w.heap i) (hh : NoHole C w i) (hf : w.repo.faults = []) {rank0 : ObjId → Nat}
    (hrk0 : Ranked rank0 w.heap) {n : Nat} (hn0 : rank0 i < n)
    (hc : CollisionFree C (writeAs C via n (some r) force i w).2.eff) :
    ∃ ref w', writeAs C via n (some r) force i w = (.ok ref, w') := by
  obtain ⟨rank, hi, hrk, hsh, hen⟩ := scope_at hrk0 i ho
  have hn : rank i + 1 ≤ n := by rw [hi]; exact hn0
  have heff : w.eff = w.repo.log := by unfold World.eff; rw [hs.caches]; rfl
  have ht' : ∀ p, ¬ (Scope.below w.heap i) p → Truth C r w.eff w.heap p := fun p hp => by
    rw [heff]; exact ht p (Classical.not_not.mp hp)
  generalize Scope.below w.heap i = S at hsh hen ht'
  have hsetup : Setup C r rank S n i w :=
    ⟨by rw [hs.caches]; exact List.nodup_nil, hrk, hsto, hsh, ht', hen, hal,
      hh.writable hs hb hsto, hf, hn, Or.inr (by rw [hs.caches]; rfl)⟩
  have cl := closed_any C r
  have hloc : ∀ w0 w1 ref1, Setup C r rank S n i w0 →
      writeOut C n (some r) force i w0 = (.ok ref1, w1) → CollisionFree C w1.eff → ref1.loc ≠ none := by
    intro w0 w1 ref1 s0 e1 hc1
    have p := writeSpec C hr rank n _ force i w0 w1 ref1 e1 hc1 s0.nodup s0.ranked s0.storable s0.shape s0.truth
      s0.entry s0.alone
    obtain ⟨l, hl, _⟩ := p.good.ok.loc
    rw [hl]; simp
  have hown : Goes C (Setup C r rank S n i) (writeOut C n (some r) force i) fun ref w1 =>
      (dkeys w1.caches).Nodup ∧ Works w1 ∧ ref.loc ≠ none := by
    intro w0 s0 hc0
    obtain ⟨ref1, w1, e1, _⟩ := writeGoes C hr hrem rank n _ force i w0 s0 hc0
    have a := writeOut_any (C := C) hr n force i w0
    have hwk := writeOut_worksOn (C := C) hr n force i w0 s0.works
    rw [e1] at hc0 a hwk
    exact ⟨ref1, w1, e1, a.nodup s0.nodup, hwk, hloc w0 w1 ref1 s0 e1 hc0⟩
  cases via with
  | own =>
    obtain ⟨ref, w', e, _⟩ := hown w hsetup hc
    exact ⟨ref, w', e⟩
  | dataset =>
    have : Goes C (Setup C r rank S n i) (proxyWrite (writeOut C n (some r) force i)) fun _ _ => True := by
      unfold proxyWrite
      refine Goes.bind (r := r) (fun _ s => s.nodup) (writeOut_any hr n force _) (fun ref => ?_) hown fun ref => ?_
      · split
        · exact cl.pure _
        · exact cl.bind (cl.ref _ _) fun _ => cl.pure _
      · split
        · exact Goes.pure _ fun w h => trivial
        · intro w0 h0
          exact Goes.bind (r := r) (P := fun w => (dkeys w.caches).Nodup) (Q := fun _ _ => True) (fun _ d => d)
            (cl.ref _ _) (fun _ => cl.pure _) (goes_ref (C := C) true h0.2.2 fun _ _ _ _ _ _ _ => trivial)
            (fun _ => Goes.pure _ fun _ _ => trivial) w0 h0.1
    obtain ⟨ref, w', e, _⟩ := this w hsetup hc
    exact ⟨ref, w', e⟩
  | file =>
    have hk := hvia rfl
    have e0 : ∀ w0, writeAs C .file n (some r) force i w0 =
        fileTreeWrite C (some r) (writeOut C n (some r) force i) w0 := fun w0 => writeFileTree_eq hr n force i w0
    rw [e0] at hc ⊢
    have hfr : r ∉ ([] : List Realm) := by simp
    have := fileTree_goes (C := C) (r := r) (keys := []) (wr := writeOut C n (some r) force i)
      (D := fun ks w => Setup C r rank S n i w ∧ (w.heap i).kind.small = true ∧ dkeys w.caches = ks)
      (D' := fun ks w => (dkeys w.caches).Nodup ∧ Works w ∧ dkeys w.caches = ks)
      (writeOut_any hr n force i) (fun _ _ d => ⟨d.1.nodup, d.1.works, d.2.2⟩) (fun _ _ d => d)
      (fun a b d q hw hks hcb => ⟨d.1.quiet q hw d.2.1 hcb, by rw [q.heap]; exact d.2.1, hks⟩)
      (fun _ _ a b d q hw hks hcb => ⟨q.caches d.1, hw, hks⟩)
      (fun w0 d0 hc0 => by
        obtain ⟨ref1, w1, e1, h1, h2, h3⟩ := hown w0 d0.1 hc0
        exact ⟨ref1, w1, e1, ⟨h1, h2, (KeysOk.writeOut C n (some r) force i w0 w1 ref1 e1).trans d0.2.2⟩, h3⟩) hfr
    obtain ⟨ref, w', e, _⟩ := this w ⟨hsetup, by rw [hk]; rfl, by rw [hs.caches]; rfl⟩ hc
    exact ⟨ref, w', e⟩

theorem Intact.writes {w : World} (hr : r ≠ []) (hrem : Ref.isRemote r = false) (hs : Intact C r w) {via : Via}
    {force : Bool} {i : ObjId} (hvia : via = .file → (w.heap i).kind = .mtree .metadata)
    (hsto : Storable w.heap i) (hal : Alone r w.heap i) (ht : Trusted C r w i) (ho : Owned r w.heap i)
    (hb : NoBlanks r w.heap i) (hh : NoHole C w i) (hf : w.repo.faults = []) :
    ∃ N, ∀ n, N ≤ n → CollisionFree C (writeAs C via n (some r) force i w).2.eff →
      ∃ ref w', writeAs C via n (some r) force i w = (.ok ref, w') := by
  obtain ⟨rank, hrk⟩ := hs.ranked
  exact ⟨rank i + 1, fun n hn hc => hs.writes_at hr hrem hvia hsto hal ht ho hb hh hf hrk hn hc⟩

/-! ### C57 -/

/-- C57: in every state of a process (`History`) and while git works, an object that can be
stored (`hsto`) and has no holes (`hh`, `hb`) is written, for every recursion limit that is large
enough, and the repository then holds its content under the returned reference.  As for C17, what
passes for saved in it is stored as it is (`ht`, `ho`). -/
theorem C57_history_partial {w : World} (hr : r ≠ []) (hrem : Ref.isRemote r = false) (hs : History C r w) {via : Via}
    {force : Bool} {i : ObjId} (hvia : via = .file → (w.heap i).kind = .mtree .metadata)
    (hsto : Storable w.heap i) (hal : Alone r w.heap i) (ht : Trusted C r w i) (ho : Owned r w.heap i)
    (hb : NoBlanks r w.heap i) (hh : NoHole C w i) (hf : w.repo.faults = []) :
    ∃ N, ∀ n, N ≤ n → CollisionFree C (writeAs C via n (some r) force i w).2.eff →
      ∃ ref w', writeAs C via n (some r) force i w = (.ok ref, w') ∧
        ∀ h0, SameContent C w.repo.log w.heap (.mem i) w'.repo.log h0
          (.sto r ⟨(w.heap i).kind, normRef (w.heap i).kind ref⟩) := by
  have int := hs.intact hr
  obtain ⟨N, h⟩ := int.writes (force := force) hr hrem hvia hsto hal ht ho hb hh hf
  refine ⟨N, fun n hn hc => ?_⟩
  obtain ⟨ref, w', e⟩ := h n hn hc
  refine ⟨ref, w', e, fun h0 => ?_⟩
  rw [e] at hc
  have hc' : CollisionFree C w'.repo.log := by
    have : w'.eff = w'.repo.log := by unfold World.eff; rw [caches_writeAs e int.caches]; rfl
    rw [← this]; exact hc
  exact (int.read_back (int.done hr e hc' hsto hal ht ho) h0).1

/-- C57 in the states of `Session`. -/
theorem C57_partial {w : World} (hr : r ≠ []) (hrem : Ref.isRemote r = false) (hs : Session C r w) {via : Via}
    {force : Bool} {i : ObjId} (hvia : via = .file → (w.heap i).kind = .mtree .metadata)
    (hsto : Storable w.heap i) (hal : Alone r w.heap i)
    (hh : NoHole C w i) (hf : w.repo.faults = []) :
    ∃ N, ∀ n, N ≤ n → CollisionFree C (writeAs C via n (some r) force i w).2.eff →
      ∃ ref w', writeAs C via n (some r) force i w = (.ok ref, w') ∧
        ∀ h0, SameContent C w.repo.log w.heap (.mem i) w'.repo.log h0
          (.sto r ⟨(w.heap i).kind, normRef (w.heap i).kind ref⟩) :=
  C57_history_partial hr hrem (hs.history hr) hvia hsto hal ((hs.sane hr).trusted i) ((hs.sane hr).owned i)
    ((hs.sane hr).noBlanks i) hh hf

/-! ### C27 -/

theorem found_above {L : Log} {h : Heap} : ∀ {ks ks' : List Key} {t : Str} {n : Node} {t' : Str} {d : Data} {b : Bool},
    look C L h (ks ++ ks') t n = .found t' d b → ∃ t0 d0 b0, look C L h ks t n = .found t0 d0 b0 := by
  intro ks
  induction ks with
  | nil =>
    intro ks' t n t' d b h
    obtain ⟨bd, hv⟩ := view_ok_of_look (C := C) (ks := [] ++ ks') (t := t) (n := n) (by rw [h]; simp)
    exact ⟨_, _, _, look_nil t hv⟩
  | cons k ks ih =>
    intro ks' t n t' d b hl
    rw [List.cons_append] at hl
    obtain ⟨bd, hv⟩ := view_ok_of_look (C := C) (ks := k :: (ks ++ ks')) (t := t) (n := n) (by rw [hl]; simp)
    rw [look_cons hv] at hl ⊢
    cases hd : dget bd.kids k with
    | none => rw [hd] at hl; cases hl
    | some x =>
      rw [hd] at hl
      simp only at hl ⊢
      cases hx : view C L h x.2 with
      | error e => rw [hx] at hl; cases hl
      | ok b' =>
        rw [hx] at hl
        simp only at hl ⊢
        split at hl
        · cases hl
        · rename_i hne
          rw [if_neg hne]
          exact ih hl

/-- What is found under a name carries no time stamp. -/
theorem stamp_names {L : Log} {h : Heap} (hp : HeapFormed h) : ∀ {a : List Str} {n : Node} {t : Str} {d : Data} {b : Bool},
    look C L h (names a) [] n = .found t d b → t = [] := by
  intro a
  induction a with
  | nil =>
    intro n t d b hl
    rw [show names [] = [] from rfl] at hl
    obtain ⟨bd, hv⟩ := view_ok_of_look (C := C) (ks := []) (t := []) (n := n) (by rw [hl]; simp)
    rw [look_nil [] hv] at hl
    injection hl with hl _ _
    exact hl.symm
  | cons x a ih =>
    intro n t d b hl
    rw [show names (x :: a) = .name x :: names a from rfl] at hl
    obtain ⟨bd, hv⟩ := view_ok_of_look (C := C) (ks := .name x :: names a) (t := []) (n := n) (by rw [hl]; simp)
    have hf : Formed bd := by
      cases n with
      | mem i => exact view_formed hp hv
      | sto r l =>
        simp only [view] at hv
        cases he : strictFetch C L r l.kind l.ref with
        | error e => rw [he] at hv; cases hv
        | ok b0 =>
          rw [he] at hv
          cases hv
          exact (fetch_formed (strictFetch_ok he).1).map _
    rw [look_cons hv] at hl
    cases hd : dget bd.kids (.name x) with
    | none => rw [hd] at hl; cases hl
    | some y =>
      have hy : y.1 = [] :=
        hf.stamps (stamped_tree (fits_name (hf.fits _ (mem_of_dget hd)))) _ (mem_of_dget hd)
      rw [hd] at hl
      simp only at hl
      cases hx : view C L h y.2 with
      | error e => rw [hx] at hl; cases hl
      | ok b' =>
        rw [hx] at hl
        simp only at hl
        split at hl
        · cases hl
        · rw [hy] at hl
          exact ih hl

theorem prefix_snoc {α : Type} {p ks : List α} {k : α} (h : p <+: ks ++ [k]) (hn : ¬ p <+: ks) : p = ks ++ [k] := by
  rcases List.prefix_concat_iff.mp h with h | h
  · exact h
  · exact absurd h hn

/-- C27: adding an element that is not an empty tree itself makes no holes. -/
theorem C27_added_partial {w w' : World} (hs : Fine C w) {i child : ObjId} (hi : i < w.next)
    (hc : child < w.next) (hk : (w.heap i).kind.isMtree = true) (hone : OnePath w.heap i)
    (hca : Apart w.heap child i) {p : List Str} (hp : ∀ n ∈ p, CompOk n)
    (h : addChildAt C child p i w = (.ok (), w')) (hh : NoHole C w i) (hhc : NoHole C w child)
    (hne : ∀ t d b, look C w.repo.log w.heap [] [] (.mem child) = .found t d b → b = false) :
    NoHole C w' i := by
  obtain ⟨h1, h2, h3, _⟩ := C11_added hs hi hc hk hone hca hp h
  have above : ∀ a, a <+: p → ¬ names p <+: names a → ∃ leaf,
      look C w'.repo.log w'.heap (names a) [] (.mem i) = .found [] (.mtree leaf) false ∧
      ∀ d e, look C w.repo.log w.heap (names a) [] (.mem i) = .found [] d e → d = .mtree leaf := by
    rintro a ⟨b, rfl⟩ hb
    refine h2 a b rfl ?_
    rintro rfl
    rw [List.append_nil] at hb
    exact hb (List.prefix_refl _)
  constructor
  · intro ks k t d b t' d' b' g1 gk g2
    by_cases hu : names p <+: ks
    · obtain ⟨s, rfl⟩ := hu
      rw [h1] at g1
      rw [List.append_assoc, h1] at g2
      exact hhc.inner s k t d b t' d' b' g1 gk g2
    · by_cases hu' : names p <+: ks ++ [k]
      · have e := prefix_snoc hu' hu
        rw [← e, ← List.append_nil (names p), h1] at g2
        exact hne _ _ _ g2
      · by_cases ha : ∃ a, a <+: p ∧ ks ++ [k] = names a
        · obtain ⟨a, ha, e⟩ := ha
          obtain ⟨leaf, g3, _⟩ := above a ha (by rw [← e]; exact hu')
          rw [e, g3] at g2
          injection g2 with _ _ g2
          exact g2.symm
        · have g3 := h3 (ks ++ [k]) hu' fun a ha' e => ha ⟨a, ha', e⟩
          rw [g3] at g2
          by_cases hb : ∃ a, a <+: p ∧ ks = names a
          · obtain ⟨a, ha', rfl⟩ := hb
            obtain ⟨leaf, _, g4⟩ := above a ha' hu
            obtain ⟨t0, d0, b0, g5⟩ := found_above g2
            have ht0 : t0 = [] := stamp_names hs.plain g5
            subst ht0
            have := g4 _ _ g5
            exact hh.inner _ k _ _ _ t' d' b' g5 (by rw [this]; rfl) g2
          · have g4 := h3 ks hu fun a ha' e => hb ⟨a, ha', e⟩
            rw [g4] at g1
            exact hh.inner ks k t d b t' d' b' g1 gk g2
  · intro ks t b g1
    by_cases hu : names p <+: ks
    · obtain ⟨s, rfl⟩ := hu
      rw [h1] at g1
      obtain ⟨k, hk⟩ := hhc.sets s t b g1
      exact ⟨k, by rw [List.append_assoc, h1]; exact hk⟩
    · have nb : ∀ a, a <+: p → ks ≠ names a := by
        rintro a ha rfl
        obtain ⟨leaf, g3, _⟩ := above a ha hu
        rw [g3] at g1
        injection g1 with _ g1 _
        cases g1
      rw [h3 ks hu nb] at g1
      obtain ⟨k, hk⟩ := hh.sets ks t b g1
      refine ⟨k, ?_⟩
      rw [h3 (ks ++ [k])]
      · exact hk
      · intro hu'
        obtain ⟨q, n, e1, e2, _⟩ := names_snoc (prefix_snoc hu' hu)
        exact nb q ⟨[n], e1.symm⟩ e2
      · intro a ha e
        obtain ⟨q, n, e1, e2, _⟩ := names_snoc e.symm
        refine nb q ?_ e2
        rw [e1] at ha
        exact (List.prefix_append q [n]).trans ha

/-- C27: removing an element makes no hole, if it was directly in the root of the tree or the
node that held it holds something else. -/
theorem C27_removed_partial {w w' : World} (hs : Fine C w) {i : ObjId} (hi : i < w.next)
    (hone : OnePath w.heap i) {q : List Str} {n : Str} (h : removeChildAt C (q ++ [n]) i w = (.ok (), w'))
    (hh : NoHole C w i)
    (hq : q = [] ∨ ∃ k, k ≠ n ∧ look C w.repo.log w.heap (names (q ++ [k])) [] (.mem i) ≠ .absent) :
    NoHole C w' i := by
  obtain ⟨q', n', he, _, h1, ⟨leaf, b0, h2, h3, h4⟩, h5, _⟩ := C13_removed hs hi hone h
  obtain ⟨rfl, e⟩ := List.append_inj' he rfl
  cases e
  constructor
  · intro ks k t d b t' d' b' g1 gk g2
    by_cases hu : names (q ++ [n]) <+: ks ++ [k]
    · obtain ⟨s, e⟩ := hu
      rw [← e, h1] at g2
      cases g2
    · have hu0 : ¬ names (q ++ [n]) <+: ks := fun h => hu (h.trans (List.prefix_append _ _))
      by_cases hk : ks ++ [k] = names q
      · rw [hk, h3] at g2
        injection g2 with _ _ g2
        rw [← g2]
        refine h4.mpr (hq.resolve_left ?_)
        rintro rfl
        have := congrArg List.length hk
        simp [names] at this
      · rw [h5 _ hu hk] at g2
        by_cases hkq : ks = names q
        · rw [hkq] at g2
          exact hh.inner _ k _ _ _ t' d' b' h2 rfl g2
        · rw [h5 _ hu0 hkq] at g1
          exact hh.inner _ k _ _ _ t' d' b' g1 gk g2
  · intro ks t b g1
    have hu0 : ¬ names (q ++ [n]) <+: ks := by
      rintro ⟨s, rfl⟩
      rw [h1] at g1; cases g1
    have hkq : ks ≠ names q := by
      rintro rfl
      rw [h3] at g1
      injection g1 with _ g1 _
      cases g1
    rw [h5 _ hu0 hkq] at g1
    obtain ⟨k, hk⟩ := hh.sets ks t b g1
    refine ⟨k, ?_⟩
    by_cases hu : names (q ++ [n]) <+: ks ++ [k]
    · have e := prefix_snoc hu hu0
      rw [names_append] at e
      obtain ⟨e1, _⟩ := List.append_inj' e rfl
      exact absurd e1.symm hkq
    · by_cases hk2 : ks ++ [k] = names q
      · rw [hk2, h3]; simp
      · rw [h5 _ hu hk2]; exact hk

/-- C27: a tree with no empty nodes in it can be written, and the stored tree has the same
elements.  By `C27_added_partial` and `C27_removed_partial`, trees built by adding elements,
and by removals that leave no empty node behind, are such trees.  Partial: a removal that
leaves an empty node behind makes this wrong (`C27_false`). -/
theorem C27_partial {w : World} (hr : r ≠ []) (hrem : Ref.isRemote r = false) (hs : History C r w)
    {force : Bool} {i : ObjId} (hk : (w.heap i).kind = .mtree .metadata ∨ (w.heap i).kind = .mtree .mrr)
    (hsto : Storable w.heap i) (hal : Alone r w.heap i) (ht : Trusted C r w i) (ho : Owned r w.heap i)
    (hb : NoBlanks r w.heap i) (hh : NoHole C w i) (hf : w.repo.faults = []) :
    ∃ via N, ∀ n, N ≤ n → CollisionFree C (writeAs C via n (some r) force i w).2.eff →
      ∃ ref w', writeAs C via n (some r) force i w = (.ok ref, w') ∧
        ∀ q t d b h0, look C w.repo.log w.heap (names q) [] (.mem i) = .found t d b ↔
          look C w'.repo.log h0 (names q) [] (.sto r ⟨(w.heap i).kind, normRef (w.heap i).kind ref⟩) = .found t d b := by
  have main : ∀ via, (via = .file → (w.heap i).kind = .mtree .metadata) →
      ∃ N, ∀ n, N ≤ n → CollisionFree C (writeAs C via n (some r) force i w).2.eff →
      ∃ ref w', writeAs C via n (some r) force i w = (.ok ref, w') ∧
        ∀ q t d b h0, look C w.repo.log w.heap (names q) [] (.mem i) = .found t d b ↔
          look C w'.repo.log h0 (names q) [] (.sto r ⟨(w.heap i).kind, normRef (w.heap i).kind ref⟩) = .found t d b := by
    intro via hvia
    obtain ⟨N, h⟩ := C57_history_partial (force := force) hr hrem hs hvia hsto hal ht ho hb hh hf
    refine ⟨N, fun n hn hc => ?_⟩
    obtain ⟨ref, w', e, hsame⟩ := h n hn hc
    refine ⟨ref, w', e, fun q t d b h0 => ?_⟩
    rw [hsame h0 (names q) []]
  rcases hk with hk | hk
  · exact ⟨.file, main .file fun _ => hk⟩
  · exact ⟨.dataset, main .dataset fun h => by cases h⟩

/-! ### C52 -/

theorem any_stamp {L : Log} {h : Heap} {n : Node} {ks : List Key} {t t1 : Str} {d : Data} {b : Bool}
    (hl : look C L h ks t n = .found t1 d b) : ∃ t2, look C L h ks [] n = .found t2 d b := by
  cases ks with
  | cons k ks => exact ⟨t1, hl⟩
  | nil =>
    obtain ⟨bd, hv⟩ := view_ok_of_look (C := C) (ks := []) (t := t) (n := n) (by rw [hl]; simp)
    rw [look_nil t hv] at hl
    injection hl with _ h1 h2
    exact ⟨[], by rw [look_nil [] hv, h1, h2]⟩

/-- C52: a version list can be written while git works, if no element has an empty node
inside; the elements themselves may be empty.  The stored list has the content of the list.
Partial: elements that were read from a list where they are empty and were not looked into
(`hb`, see `C52_fails`). -/
theorem C52_partial {w : World} (hr : r ≠ []) (hrem : Ref.isRemote r = false) (hs : History C r w)
    {force : Bool} {i : ObjId} (hk : (w.heap i).kind = .tvl ∨ (w.heap i).kind = .vlist) (hm : (w.heap i).mapped = true)
    (hsto : Storable w.heap i) (hal : Alone r w.heap i) (ht : Trusted C r w i) (ho : Owned r w.heap i)
    (hb : NoBlanks r w.heap i) (hh : ∀ e ∈ (w.heap i).body.kids, NoHole C w e.2.2) (hf : w.repo.faults = []) :
    ∃ N, ∀ n, N ≤ n → CollisionFree C (writeAs C .own n (some r) force i w).2.eff →
      ∃ ref w', writeAs C .own n (some r) force i w = (.ok ref, w') ∧
        ∀ h0, SameContent C w.repo.log w.heap (.mem i) w'.repo.log h0
          (.sto r ⟨(w.heap i).kind, normRef (w.heap i).kind ref⟩) := by
  refine C57_history_partial hr hrem hs (by intro h; cases h) hsto hal ht ho hb ?_ hf
  have hbo := hsto i (Reach.refl i) hm
  have hk' : (w.heap i).body.data.kind = .tvl ∨ (w.heap i).body.data.kind = .vlist := hk
  have hself := look_nil (C := C) [] (view_mapped (C := C) (L := w.repo.log) hm)
  have down : ∀ k ks, look C w.repo.log w.heap (k :: ks) [] (.mem i) = .absent ∨
      ∃ e, (k, e) ∈ (w.heap i).body.kids ∧ ∀ ks', look C w.repo.log w.heap (k :: ks') [] (.mem i) =
        look C w.repo.log w.heap ks' e.1 (.mem e.2) := by
    intro k ks
    cases hd : dget (w.heap i).body.kids k with
    | none => exact Or.inl (look_cons_none (view_mapped hm) (by rw [Body.dget_map, hd]; rfl))
    | some e =>
      have hmem := mem_of_dget hd
      have hft : k ≠ .ft := by
        have := hbo.slots _ hmem
        rintro rfl
        rcases hk' with h | h <;> rw [h] at this <;> exact this
      exact Or.inr ⟨e, hmem, fun ks' => look_part hm hd hft ks' []⟩
  constructor
  · intro ks k t d b t' d' b' g1 gk g2
    cases ks with
    | nil =>
      rw [hself] at g1
      injection g1 with _ g1 _
      have g1 : (w.heap i).body.data = d := g1
      rw [← g1] at gk
      rcases hk' with h | h <;> rw [h] at gk <;> cases gk
    | cons x ks =>
      rcases down x ks with h | ⟨e, he, h⟩
      · rw [h] at g1; cases g1
      · rw [h] at g1
        rw [List.cons_append, h] at g2
        obtain ⟨t2, g1⟩ := any_stamp g1
        obtain ⟨t3, g2⟩ := any_stamp g2
        exact (hh _ he).inner ks k _ _ _ _ _ _ g1 gk g2
  · intro ks t b g1
    cases ks with
    | nil =>
      rw [hself] at g1
      injection g1 with _ g1 _
      have g1 : (w.heap i).body.data = .uuidset := g1
      rw [g1] at hk'
      rcases hk' with h | h <;> cases h
    | cons x ks =>
      rcases down x ks with h | ⟨e, he, h⟩
      · rw [h] at g1; cases g1
      · rw [h] at g1
        obtain ⟨t2, g1⟩ := any_stamp g1
        obtain ⟨k, hk⟩ := (hh _ he).sets ks _ _ g1
        refine ⟨k, ?_⟩
        rw [List.cons_append, h]
        cases ks with
        | nil => exact hk
        | cons y ks => exact hk

/-! ### Examples -/

theorem sample_noHole {i : ObjId} (hi : i < 9) : NoHole sampleCfg sampleWorld i := by
  have : ∀ i, i < 9 → solidCheck 10 sampleWorld.heap i = true := by decide +kernel
  exact noHole_of_check (this i hi)

/-- The tree version list, the UUID set and the file tree of the example meet the hypotheses of
C57, and a recursion limit of 20 is large enough. -/
example : Session sampleCfg sampleRealm sampleWorld ∧ (∀ i, i < 9 → Storable sampleWorld.heap i ∧
    Alone sampleRealm sampleWorld.heap i ∧ NoHole sampleCfg sampleWorld i) ∧
    sampleWorld.repo.faults = [] ∧ isOk (writeAs sampleCfg .own 20 (some sampleRealm) false 6 sampleWorld) = true ∧
    isOk (writeAs sampleCfg .own 20 (some sampleRealm) false 8 sampleWorld) = true ∧
    isOk (writeAs sampleCfg .file 20 (some sampleRealm) false 3 sampleWorld) = true :=
  ⟨sample_session.1, fun i hi => ⟨sample_storable hi, sample_alone i, sample_noHole hi⟩,
    rfl, by decide +kernel, by decide +kernel, by decide +kernel⟩

/-- An element with nothing in it, in a new tree version list, which is written. -/
example : NoHole sampleCfg (populate (start ⟨[], []⟩) hollowBodies) 0 ∧
    look sampleCfg [] (populate (start ⟨[], []⟩) hollowBodies).heap [.ver c!"v1" ⟨[], []⟩] [] (.mem 1) =
      .found c!"0.1" (.mtree .mrr) true ∧ isOk hollowWrite = true :=
  ⟨noHole_of_check (n := 3) (by decide +kernel), rfl, by decide +kernel⟩

/-- A tree from which an element is removed and which keeps another one in the same node: it
has no holes and is written. -/
example : ∃ w1 w2, addChildAt sampleCfg 0 [c!"a", c!"x"] 3 sampleWorld = (.ok (), w1) ∧
    removeChildAt sampleCfg ([c!"a"] ++ [c!"b"]) 3 w1 = (.ok (), w2) ∧ NoHole sampleCfg w1 3 ∧ NoHole sampleCfg w2 3 ∧
    isOk (writeAs sampleCfg .file 20 (some sampleRealm) false 3 w2) = true :=
  ⟨_, _, of_isOk_unit (by decide +kernel), of_isOk_unit (by decide +kernel), noHole_of_check (n := 5) (by decide +kernel),
    noHole_of_check (n := 5) (by decide +kernel), by decide +kernel⟩

end MM
