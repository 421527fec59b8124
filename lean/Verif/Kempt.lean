/-
Content that can be added to and saved while git works, and the process that works with it.
-/
import Verif.Work

namespace MM

variable {C : Cfg} {r : Realm}

/-! ### Content -/

/-- In the content of a place no tree inside is empty, trees of datasets hold root records under their
own name and further trees under all other names, and the elements of a tree version list are trees of datasets.  (File trees of
root records count as absent while they are empty.) -/
structure Trim (C : Cfg) (L : Log) (h : Heap) (n : Node) : Prop where
  full : ∀ ks t0 s d b, ks ≠ [] → look C L h ks t0 n = .found s d b → b = false
  form : ∀ ks k t0 s d b s' d' b', look C L h ks t0 n = .found s d b → look C L h (ks ++ [k]) t0 n = .found s' d' b' →
    (d.kind = .mtree .mrr → d'.kind = if k = .name rootRecordName then .mrr else .mtree .mrr) ∧ (d.kind = .tvl → d'.kind = .mtree .mrr)

theorem Trim.of_same {L L' : Log} {h h' : Heap} {n m : Node} (hs : SameContent C L h n L' h' m) (hp : Trim C L h n) :
    Trim C L' h' m :=
  ⟨fun ks t0 s d b hk hl => hp.full ks t0 s d b hk (by rw [hs ks t0]; exact hl),
   fun ks k t0 s d b s' d' b' h1 h2 => hp.form ks k t0 s d b s' d' b' (by rw [hs ks t0]; exact h1)
     (by rw [hs _ t0]; exact h2)⟩

theorem trim_bare {L : Log} {h : Heap} {n : Node} {b : Body Node} (hv : view C L h n = .ok b) (hb : b.kids = []) :
    Trim C L h n := by
  have none : ∀ k ks t, look C L h (k :: ks) t n = .absent := fun k ks t => look_cons_none hv (by rw [hb]; rfl)
  refine ⟨fun ks t0 s d b' hk hl => ?_, fun ks k t0 s d b s' d' b' _ hl => ?_⟩
  · cases ks with
    | nil => exact absurd rfl hk
    | cons k ks => rw [none] at hl; cases hl
  · cases ks with
    | nil => rw [List.nil_append, none] at hl; cases hl
    | cons k ks => rw [List.cons_append, none] at hl; cases hl

theorem Trim.kid {L : Log} {h : Heap} {n : Node} {b : Body Node} {k : Key} {t : Str} {c : Node} (hp : Trim C L h n)
    (hf : Full C L h n) (hv : view C L h n = .ok b) (hk : dget b.kids k = some (t, c)) : Trim C L h c := by
  rcases hf.kid hv hk with ⟨b', h1, h2, h3⟩ | ⟨h1, h2⟩
  · unfold Body.blank at h3
    simp only [Bool.and_eq_true, List.isEmpty_iff] at h3
    exact trim_bare h1 h3.2
  · obtain ⟨bc, hbc⟩ := h1.view_ok
    refine ⟨fun ks t0 s d b' hn hl => ?_, fun ks k' t0 s d b s' d' b' h3 h4 => ?_⟩
    · cases ks with
      | nil => exact absurd rfl hn
      | cons k' ks => exact hp.full (k :: k' :: ks) t0 s d b' (by simp) (by rw [h2]; exact hl)
    · cases ks with
      | nil =>
        rw [look_nil _ hbc] at h3
        cases h3
        exact hp.form [k] k' t0 t bc.data bc.blank s' d' b' (by rw [h2, look_nil _ hbc]) (by
          show look C L h (k :: ([] ++ [k'])) t0 n = _
          rw [h2]; exact h4)
      | cons k0 ks =>
        exact hp.form (k :: k0 :: ks) k' t0 s d b s' d' b' (by rw [h2]; exact h3) (by
          show look C L h (k :: (k0 :: ks ++ [k'])) t0 n = _
          rw [h2]; exact h4)

/-! ### Trees of git -/

/-- The entries of stored trees are hashes, as git makes sure. -/
def HashTrees (L : Log) (r : Realm) : Prop := ∀ es, Stored L r (.tree es) → ∀ e ∈ es, isHash e.hash = true

theorem HashTrees.before {L L' : Log} (h : HashTrees L' r) (hg : Grows L L') : HashTrees L r :=
  fun es hs => h es (hg r _ hs)

theorem hash_some {cls h : Str} (hh : isHash h = true) : Ref.isNone ⟨cls, some h⟩ = false := by
  unfold Ref.isNone
  simp only [beq_eq_false_iff_ne, ne_eq, Option.some.injEq]
  exact isHash_ne_none hh

theorem HashTrees.at {L : Log} (h : HashTrees L r) {loc : Str} {es : List TreeEntry} (ht : treeAt C L r loc = .ok es) :
    ∀ e ∈ es, isHash e.hash = true := by
  unfold treeAt at ht
  split at ht
  · rename_i es' he
    cases ht
    unfold resolve at he
    split at he
    · exact h es (findObj_stored he).1
    · split at he
      · exact h es (findObj_stored he).1
      · cases he
  · cases ht
  · cases ht

/-- The parts of a stored object refer to something, except for elements of version lists. -/
theorem HashTrees.decode {L : Log} (h : HashTrees L r) {k : Kind} {loc : Str} {b : Body Link}
    (hd : MM.decode C L r k loc = .ok b) {e : Key × (Str × Link)} (he : e ∈ b.kids) :
    e.2.2.ref.isNone = false ∨ ((e.2.2.kind = .mtree .mrr ∨ e.2.2.kind = .mrr) ∧ e.1 ≠ .ft) := by
  cases k with
  | text => simp only [MM.decode] at hd; obtain ⟨s, _, hd⟩ := ok_bind hd; cases hd; cases he
  | metadata =>
    simp only [MM.decode] at hd
    obtain ⟨s, _, hd⟩ := ok_bind hd
    obtain ⟨ref, _, hd⟩ := ok_bind hd
    cases hl : ref.loc with
    | none => rw [hl] at hd; cases hd
    | some l =>
      rw [hl] at hd
      obtain ⟨s, _, hd⟩ := ok_bind hd
      obtain ⟨m, _, hd⟩ := ok_bind hd
      cases hd
      cases he
  | mtree leaf =>
    simp only [MM.decode] at hd
    obtain ⟨es, h1, hd⟩ := ok_bind hd
    obtain ⟨es', h2, hd⟩ := ok_bind hd
    cases hd
    rw [readTree_ok (h.at h1)] at h2
    cases h2
    obtain ⟨e', h3, rfl⟩ := List.mem_map.mp (mem_fromItems he)
    left
    unfold childOf
    dsimp only
    split <;> exact hash_some (h.at h1 e' h3)
  | mrr =>
    simp only [MM.decode] at hd
    obtain ⟨j, _, hd⟩ := ok_bind hd
    unfold mrrFromJson at hd
    obtain ⟨dj, _, hd⟩ := ok_bind hd
    obtain ⟨dlm, h1, hd⟩ := ok_bind hd
    obtain ⟨fj, _, hd⟩ := ok_bind hd
    obtain ⟨ft, h2, hd⟩ := ok_bind hd
    obtain ⟨_, _, hd⟩ := ok_bind hd
    obtain ⟨_, _, hd⟩ := ok_bind hd
    obtain ⟨_, _, hd⟩ := ok_bind hd
    obtain ⟨_, _, hd⟩ := ok_bind hd
    cases hd
    have key : ∀ {k : Kind} {j : Json} {l : Link}, mrrLink k j = .ok (some l) → l.ref.isNone = false := by
      intro k j l hl
      unfold mrrLink at hl
      obtain ⟨ref, _, hl⟩ := ok_bind hl
      cases hn : ref.isNone with
      | true => rw [hn] at hl; cases hl
      | false => rw [hn] at hl; cases hl; exact hn
    left
    cases dlm <;> cases ft <;> simp only [mrrKids, List.append_nil, List.nil_append, List.mem_append,
      List.mem_singleton, List.not_mem_nil] at he
    · rw [he]; exact key h2
    · rw [he]; exact key h1
    · rcases he with he | he <;> rw [he]
      · exact key h1
      · exact key h2
  | vlist =>
    have hf := (decode_formed hd).fits e he
    simp only [MM.decode] at hd
    obtain ⟨j, _, hd⟩ := ok_bind hd
    obtain ⟨ks, h1, hd⟩ := ok_bind hd
    cases hd
    exact Or.inr ⟨vrecs_kinds h1 e he, fun e1 => by rw [e1] at hf; cases hf⟩
  | tvl =>
    have hf := (decode_formed hd).fits e he
    simp only [MM.decode] at hd
    obtain ⟨j, _, hd⟩ := ok_bind hd
    obtain ⟨ks, h1, hd⟩ := ok_bind hd
    cases hd
    exact Or.inr ⟨vrecs_kinds h1 e he, fun e1 => by rw [e1] at hf; cases hf⟩
  | uuidset =>
    simp only [MM.decode] at hd
    obtain ⟨es, h1, hd⟩ := ok_bind hd
    obtain ⟨es', h2, hd⟩ := ok_bind hd
    obtain ⟨ks, h3, hd⟩ := ok_bind hd
    cases hd
    obtain ⟨e', h4, h5⟩ := eachOk_mem h3 (mem_fromItems he)
    unfold rawTree at h2
    rw [splitlines_catTree (h.at h1)] at h2
    obtain ⟨l, h6, h7⟩ := eachOk_mem h2 h4
    obtain ⟨e0, h8, rfl⟩ := List.mem_map.mp h6
    unfold rawTreeLine at h7
    rw [bind_of_eq_ok _ (splitLstreeLine_spec (h.at h1 e0 h8))] at h7
    cases h7
    unfold uuidEntry at h5
    obtain ⟨_, _, h5⟩ := ok_bind h5
    cases h5
    exact Or.inl (hash_some (h.at h1 e0 h8))

/-! ### The process -/

/-- One part of a loaded object -/
def EdgeOk (C : Cfg) (X : ObjId → Prop) (w : World) (p : ObjId) (e : Key × (Str × ObjId)) : Prop :=
  (e.1 ≠ .ft → ∀ t s d b, look C w.repo.log w.heap [] t (.mem e.2.2) = .found s d b → b = false ∨ X e.2.2) ∧
  ((w.heap p).kind = .mtree .mrr →
    (w.heap e.2.2).kind = if e.1 = .name rootRecordName then .mrr else .mtree .mrr) ∧
  ((w.heap p).kind = .tvl → (w.heap e.2.2).kind = .mtree .mrr)

/-- The objects of a process hold trim content; only the objects in `X` may be empty trees. -/
structure Kempt (C : Cfg) (r : Realm) (X : ObjId → Prop) (w : World) : Prop where
  edge : ∀ p, p < w.next → (w.heap p).mapped = true → ∀ e ∈ (w.heap p).body.kids, EdgeOk C X w p e
  away : ∀ j, j < w.next → (w.heap j).mapped = false → r ∈ (w.heap j).savedOn ∧ Trim C w.repo.log w.heap (.mem j)

theorem look_kind {L : Log} {h : Heap} {j : ObjId} {t s : Str} {d : Data} {b : Bool}
    (hl : look C L h [] t (.mem j) = .found s d b) : d.kind = (h j).kind := by
  cases hv : view C L h (.mem j) with
  | error e => rw [look_missing_of_view hv] at hl; cases hl
  | ok b => rw [look_nil t hv] at hl; cases hl; exact view_class hv

/-- What is found by a first key is found in the part with this key. -/
theorem look_down {L : Log} {h : Heap} {j : ObjId} (hm : (h j).mapped = true) {k : Key} {ks : List Key} {t s : Str}
    {d : Data} {b : Bool} (hl : look C L h (k :: ks) t (.mem j) = .found s d b) :
    ∃ x, dget (h j).body.kids k = some x ∧ (∀ ks' t', look C L h (k :: ks') t' (.mem j) = look C L h ks' x.1 (.mem x.2)) ∧
      (k = .ft → ∀ t', ∃ d', look C L h [] t' (.mem x.2) = .found t' d' false) := by
  rw [look_cons (view_mapped hm), Body.dget_map] at hl
  cases hx : dget (h j).body.kids k with
  | none => rw [hx] at hl; cases hl
  | some x =>
    refine ⟨x, rfl, ?_⟩
    rw [hx] at hl
    simp only [Option.map_some] at hl
    cases hv : view C L h (.mem x.2) with
    | error e => rw [hv] at hl; cases hl
    | ok b' =>
      rw [hv] at hl
      simp only at hl
      have hd : dget ((h j).body.map Node.mem).kids k = some (x.1, .mem x.2) := by rw [Body.dget_map, hx]; rfl
      by_cases hft : k = .ft
      · subst hft
        cases hb : b'.blank with
        | true => rw [hb] at hl; simp at hl
        | false =>
          exact ⟨fun ks' t' => look_cons_ft (view_mapped hm) hd hv hb, fun _ t' => ⟨b'.data, by rw [look_nil t' hv, hb]⟩⟩
      · exact ⟨fun ks' t' => look_cons_some (view_mapped hm) hd hft, fun e => absurd e hft⟩

theorem Kempt.form {X : ObjId → Prop} {w : World} (h : Kempt C r X w) (hf : Fine C w) (ks : List Key) :
    ∀ j, j < w.next → ∀ k t0 s d b s' d' b', look C w.repo.log w.heap ks t0 (.mem j) = .found s d b →
      look C w.repo.log w.heap (ks ++ [k]) t0 (.mem j) = .found s' d' b' →
      (d.kind = .mtree .mrr → d'.kind = if k = .name rootRecordName then .mrr else .mtree .mrr) ∧ (d.kind = .tvl → d'.kind = .mtree .mrr) := by
  induction ks with
  | nil =>
    intro j hj k t0 s d b s' d' b' h1 h2
    cases hm : (w.heap j).mapped with
    | false => exact (h.away j hj hm).2.form [] k t0 s d b s' d' b' h1 h2
    | true =>
      obtain ⟨x, hx, h3, _⟩ := look_down hm h2
      rw [List.nil_append, h3] at h2
      obtain ⟨_, e2, e3⟩ := h.edge j hj hm _ (mem_of_dget hx)
      rw [look_kind h1, look_kind h2]
      exact ⟨e2, e3⟩
  | cons k0 ks ih =>
    intro j hj k t0 s d b s' d' b' h1 h2
    cases hm : (w.heap j).mapped with
    | false => exact (h.away j hj hm).2.form _ k t0 s d b s' d' b' h1 h2
    | true =>
      obtain ⟨x, hx, h3, _⟩ := look_down hm h1
      rw [h3] at h1
      rw [List.cons_append, h3] at h2
      exact ih x.2 (hf.kids j hm _ (dget_sub hx)) k _ _ _ _ _ _ _ h1 h2

theorem Kempt.trim {w : World} (h : Kempt C r (fun _ => False) w) (hf : Fine C w) {j : ObjId} (hj : j < w.next) :
    Trim C w.repo.log w.heap (.mem j) := by
  refine ⟨fun ks => ?_, fun ks => h.form hf ks j hj⟩
  induction ks generalizing j with
  | nil => intro _ _ _ _ hn; exact absurd rfl hn
  | cons k ks ih =>
    intro t0 s d b _ h1
    cases hm : (w.heap j).mapped with
    | false => exact (h.away j hj hm).2.full _ t0 s d b (by simp) h1
    | true =>
      obtain ⟨x, hx, h3, h4⟩ := look_down hm h1
      rw [h3] at h1
      cases ks with
      | nil =>
        by_cases hft : k = .ft
        · obtain ⟨d', h5⟩ := h4 hft x.1
          rw [h5] at h1; cases h1; rfl
        · rcases (h.edge j hj hm _ (mem_of_dget hx)).1 hft _ _ _ _ h1 with e | e
          · exact e
          · exact absurd e id
      | cons k' ks => exact ih (hf.kids j hm _ (dget_sub hx)) x.1 s d b (by simp) h1

theorem Kempt.mono {X Y : ObjId → Prop} {w : World} (h : Kempt C r X w)
    (hx : ∀ j, X j → Y j ∨ ∀ t s d b, look C w.repo.log w.heap [] t (.mem j) = .found s d b → b = false) : Kempt C r Y w := by
  refine ⟨fun p hp hm e he => ?_, h.away⟩
  obtain ⟨e1, e2, e3⟩ := h.edge p hp hm e he
  refine ⟨fun hft t s d b hl => ?_, e2, e3⟩
  rcases e1 hft t s d b hl with g | g
  · exact Or.inl g
  · rcases hx _ g with g | g
    · exact Or.inr g
    · exact Or.inl (g t s d b hl)

/-! ### Reading -/

theorem Kempt.congr {X : ObjId → Prop} {w w' : World} (h : Kempt C r X w) (h1 : w'.heap = w.heap) (h2 : w'.next = w.next)
    (h3 : w'.repo.log = w.repo.log) : Kempt C r X w' := by
  refine ⟨fun p hp hm e he => ?_, fun j hj hm => ?_⟩
  · rw [h1] at hm he; rw [h2] at hp
    have := h.edge p hp hm e he
    unfold EdgeOk at this ⊢
    rw [h1, h3]; exact this
  · rw [h1] at hm; rw [h2] at hj
    rw [h1, h3]; exact h.away j hj hm

/-- An object was read. -/
theorem Kempt.read {t u : ObjId} {X : ObjId → Prop} {w w' : World} (hr : r ≠ []) (d : Desk C r t u w)
    (h : Kempt C r X w) (hh : HashTrees w.repo.log r) {x : ObjId} (hx : x < w.next)
    (hm : (w.heap x).mapped = false) (hc : ReadCase C x w w' (.ok true)) : Kempt C r X w' := by
  have hs := d.sound.fine
  have ho := hs.opened hx hm hc
  obtain ⟨hxs, hxn⟩ := h.away x hx hm
  have hn' : Trim C w'.repo.log w'.heap (.mem x) := hxn.of_same (ho.content x hx)
  have kind : ∀ j, j < w.next → (w'.heap j).kind = (w.heap j).kind := (ho.loads hs hx).kind
  refine ⟨fun p hp hmp e he => ?_, fun j hj hmj => ?_⟩
  · by_cases hpx : p = x
    · subst hpx
      have hd := dget_of_mem (ho.fine.formed p hmp).keys (k := e.1) (v := e.2) he
      have hself : look C w'.repo.log w'.heap [] [] (.mem p) = .found [] (w'.heap p).body.data _ :=
        look_nil [] (view_mapped hmp)
      obtain ⟨be, hbe⟩ := (ho.fine.all e.2.2).view_ok
      refine ⟨fun hft t s dt b hl => ?_, fun hk => ?_, fun hk => ?_⟩
      · rw [look_nil t hbe] at hl
        cases hl
        exact Or.inl (hn'.full [e.1] [] e.2.1 be.data be.blank (by simp) (by rw [look_part hmp hd hft, look_nil _ hbe]))
      · have hft : e.1 ≠ .ft := by
          intro hft
          have := ho.typed e he
          rw [← kind p hx, hk, hft] at this
          exact this
        have := (hn'.form [] e.1 [] _ _ _ e.2.1 be.data be.blank hself
          (by rw [List.nil_append, look_part hmp hd hft, look_nil _ hbe])).1 hk
        rw [view_class hbe] at this
        exact this
      · have hft : e.1 ≠ .ft := by
          intro hft
          have := ho.typed e he
          rw [← kind p hx, hk, hft] at this
          exact this
        have := (hn'.form [] e.1 [] _ _ _ e.2.1 be.data be.blank hself
          (by rw [List.nil_append, look_part hmp hd hft, look_nil _ hbe])).2 hk
        rw [view_class hbe] at this
        exact this
    · have hpl : p < w.next := by
        apply Nat.lt_of_not_le
        intro hle
        rw [ho.fresh p hle hp] at hmp; cases hmp
      rw [ho.old p hpx hpl] at hmp he
      obtain ⟨e1, e2, e3⟩ := h.edge p hpl hmp e he
      have hel : e.2.2 < w.next := hs.kids p hmp _ (List.mem_map.mpr ⟨e, he, rfl⟩)
      refine ⟨fun hft t s dt b hl => e1 hft t s dt b (by rw [ho.content _ hel]; exact hl), ?_, ?_⟩
      · rw [kind p hpl, kind _ hel]; exact e2
      · rw [kind p hpl, kind _ hel]; exact e3
  · have hjx : j ≠ x := by rintro rfl; rw [ho.mapped] at hmj; cases hmj
    by_cases h1 : j < w.next
    · rw [ho.old j hjx h1] at hmj
      obtain ⟨g1, g2⟩ := h.away j h1 hmj
      exact ⟨by rw [ho.old j hjx h1]; exact g1, g2.of_same (ho.content j h1)⟩
    · have h1 := Nat.not_lt.mp h1
      cases hc with
      | none r' ref _ _ _ _ _ _ hnx => rw [hnx] at hj; exact absurd hj (Nat.not_lt.mpr h1)
      | read r0 ref loc b is so hr0 hf hn hloc hsv hacc hdec hlog hca hnx hold hbig hkids hnew hso hobj hdis =>
        obtain ⟨e, he, h3⟩ := hnew j hjx h1 hj
        have hkj : (w'.heap j).kind = e.2.2.kind := by rw [h3, kind_linkObj]
        have hsj : SameContent C w'.repo.log w'.heap (.mem j) w'.repo.log w.heap
            (.sto r0 ⟨(w'.heap j).kind, e.2.2.ref⟩) :=
          look_unloaded hmj (by rw [h3]; rfl) (by rw [h3]; rfl)
        obtain ⟨ref0, a, e1, e2, e3⟩ := d.intact.fetched hm
        have hr1 := d.intact.away x hm
        rw [hr0] at hr1; cases hr1
        rw [hf] at e1; cases e1
        have hab : a = b := by
          have := (strictFetch_ok e2).1
          rw [fetch_some hn hacc hloc, hdec] at this
          cases this; rfl
        subst hab
        have hdg : dget (a.map (Node.sto r)).kids e.1 = some (e.2.1, .sto r e.2.2) := by
          rw [Body.dget_map, dget_of_mem (decode_formed hdec).keys (k := e.1) (v := e.2) he]; rfl
        refine ⟨?_, ?_⟩
        · have hnone : e.2.2.ref.isNone = false := by
            rcases hh.decode hdec he with g | ⟨g1, g2⟩
            · exact g
            · cases hnn : e.2.2.ref.isNone with
              | false => rfl
              | true =>
                exfalso
                rcases (d.intact.full x).kid e3 hdg with ⟨_, _, g3, _⟩ | ⟨g3, g4⟩
                · exact g2 g3
                · obtain ⟨bv, hbv⟩ := g3.view_ok
                  have hbl := hxn.full [e.1] [] e.2.1 bv.data bv.blank (by simp) (by rw [g4, look_nil _ hbv])
                  rw [view_sto'] at hbv
                  cases hsf : strictFetch C w.repo.log r e.2.2.kind e.2.2.ref with
                  | error _ => rw [hsf] at hbv; cases hbv
                  | ok bb =>
                    rw [hsf] at hbv
                    cases hbv
                    have hfe := (strictFetch_ok hsf).1
                    unfold fetch at hfe
                    rw [if_pos hnn] at hfe
                    split at hfe
                    · rcases g1 with g1 | g1 <;> rw [g1] at hfe
                      · cases hfe
                        exact absurd (show true = false from hbl) (by decide)
                      · cases hfe
                    · cases hfe
          rw [h3]
          show r ∈ (if e.2.2.ref.isNone || r.isEmpty then [] else [r])
          rw [hnone]
          cases r with
          | nil => exact absurd rfl hr
          | cons a l => simp
        · refine Trim.of_same hsj.symm ?_
          rw [hkj, hlog]
          exact hxn.kid (d.intact.full x) e3 hdg

theorem Kempt.standIn {t u : ObjId} {X : ObjId → Prop} {w w' : World} (d : Desk C r t u w) (h : Kempt C r X w) (i : ObjId)
    (h1 : ∀ j, j ≠ i → w'.heap j = w.heap j) (h2 : w'.next = w.next) (h3 : w'.repo.log = w.repo.log)
    (h4 : w'.caches = w.caches) (hm : (w.heap i).mapped = false) (hm' : (w'.heap i).mapped = false)
    (hr : (w'.heap i).realm = (w.heap i).realm) (href : (w'.heap i).ref = (w.heap i).ref)
    (hk : (w'.heap i).kind = (w.heap i).kind) (hsv : (w'.heap i).savedOn = (w.heap i).savedOn) : Kempt C r X w' := by
  have hl := Loads.standIn d.sound.fine i h1 h2 h3 h4 hm hm' hr href hk hsv
  refine ⟨fun p hp hmp e he => ?_, fun j hj hmj => ?_⟩
  · have hpi : p ≠ i := by rintro rfl; rw [hm'] at hmp; cases hmp
    rw [h1 p hpi] at hmp he
    rw [h2] at hp
    have hel : e.2.2 < w.next := d.sound.fine.kids p hmp _ (List.mem_map.mpr ⟨e, he, rfl⟩)
    obtain ⟨e1, e2, e3⟩ := h.edge p hp hmp e he
    refine ⟨fun hft t s dt b hlk => e1 hft t s dt b (by rw [hl.content _ hel]; exact hlk), ?_, ?_⟩
    · rw [hl.kind p hp, hl.kind _ hel]; exact e2
    · rw [hl.kind p hp, hl.kind _ hel]; exact e3
  · rw [h2] at hj
    by_cases hji : j = i
    · subst hji
      obtain ⟨g1, g2⟩ := h.away j hj hm
      exact ⟨by rw [hsv]; exact g1, g2.of_same (hl.content j hj)⟩
    · rw [h1 j hji] at hmj ⊢
      obtain ⟨g1, g2⟩ := h.away j hj hmj
      exact ⟨g1, g2.of_same (hl.content j hj)⟩

theorem Kempt.reads {t u : ObjId} {X : ObjId → Prop} {w w' : World} (hr : r ≠ []) (d : Desk C r t u w)
    (h : Kempt C r X w) (hh : HashTrees w.repo.log r) (hre : Reads C w w') : Kempt C r X w' ∧ w'.repo.log = w.repo.log := by
  induction hre with
  | refl => exact ⟨h, rfl⟩
  | read x h0 hx hm hc ih =>
    refine ⟨ih.1.read hr (d.reads hr h0) (by rw [ih.2]; exact hh) hx hm hc, ?_⟩
    rw [← ih.2]
    cases hc <;> assumption
  | same h0 h1 h2 h3 h4 ih => exact ⟨ih.1.congr h1 h2 h3, h3.trans ih.2⟩
  | standIn i h0 h1 h2 h3 h4 h5 h6 h7 h8 h9 h10 ih =>
    exact ⟨ih.1.standIn (d.reads hr h0) i h1 h2 h3 h4 h5 h6 h7 h8 h9 h10, h3.trans ih.2⟩

theorem Kempt.loads {t u : ObjId} {X : ObjId → Prop} {w w' : World} (hr : r ≠ []) (d : Desk C r t u w)
    (h : Kempt C r X w) (hh : HashTrees w.repo.log r) (hl : Loads C w w') : Kempt C r X w' :=
  (h.reads hr d hh hl.reads).1

/-! ### Changes -/

/-- Loaded objects were changed or created, and the further parts are in order. -/
theorem Kempt.change {X Y : ObjId → Prop} {w w' : World} (hf : Fine C w) (h : Kempt C r X w)
    (hlog : w'.repo.log = w.repo.log) (hxy : ∀ j, X j → Y j)
    (hkind : ∀ j, j < w.next → (w'.heap j).kind = (w.heap j).kind)
    (hkeep : ∀ j, j < w.next → (w.heap j).mapped = true → (w'.heap j).mapped = true ∧
      ((w'.heap j).body.kids = [] → (w.heap j).body.kids = []))
    (haway : ∀ j, j < w'.next → (w'.heap j).mapped = false → j < w.next ∧ w'.heap j = w.heap j)
    (hback : ∀ j, j < w.next → (w.heap j).mapped = false → w'.heap j = w.heap j)
    (hnew : ∀ p, p < w'.next → (w'.heap p).mapped = true → ∀ e ∈ (w'.heap p).body.kids,
      (p < w.next ∧ (w.heap p).mapped = true ∧ e ∈ (w.heap p).body.kids) ∨ EdgeOk C Y w' p e) : Kempt C r Y w' := by
  have unl : ∀ j, j < w.next → (w.heap j).mapped = false →
      SameContent C w.repo.log w.heap (.mem j) w'.repo.log w'.heap (.mem j) := by
    intro j hj hm
    rw [hlog]
    refine look_kept fun k hk => ?_
    cases hk with
    | refl => exact hback j hj hm
    | step _ _ _ hm' => rw [hm] at hm'; cases hm'
  refine ⟨fun p hp hm e he => ?_, fun j hj hm => ?_⟩
  · rcases hnew p hp hm e he with ⟨g1, g2, g3⟩ | g
    · obtain ⟨e1, e2, e3⟩ := h.edge p g1 g2 e g3
      have hel : e.2.2 < w.next := hf.kids p g2 _ (List.mem_map.mpr ⟨e, g3, rfl⟩)
      refine ⟨fun hft t s d b hl => ?_, ?_, ?_⟩
      · cases hme : (w.heap e.2.2).mapped with
        | false =>
          rcases e1 hft t s d b (by rw [unl _ hel hme]; exact hl) with g | g
          · exact Or.inl g
          · exact Or.inr (hxy _ g)
        | true =>
          obtain ⟨k1, k2⟩ := hkeep _ hel hme
          rw [look_nil t (view_mapped k1)] at hl
          cases hl
          cases hb : ((w'.heap e.2.2).body.map Node.mem).blank with
          | false => exact Or.inl rfl
          | true =>
            have hb' : ((w.heap e.2.2).body.map Node.mem).blank = true := by
              unfold Body.blank Body.map at hb ⊢
              simp only [Bool.and_eq_true, List.isEmpty_iff, List.map_eq_nil_iff] at hb ⊢
              exact ⟨by rw [← hb.1]; exact congrArg Kind.isMtree (hkind _ hel).symm, k2 hb.2⟩
            rcases e1 hft t _ _ _ (look_nil t (view_mapped hme)) with g | g
            · rw [hb'] at g; cases g
            · exact Or.inr (hxy _ g)
      · rw [hkind p g1, hkind _ hel]; exact e2
      · rw [hkind p g1, hkind _ hel]; exact e3
    · exact g
  · obtain ⟨g1, g2⟩ := haway j hj hm
    rw [g2] at hm
    obtain ⟨a1, a2⟩ := h.away j g1 hm
    exact ⟨by rw [g2]; exact a1, a2.of_same (unl j g1 hm)⟩

theorem edge_small {X : ObjId → Prop} {w : World} {p : ObjId} {e : Key × (Str × ObjId)}
    (hp : (w.heap p).kind ≠ .mtree .mrr ∧ (w.heap p).kind ≠ .tvl)
    (he : e.1 ≠ .ft → (w.heap e.2.2).kind.isMtree = false) : EdgeOk C X w p e := by
  refine ⟨fun hft t s d b hl => ?_, fun h => absurd h hp.1, fun h => absurd h hp.2⟩
  left
  have hk := look_kind hl
  cases hv : view C w.repo.log w.heap (.mem e.2.2) with
  | error _ => rw [look_missing_of_view hv] at hl; cases hl
  | ok bb =>
    rw [look_nil t hv] at hl
    cases hl
    unfold Body.blank
    rw [hk, he hft]; rfl

/-- A new object without parts -/
theorem Kempt.create {X : ObjId → Prop} {w : World} (hf : Fine C w) (h : Kempt C r X w) {b : Body ObjId} (hk : b.kids = []) :
    Kempt C r X (MM.create (Obj.new b) w) := by
  have old : ∀ j, j < w.next → (MM.create (Obj.new b) w).heap j = w.heap j := fun j hj => create_ne _ _ (Nat.ne_of_lt hj)
  refine h.change hf rfl (fun _ => id) (fun j hj => by rw [old j hj]) (fun j hj hm => by rw [old j hj]; exact ⟨hm, id⟩)
    (fun j hj hm => ?_) (fun j hj _ => old j hj) (fun p hp hm e he => ?_)
  · by_cases hjn : j = w.next
    · rw [hjn, create_self] at hm; cases hm
    · exact ⟨by have : j < w.next + 1 := hj; oomega, create_ne _ _ hjn⟩
  · by_cases hjn : p = w.next
    · rw [hjn, create_self] at he
      have : e ∈ b.kids := he
      rw [hk] at this; cases this
    · have hpl : p < w.next := by have : p < w.next + 1 := hp; oomega
      rw [old p hpl] at hm he
      exact Or.inl ⟨hpl, hm, he⟩

/-- A loaded object got a part. -/
theorem Kempt.extend {X Y : ObjId → Prop} {w : World} (hf : Fine C w) (h : Kempt C r X w) {i : ObjId} (hi : i < w.next)
    (hm : (w.heap i).mapped = true) {b : Body ObjId} (hdata : b.data.kind = (w.heap i).kind) (hxy : ∀ j, X j → Y j)
    (hne : b.kids = [] → (w.heap i).body.kids = [])
    (hmem : ∀ e ∈ b.kids, e ∈ (w.heap i).body.kids ∨ EdgeOk C Y (MM.edit i b w) i e) :
    Kempt C r Y (MM.edit i b w) := by
  have hk : ∀ j, ((MM.edit i b w).heap j).kind = (w.heap j).kind := by
    intro j
    by_cases hj : j = i
    · subst hj; rw [edit_self]; exact hdata
    · rw [edit_ne _ w hj]
  refine h.change hf rfl hxy (fun j _ => hk j) (fun j hj hmj => ?_) (fun j hj hmj => ?_) (fun j hj hmj => ?_)
    (fun p hp hmp e he => ?_)
  · by_cases hji : j = i
    · subst hji; rw [edit_self]; exact ⟨hm, hne⟩
    · rw [edit_ne _ w hji]; exact ⟨hmj, id⟩
  · by_cases hji : j = i
    · subst hji; rw [edit_self] at hmj
      have : (w.heap j).mapped = false := hmj
      rw [hm] at this; cases this
    · exact ⟨hj, edit_ne _ w hji⟩
  · have hji : j ≠ i := by rintro rfl; rw [hm] at hmj; cases hmj
    exact edit_ne _ w hji
  · by_cases hpi : p = i
    · subst hpi
      rw [edit_self] at he
      rcases hmem e he with g | g
      · exact Or.inl ⟨hi, hm, g⟩
      · exact Or.inr g
    · rw [edit_ne _ w hpi] at hmp he
      exact Or.inl ⟨hp, hmp, he⟩

/-- A new root record -/
theorem Kempt.madeRecord {X : ObjId → Prop} {w : World} (hf : Fine C w) (h : Kempt C r X w) (id : Uuid) (v : Str) :
    Kempt C r X (MM.madeRecord id v w) := by
  obtain ⟨_, hn, hrep, hold, hm, hft, hrec⟩ := madeRecord_spec hf id v
  have new : ∀ j, j < (MM.madeRecord id v w).next → ¬ j < w.next → j = w.next ∨ j = w.next + 1 ∨ j = w.next + 2 := by
    intro j hj hj'
    rw [hn] at hj
    oomega
  refine h.change hf (by rw [hrep]) (fun _ hx => hx) (fun j hj => by rw [hold j hj])
    (fun j hj hmj => by rw [hold j hj]; exact ⟨hmj, fun e => e⟩)
    (fun j hj hmj => ?_) (fun j hj _ => hold j hj) (fun p hp hmp e he => ?_)
  · by_cases hl : j < w.next
    · exact ⟨hl, hold j hl⟩
    · rcases new j hj hl with e | e | e <;> subst e
      · rw [hm] at hmj; cases hmj
      · rw [hft] at hmj; cases hmj
      · rw [hrec] at hmj; cases hmj
  · by_cases hl : p < w.next
    · rw [hold p hl] at hmp he
      exact Or.inl ⟨hl, hmp, he⟩
    · right
      rcases new p hp hl with e' | e' | e' <;> subst e'
      · rw [hm] at he; cases he
      · rw [hft] at he; cases he
      · rw [hrec] at he
        refine edge_small ⟨(by rw [hrec]; intro e; cases e), (by rw [hrec]; intro e; cases e)⟩ fun hne => ?_
        rcases List.mem_cons.mp he with h1 | he
        · rw [h1]; show ((MM.madeRecord id v w).heap w.next).kind.isMtree = false
          rw [hm]; rfl
        · rw [List.mem_singleton.mp he] at hne
          exact absurd rfl hne

theorem last_split {α : Type} {l a b : List α} {z x : α} (h : l ++ [z] = a ++ x :: b) :
    (b = [] → x = z) ∧ (b ≠ [] → x ∈ l) := by
  refine ⟨fun hb => ?_, fun hb => ?_⟩
  · subst hb
    have := congrArg List.getLast? h
    simp at this
    exact this.symm
  · obtain ⟨b', y, rfl⟩ : ∃ b' y, b = b' ++ [y] := ⟨b.dropLast, b.getLast hb, (List.dropLast_concat_getLast hb).symm⟩
    have h1 : l ++ [z] = (a ++ x :: b') ++ [y] := by simpa using h
    have h2 := List.append_inj_left' h1 rfl
    rw [h2]; simp

/-- An element was added to a tree. -/
theorem Kempt.added {X : ObjId → Prop} {leaf : Leaf} {i : ObjId} {q : List Str} {n : Str} {rest : List Str} {m child : ObjId}
    {w w' : World} (hs : Sound C w) (h : Kempt C r X w) (ha : AddedAt i q n rest m child w w') (hi : i < w.next)
    (hik : (w.heap i).kind = .mtree leaf) (hc : child < w.next) (hck : (w.heap child).kind = leaf.kind)
    (hname : leaf = .mrr → ∃ l, rootRecordName ∉ l ∧ l ++ [rootRecordName] = q ++ n :: rest) : Kempt C r X w' := by
  have hm : m < w.next := ha.lt hs.fine hi
  have hmk : (w.heap m).kind = .mtree leaf := hs.typed.node ha.tree q i hik ha.lead
  have hcm : ¬ Reach w.heap child m := by
    intro hr
    have h1 := hs.typed.level hr
    rw [hck, hmk] at h1
    cases leaf <;> exact absurd h1 (by decide)
  obtain ⟨_, hg⟩ := hs.added ha hi hik hc hck hcm
  have chain := ha.chain
  rw [hmk] at chain
  -- an edge of the path
  have step : ∀ (p lo : ObjId) (a : List Str) (x : Str) (b : List Str), q ++ n :: rest = a ++ x :: b →
      (w'.heap p).kind = .mtree leaf → (b = [] ∨ ∃ x' t c, w'.heap lo = Obj.new ⟨Data.empty (.mtree leaf), [(x', t, c)]⟩) →
      EdgeOk C X w' p (.name x, [], chainStart child lo b) := by
    intro p lo a x b hsp hpk hb
    have hcase : (b = [] ∧ chainStart child lo b = child) ∨
        (b ≠ [] ∧ chainStart child lo b = lo ∧ ∃ x' t c, w'.heap lo = Obj.new ⟨Data.empty (.mtree leaf), [(x', t, c)]⟩) := by
      by_cases hbn : b = []
      · exact Or.inl ⟨hbn, by unfold chainStart; rw [if_pos hbn]⟩
      · exact Or.inr ⟨hbn, by unfold chainStart; rw [if_neg hbn], hb.resolve_left hbn⟩
    have hck' : (w'.heap child).kind = leaf.kind := (hg.kind child hc).trans hck
    rcases hcase with ⟨hbn, e⟩ | ⟨hbn, e, x', t', c', he⟩ <;> rw [e]
    · refine ⟨fun _ t s dt b' hl => ?_, fun hk => ?_, fun hk => ?_⟩
      · left
        have hkd := look_kind hl
        cases hv : view C w'.repo.log w'.heap (.mem child) with
        | error _ => rw [look_missing_of_view hv] at hl; cases hl
        | ok bb =>
          rw [look_nil t hv] at hl
          cases hl
          unfold Body.blank
          rw [hkd, hck']
          cases leaf <;> rfl
      · rw [hpk] at hk
        cases hk
        obtain ⟨l, h1, h2⟩ := hname rfl
        rw [hsp] at h2
        have := (last_split h2).1 hbn
        rw [if_pos (by rw [this])]
        exact hck'
      · rw [hpk] at hk; cases hk
    · refine ⟨fun _ t s dt b' hl => ?_, fun hk => ?_, fun hk => ?_⟩
      · left
        rw [look_nil t (view_mapped (by rw [he]; rfl)), he] at hl
        cases hl
        rfl
      · rw [hpk] at hk
        cases hk
        obtain ⟨l, h1, h2⟩ := hname rfl
        rw [hsp] at h2
        have := (last_split h2).2 hbn
        rw [if_neg (by intro e; cases e; exact h1 this)]
        show (w'.heap lo).kind = _
        rw [he]; rfl
      · rw [hpk] at hk; cases hk
  have at' : ∀ p, w.next ≤ p → p < w'.next → ∃ r1 x r2, rest = r1 ++ x :: r2 ∧ p = w.next + r1.length ∧
      w'.heap p = Obj.new ⟨Data.empty (.mtree leaf), [(.name x, [], chainStart child (p + 1) r2)]⟩ :=
    fun p h1 h2 => chain.mem h1 (by rw [← ha.next]; exact h2)
  refine h.change hs.fine ha.log (fun _ => id) hg.kind (fun j hj hmj => ?_) (fun j hj hmj => ?_) (fun j hj hmj => ?_)
    (fun p hp hmp e he => ?_)
  · refine ⟨hg.mapped j hj hmj, fun e => ?_⟩
    by_cases hjm : j = m
    · subst hjm; rw [ha.node] at e; simp at e
    · rw [ha.old j hjm hj] at e; exact e
  · by_cases hjl : j < w.next
    · refine ⟨hjl, ha.old j ?_ hjl⟩
      rintro rfl
      rw [ha.mapped'] at hmj; cases hmj
    · obtain ⟨_, _, _, _, _, e⟩ := at' j (Nat.le_of_not_lt hjl) hj
      rw [e] at hmj; cases hmj
  · exact ha.old j (by rintro rfl; rw [ha.mapped] at hmj; cases hmj) hj
  · by_cases hpl : p < w.next
    · by_cases hpm : p = m
      · subst hpm
        rw [ha.node] at he
        rcases List.mem_append.mp he with he | he
        · exact Or.inl ⟨hpl, ha.mapped, he⟩
        · right
          rw [List.mem_singleton.mp he]
          refine step p w.next q n rest rfl ((hg.kind p hpl).trans hmk) ?_
          by_cases hr : rest = []
          · exact Or.inl hr
          · right
            have : 0 < rest.length := List.length_pos_iff.mpr hr
            obtain ⟨_, x, r2, _, _, e⟩ := at' w.next (Nat.le_refl _) (by rw [ha.next]; oomega)
            exact ⟨_, _, _, e⟩
      · rw [ha.old p hpm hpl] at hmp he
        exact Or.inl ⟨hpl, hmp, he⟩
    · right
      obtain ⟨r1, x, r2, e1, e2, e3⟩ := at' p (Nat.le_of_not_lt hpl) hp
      have hk' : (w'.heap p).kind = .mtree leaf := by rw [e3]; rfl
      rw [e3] at he
      rw [List.mem_singleton.mp he]
      refine step p (p + 1) (q ++ n :: r1) x r2 (by rw [e1]; simp) hk' ?_
      by_cases hr : r2 = []
      · exact Or.inl hr
      · right
        have : 0 < r2.length := List.length_pos_iff.mpr hr
        have hlen : rest.length = r1.length + (r2.length + 1) := by rw [e1]; simp
        obtain ⟨_, x, r2, _, _, e⟩ := at' (p + 1) (by oomega) (by rw [ha.next]; oomega)
        exact ⟨_, _, _, e⟩

end MM
