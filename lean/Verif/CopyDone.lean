/-
Copying an object to a repository gives an unloaded object with the same content.
-/
import Verif.CopyLoop
import Verif.Props.Path
import Verif.Props.Writes

namespace MM

variable {C : Cfg} {r : Realm}

/-- The key of a part in a copy: the prefix is put before the paths of versions. -/
def prefixed (pre : PPath) : Key → Key
  | .ver v p => .ver v (pre.join p)
  | k => k

/-- A key whose path is a metadata path -/
def Placed : Key → Prop
  | .ver _ p => Canonical p
  | _ => True

theorem prefixed_inj {pre : PPath} (hpre : Canonical pre) (k k' : Key) (h : Placed k) (h' : Placed k')
    (he : prefixed pre k = prefixed pre k') : k = k' := by
  cases k with
  | ver v p =>
    cases k' with
    | ver v' p' =>
      simp only [prefixed] at he
      injection he with h1 h2
      rw [h1, (C02_cancel pre p p' hpre h h').1 h2]
    | _ => cases he
  | _ => cases k' <;> first | exact he | cases he

theorem prefixed_ft (pre : PPath) (k : Key) : prefixed pre k = .ft ↔ k = .ft := by
  cases k <;> simp [prefixed]

theorem prefixed_plain {pre : PPath} {k : Key} (h : ∀ v p, k ≠ .ver v p) : prefixed pre k = k := by
  cases k <;> first | rfl | exact absurd rfl (h _ _)

theorem SlotOk.prefixed {pre : PPath} (hpre : Canonical pre) {k : Kind} {key : Key} {t : Str} {k' : Kind}
    (h : SlotOk k key t k') : SlotOk k (MM.prefixed pre key) t k' := by
  cases key <;> try exact h
  rename_i v p
  cases k <;> simp only [SlotOk, MM.prefixed] at h ⊢
  · exact ⟨(C02_join pre p hpre h.1).1, h.2⟩
  · exact ⟨(C02_join pre p hpre h.1).1, h.2⟩

theorem SlotOk.placed {k : Kind} {key : Key} {t : Str} {k' : Kind} (h : SlotOk k key t k') : Placed key := by
  cases key <;> try exact trivial
  cases k <;> simp only [SlotOk] at h
  · exact h.1
  · exact h.1

/-- Parts are not objects that are found by name. -/
theorem SlotOk.unnamed {k : Kind} {key : Key} {t : Str} {k' : Kind} (h : SlotOk k key t k') : pubName k' = none := by
  cases k <;> cases key <;> simp only [SlotOk] at h
  · rename_i leaf n
    obtain ⟨_, _, h⟩ := h
    rcases h with h | h <;> rw [h]
    · rfl
    · cases leaf <;> rfl
  · rw [h.2]; rfl
  · rw [h.2]; rfl
  · rcases h.2 with h | h <;> rw [h] <;> rfl
  · rcases h.2 with h | h <;> rw [h] <;> rfl
  · rw [h.2]; rfl

/-- What a copy of `i` is. -/
structure CopyMade (C : Cfg) (r : Realm) (pre : PPath) (w0 : World) (i : ObjId) (w' : World) (c : ObjId) : Prop where
  pass : Pass C r (pubName (w0.heap i).kind) w0.next w0 w'
  new : w0.next ≤ c
  lt : c < w'.next
  stub : Stub r w' c
  kind : (w'.heap c).kind = (w0.heap i).kind
  copied : Copied C Placed (prefixed pre) w0 i w' c

/-- What the copied object must be like. -/
structure Copyable (C : Cfg) (r : Realm) (w : World) (i : ObjId) : Prop where
  fine : Fine C w
  caches : w.caches = []
  typed : FtTyped w.heap
  keep : Keepable C w.repo.log w.heap (.mem i)
  lt : i < w.next
  unread : ∀ nm, pubName (w.heap i).kind = some nm → NoReader r w.heap nm

theorem pubName_name {k : Kind} {nm : Str} (h : pubName k = some nm) : (isHash nm || nm == noneLocation) = false := by
  cases k <;> cases h <;> decide

/-- The new object, with copies as parts, can be written. -/
theorem Copying.facts {pre : PPath} {w0 w : World} {i j : ObjId} {d : Data} {ks : List (Key × (Str × ObjId))}
    (hc : Copyable C r w0 i) (hm : (w0.heap i).mapped = true) (hdat : (w0.heap i).body.data = d) (hpre : Canonical pre)
    (hcp : Copying C r (prefixed pre) w0 j d (w0.heap i).body.kids w) (h1 : w.heap j = Obj.new ⟨d, ks⟩)
    (h2 : Formed (⟨d, ks⟩ : Body ObjId)) (h3 : ∀ e ∈ (w0.heap i).body.kids, (dget ks (prefixed pre e.1)).isSome = true)
    (h4 : ∀ k t c, dget ks k = some (t, c) → ∃ e ∈ (w0.heap i).body.kids, k = prefixed pre e.1 ∧ t = e.2.1 ∧
      CopyOf C r w0 e.2.2 w c ∧ c ≠ j) :
    BodyOk w.heap ⟨d, ks⟩ ∧ (∀ k ∈ (⟨d, ks⟩ : Body ObjId).subs, k ≠ j ∧ Stub r w k) ∧
    (∀ nm, pubName d.kind = some nm → NoReader r w.heap nm) ∧ Copied C Placed (prefixed pre) w0 i w j := by
  have hform := hc.fine.formed i hm
  have hkd : (w0.heap i).kind = d.kind := by unfold Obj.kind; rw [hdat]
  have hslot : ∀ e ∈ (w0.heap i).body.kids, SlotOk d.kind e.1 e.2.1 (w0.heap e.2.2).kind := by
    intro e he
    rw [← hkd]
    exact hc.keep.slot hc.fine hm hc.typed (dget_of_mem hform.keys (k := e.1) (v := e.2) he)
  refine ⟨⟨?_, h2.keys, ?_⟩, ?_, ?_, ?_⟩
  · have := look_nil (C := C) (L := w0.repo.log) (h := w0.heap) [] (view_mapped hm)
    rw [show d = ((w0.heap i).body.map Node.mem).data from hdat.symm]
    exact (hc.keep.data [] [] _ _ _ this).1
  · intro x hx
    obtain ⟨e, he, q1, q2, q3, _⟩ := h4 x.1 x.2.1 x.2.2 (dget_of_mem h2.keys (k := x.1) (v := x.2) hx)
    rw [q1, q2, q3.kind]
    exact (hslot e he).prefixed hpre
  · intro k hk
    obtain ⟨x, hx, rfl⟩ := List.mem_map.mp hk
    obtain ⟨e, he, q1, q2, q3, q4⟩ := h4 x.1 x.2.1 x.2.2 (dget_of_mem h2.keys (k := x.1) (v := x.2) hx)
    exact ⟨q4, q3.stub⟩
  · intro nm hnm
    exact hcp.pass.reader nm (pubName_name hnm) (by simp) (hc.unread nm (by rw [hkd]; exact hnm))
  · exact look_copied (prefixed_inj hpre) (prefixed_ft pre) hc.fine hm hdat h1 (fun e he => (hslot e he).placed) h3
      (fun k t c' hk => by
        obtain ⟨e, he, q1, q2, q3, _⟩ := h4 k t c' hk
        exact ⟨e, he, q1, q2, q3.content⟩)

theorem Copying.finish {pre : PPath} {n : Nat} {w0 w w' : World} {i j c : ObjId} {d : Data} (hr : r ≠ [])
    (hc : Copyable C r w0 i) (hp : (w0.heap i).kind ≠ .tvl) (hm : (w0.heap i).mapped = true)
    (hdat : (w0.heap i).body.data = d) (hpre : Canonical pre)
    (hcp : Copying C r (prefixed pre) w0 j d (w0.heap i).body.kids w)
    (h : settle C n (some r) j w = (.ok c, w')) (hcf : CollisionFree C w'.repo.log) :
    CopyMade C r pre w0 i w' c := by
  obtain ⟨ks, h1, h2, h3, h4⟩ := hcp.obj
  have hkd : (w0.heap i).kind = d.kind := by unfold Obj.kind; rw [hdat]
  obtain ⟨f1, f2, f3, f4⟩ := hcp.facts hc hm hdat hpre h1 h2 h3 h4
  obtain ⟨rfl, g2, g3, g4, g5, g6⟩ := settle_ok (b := w0.next) hr hcp.pass.fine (hcp.pass.caches hc.caches) h1 hcp.ge hcp.lt f1
    (by rw [← hkd]; exact hp) f2 f3 hcf h
  refine ⟨?_, hcp.ge, by rw [g2]; exact hcp.lt, g4, by rw [g5, hkd], f4.right g6⟩
  rw [hkd]
  exact hcp.pass.weaken.trans g3

/-- Version lists have only versions as parts. -/
theorem Keepable.version {w : World} (hs : Fine C w) {i : ObjId} (hk : Keepable C w.repo.log w.heap (.mem i))
    (hv : (w.heap i).kind = .vlist ∨ (w.heap i).kind = .tvl) {k : Key} {ks : List Key} {t : Str}
    (hne : look C w.repo.log w.heap (k :: ks) t (.mem i) ≠ .absent) : ∃ v p, Canonical p ∧ k = .ver v p := by
  obtain ⟨b, hb⟩ := view_ok_of_look (hs.all i [] [])
  have hcls : b.data.kind = (w.heap i).kind := view_class hb
  cases hd : dget b.kids k with
  | none => exact absurd (look_cons_none hb hd) hne
  | some x =>
    obtain ⟨t', c'⟩ := x
    have hfound : look C w.repo.log w.heap ([] ++ [k]) [] (.mem i) ≠ .absent := by
      intro hx
      rw [List.nil_append, look_cons hb, hd] at hx
      rw [look_cons hb, hd] at hne
      simp only at hx hne
      cases hc : view C w.repo.log w.heap c' with
      | error e => rw [hc] at hx; cases hx
      | ok b' =>
        rw [hc] at hx hne
        simp only at hx hne
        by_cases hif : k = .ft ∧ b'.blank = true
        · rw [if_pos hif] at hne; exact hne rfl
        · rw [if_neg hif, look_nil _ hc] at hx; cases hx
    cases hl : look C w.repo.log w.heap ([] ++ [k]) [] (.mem i) with
    | missing => exact absurd hl (hs.all i _ _)
    | absent => exact absurd hl hfound
    | found t2 d2 bl2 =>
      have hsl := hk.slots [] k [] _ _ _ _ _ _ (look_nil [] hb) hl
      rw [hcls] at hsl
      rcases hv with hv | hv <;> rw [hv] at hsl <;> cases k <;> simp only [SlotOk] at hsl <;>
        exact ⟨_, _, hsl.1, rfl⟩

theorem Copied.version {w w' : World} {pre : PPath} {i c : ObjId} (hs : Fine C w)
    (hk : Keepable C w.repo.log w.heap (.mem i)) (hv : (w.heap i).kind = .vlist ∨ (w.heap i).kind = .tvl)
    (h : Copied C Placed (prefixed pre) w i w' c) {k : Key} {ks : List Key} {t : Str}
    (hne : look C w'.repo.log w'.heap (k :: ks) t (.mem c) ≠ .absent) : ∃ v p, Canonical p ∧ k = .ver v (pre.join p) := by
  obtain ⟨k0, g1, g2⟩ := h.only k ks t hne
  rw [g2, h.parts k0 g1] at hne
  obtain ⟨v, p, e1, e2⟩ := hk.version hs hv hne
  exact ⟨v, p, e1, by rw [g2, e2]; rfl⟩

/-- A copied tree version list: the repository holds all its versions, but the reference
of the copy has the wrong class. -/
structure TreeListCopied (C : Cfg) (r : Realm) (pre : PPath) (w0 : World) (i : ObjId) (w' : World) (c : ObjId) : Prop where
  away : (w'.heap c).mapped = false
  realm : (w'.heap c).realm = some r
  saved : r ∈ (w'.heap c).savedOn
  kind : (w'.heap c).kind = .tvl
  ref : ∃ ref, (w'.heap c).ref = some ref ∧ ref.cls = c!"VersionList" ∧ ref.isNone = false ∧ ∀ h0,
    (∀ v p, Canonical p → ∀ ks t, look C w'.repo.log h0 (.ver v (pre.join p) :: ks) t (.sto r ⟨.tvl, normRef .tvl ref⟩) =
      look C w0.repo.log w0.heap (.ver v p :: ks) t (.mem i)) ∧
    (∀ k ks t, look C w'.repo.log h0 (k :: ks) t (.sto r ⟨.tvl, normRef .tvl ref⟩) ≠ .absent →
      ∃ v p, Canonical p ∧ k = .ver v (pre.join p))

/-- It cannot be read. -/
theorem TreeListCopied.fails {pre : PPath} {w0 w' : World} {i c : ObjId} (h : TreeListCopied C r pre w0 i w' c) :
    ensureMapped C c w' = (.error .assertion, w') := by
  obtain ⟨ref, g1, g2, g3, _⟩ := h.ref
  have hread : readIn C c w' = (.error .assertion, w') := by
    unfold readIn
    rw [M.bind_of_ok (getObj_run c w'), if_neg (by simp [h.away]), h.realm, g1]
    simp only
    rw [if_neg (by simp [g3]), if_neg (by simpa using h.saved), h.kind, g2]
    rfl
  unfold ensureMapped
  rw [M.bind_of_ok (getObj_run c w'), if_neg (by simp [h.away])]
  exact M.bind_of_error hread

theorem TreeListCopied.purged {pre : PPath} {w0 w w' : World} {i c : ObjId} (h : TreeListCopied C r pre w0 i w c)
    (hp : Purged w w') : TreeListCopied C r pre w0 i w' c := by
  refine ⟨?_, (hp.realm c).trans h.realm, by rw [hp.saved]; exact h.saved, (hp.kind c).trans h.kind, ?_⟩
  · cases hm : (w'.heap c).mapped with
    | false => rfl
    | true => rw [hp.mapped c hm, h.away] at hm; cases hm
  · obtain ⟨ref, g1, g2⟩ := h.ref
    exact ⟨ref, (hp.ref c).trans g1, by rw [hp.repo]; exact g2⟩

theorem Copying.finish_tvl {pre : PPath} {n : Nat} {w0 w w' : World} {i j c : ObjId} (hr : r ≠ [])
    (hc : Copyable C r w0 i) (hm : (w0.heap i).mapped = true) (hdat : (w0.heap i).body.data = .tvl) (hpre : Canonical pre)
    (hcp : Copying C r (prefixed pre) w0 j .tvl (w0.heap i).body.kids w)
    (h : settle C n (some r) j w = (.ok c, w')) (hcf : CollisionFree C w'.repo.log) :
    TreeListCopied C r pre w0 i w' c := by
  obtain ⟨ks, h1, h2, h3, h4⟩ := hcp.obj
  obtain ⟨f1, f2, f3, f4⟩ := hcp.facts hc hm hdat hpre h1 h2 h3 h4
  unfold settle at h
  obtain ⟨ref, w1, e1, e2⟩ := M.bind_ok h
  obtain ⟨u, w2, e3, e4⟩ := M.bind_ok e2
  injection e4 with e4 e5
  injection e4 with e4
  subst e4
  subst e5
  have hpg := purge_purged n j w1
  rw [e3] at hpg
  simp only at hpg
  rw [hpg.repo] at hcf
  have hw := written_new (b := w0.next) hr hcp.pass.fine (hcp.pass.caches hc.caches) h1 hcp.ge hcp.lt f1 f2 f3 hcf e1
  have hmj : (w.heap j).mapped = true := by rw [h1]; rfl
  have hkj : (w.heap j).kind = .tvl := by rw [h1]; rfl
  have hsj : (w.heap j).savedOn = [] := by rw [h1]; rfl
  have hcls : ref.cls = c!"VersionList" ∧ ref.isNone = false := by
    obtain ⟨_, _, _, _, _, hmo, _⟩ := writeOut_not_skipped hr hmj (Or.inl hsj) e1
    exact mapOut_tvl hkj hmo
  have hsame := fun h0 => ((hw.content j).trans hw.good.same).trans (look_sto_heap (h' := h0) r _)
  rw [show (w1.heap j).kind = .tvl from hw.kind] at hsame
  refine ⟨purge_unmaps e3, (hpg.realm j).trans hw.realm, by rw [hpg.saved]; exact hw.saved, (hpg.kind j).trans hw.kind,
    ref, (hpg.ref j).trans hw.hasRef, hcls.1, hcls.2, fun h0 => ⟨?_, ?_⟩⟩
  · intro v p hp ks t
    rw [hpg.repo, ← hsame h0]
    exact f4.parts (.ver v p) hp ks t
  · intro k ks t hne
    rw [hpg.repo, ← hsame h0] at hne
    exact f4.version hc.fine hc.keep (Or.inr (by unfold Obj.kind; rw [hdat]; rfl)) hne

theorem formed_nil (d : Data) : Formed (⟨d, []⟩ : Body ObjId) :=
  ⟨List.nodup_nil, (fun e he => by cases he), (fun _ e he => by cases he)⟩

/-- A new object without parts, before the parts are copied -/
theorem Copying.start {f : Key → Key} {w0 : World} (hs : Fine C w0) (d : Data) :
    Copying C r f w0 w0.next d [] (MM.create (Obj.new ⟨d, []⟩) w0) := by
  refine ⟨Pass.create hs (Nat.le_refl _) (formed_nil d) (fun k hk => by cases hk) (fun _ t c hd => by cases hd),
    Nat.le_refl _, Nat.lt_succ_self _, [], create_self _ _, formed_nil d, (fun e he => by cases he),
    (fun k t c hk => by cases hk)⟩

theorem addChild_run {w w' : World} {j : ObjId} {n : Str} {c : ObjId} {u : Unit} (hm : (w.heap j).mapped = true)
    (h : addChild C j n c w = (.ok u, w')) : dget (w.heap j).body.kids (.name n) = none ∧
      w' = MM.edit j ⟨(w.heap j).body.data, (w.heap j).body.kids ++ [(.name n, [], c)]⟩ w := by
  unfold addChild at h
  obtain ⟨_, w1, h1, h3⟩ := M.bind_ok h
  obtain ⟨_, w2, h2, h4⟩ := M.bind_ok h3
  obtain ⟨_, rfl⟩ := M.assert_ok h1
  obtain ⟨_, rfl⟩ := M.assert_ok h2
  rw [M.bind_of_ok (ensureMapped_mapped hm), M.bind_of_ok (getObj_run j _)] at h4
  cases hd : dget (w2.heap j).body.kids (.name n) with
  | some x => rw [hd] at h4; cases h4
  | none =>
    rw [hd] at h4
    refine ⟨rfl, ?_⟩
    simp only at h4
    rw [change_run] at h4
    cases h4
    rfl

theorem dget_append_new {α β : Type} [DecidableEq α] {l : List (α × β)} {k : α} (h : dget l k = none) (x : β) (k' : α) :
    dget (l ++ [(k, x)]) k' = if k = k' then some x else dget l k' := by
  by_cases hk : k = k'
  · subst hk; rw [if_pos rfl, dget_append, h]; simp [dget]
  · rw [if_neg hk, dget_append]; simp [dget, hk]

theorem nodup_append_new {α β : Type} [DecidableEq α] {l : List (α × β)} {k : α} (hn : (dkeys l).Nodup)
    (h : dget l k = none) (x : β) : (dkeys (l ++ [(k, x)])).Nodup := by
  unfold dkeys at *
  rw [List.map_append, List.nodup_append]
  refine ⟨hn, by simp, ?_⟩
  intro a ha b hb
  simp only [List.map_cons, List.map_nil, List.mem_singleton] at hb
  rintro rfl
  subst hb
  have := dget_isSome.mpr (show a ∈ dkeys l from ha)
  rw [h] at this
  cases this

/-- Copying an object with a dictionary that is filled step by step -/
theorem copy_filling {cp : ObjId → W ObjId} {ins : ObjId → Key × (Str × ObjId) → ObjId → W Unit} {n : Nat} {pre : PPath}
    {w0 w' : World} {i c : ObjId} {d : Data} (hr : r ≠ []) (hcp : CpSpec C r cp) (hlog : ∀ k, M.Keeps (cp k) (Logged r))
    (hlogi : ∀ j e c, M.Keeps (ins j e c) (Logged r)) (hc : Copyable C r w0 i) (hm : (w0.heap i).mapped = true)
    (hd : d.kind ≠ .mrr)
    (hins : ∀ e ∈ (w0.heap i).body.kids, ∀ j c w w' u ks, w.heap j = Obj.new ⟨d, ks⟩ → Formed (⟨d, ks⟩ : Body ObjId) →
      ins j e c w = (.ok u, w') → ∃ ks', w' = MM.edit j ⟨d, ks'⟩ w ∧ Formed (⟨d, ks'⟩ : Body ObjId) ∧
        ∀ k, dget ks' k = if prefixed pre e.1 = k then some (e.2.1, c) else dget ks k)
    (h : (alloc (Obj.new ⟨d, []⟩) >>= fun j => M.forEach (fun e => cp e.2.2 >>= fun k => ins j e k) (w0.heap i).body.kids >>=
      fun _ => settle C n (some r) j) w0 = (.ok c, w')) (hcf : CollisionFree C w'.repo.log) :
    ∃ w1, Copying C r (prefixed pre) w0 w0.next d (w0.heap i).body.kids w1 ∧
      settle C n (some r) w0.next w1 = (.ok c, w') := by
  have hform := hc.fine.formed i hm
  rw [M.bind_of_ok (show alloc (Obj.new ⟨d, []⟩) w0 = (.ok w0.next, MM.create (Obj.new ⟨d, []⟩) w0) from rfl)] at h
  obtain ⟨us, w1, h1, h2⟩ := M.bind_ok h
  have hcf1 : CollisionFree C w1.repo.log := by
    have := logged_settle (C := C) hr n w0.next w1
    rw [h2] at this
    exact hcf.mono this.grows
  have hcopy := copy_loop (j := w0.next) hc.fine hc.caches hc.typed hcp hlog (hlogi w0.next) hd (w0.heap i).body.kids []
    (fun e he => ⟨hc.fine.kids i hm _ (List.mem_map.mpr ⟨e, he, rfl⟩),
      hc.keep.kid hm (dget_of_mem hform.keys (k := e.1) (v := e.2) he),
      (hc.keep.slot hc.fine hm hc.typed (dget_of_mem hform.keys (k := e.1) (v := e.2) he)).unnamed⟩)
    (fun e he c w w' u ks => hins e he w0.next c w w' u ks) _ w1 us (Copying.start hc.fine d) h1 hcf1
  exact ⟨w1, hcopy, h2⟩

theorem copy_filled {cp : ObjId → W ObjId} {ins : ObjId → Key × (Str × ObjId) → ObjId → W Unit} {n : Nat} {pre : PPath}
    {w0 w' : World} {i c : ObjId} {d : Data} (hr : r ≠ []) (hcp : CpSpec C r cp) (hlog : ∀ k, M.Keeps (cp k) (Logged r))
    (hlogi : ∀ j e c, M.Keeps (ins j e c) (Logged r)) (hc : Copyable C r w0 i) (hp : (w0.heap i).kind ≠ .tvl)
    (hm : (w0.heap i).mapped = true)
    (hpre : Canonical pre) (hdat : (w0.heap i).body.data = d) (hd : d.kind ≠ .mrr)
    (hins : ∀ e ∈ (w0.heap i).body.kids, ∀ j c w w' u ks, w.heap j = Obj.new ⟨d, ks⟩ → Formed (⟨d, ks⟩ : Body ObjId) →
      ins j e c w = (.ok u, w') → ∃ ks', w' = MM.edit j ⟨d, ks'⟩ w ∧ Formed (⟨d, ks'⟩ : Body ObjId) ∧
        ∀ k, dget ks' k = if prefixed pre e.1 = k then some (e.2.1, c) else dget ks k)
    (h : (alloc (Obj.new ⟨d, []⟩) >>= fun j => M.forEach (fun e => cp e.2.2 >>= fun k => ins j e k) (w0.heap i).body.kids >>=
      fun _ => settle C n (some r) j) w0 = (.ok c, w')) (hcf : CollisionFree C w'.repo.log) :
    CopyMade C r pre w0 i w' c := by
  obtain ⟨w1, h1, h2⟩ := copy_filling hr hcp hlog hlogi hc hm hd hins h hcf
  exact Copying.finish hr hc hp hm hdat hpre h1 h2 hcf

theorem copyOpt_ok {cp : ObjId → W ObjId} (hcp : CpSpec C r cp) {w w' : World} {e : Option (Str × ObjId)}
    {x : Option ObjId} (hs : Fine C w) (hca : w.caches = []) (hft : FtTyped w.heap)
    (hk : ∀ t k, e = some (t, k) → k < w.next ∧ Keepable C w.repo.log w.heap (.mem k) ∧ pubName (w.heap k).kind = none)
    (hcf : CollisionFree C w'.repo.log) (h : copyOpt cp e w = (.ok x, w')) :
    Pass C r none w.next w w' ∧ ((e = none ∧ x = none) ∨ ∃ t k c, e = some (t, k) ∧ x = some c ∧
      CopyOf C r w k w' c) := by
  cases e with
  | none => cases h; exact ⟨Pass.refl hs, Or.inl ⟨rfl, rfl⟩⟩
  | some e =>
    obtain ⟨t, k⟩ := e
    obtain ⟨c, w1, h1, h2⟩ := M.bind_ok h
    cases h2
    obtain ⟨g1, g2, g3⟩ := hk t k rfl
    obtain ⟨p, _, p2⟩ := hcp k w w' c hs hca hft g2 g1 g3 hcf h1
    exact ⟨p, Or.inr ⟨t, k, c, rfl, rfl, p2⟩⟩

/-- Putting a copied version into the new list -/
def insVersion (C : Cfg) (pre : PPath) (j : ObjId) (e : Key × (Str × ObjId)) (k : ObjId) : W Unit := match e.1 with
  | .ver v p => setVersioned C j v e.2.1 (pre.join p) k
  | _ => pure ()

theorem logged_insVersion (pre : PPath) (j : ObjId) (e : Key × (Str × ObjId)) (c : ObjId) :
    M.Keeps (insVersion C pre j e c) (Logged r) := by
  unfold insVersion
  cases e.1 <;> first | exact logged_setVersioned _ _ _ _ _ | exact M.Keeps.pure Logged.refl _

theorem insVersion_ok {pre : PPath} {d : Data} {l : List (Key × (Str × ObjId))} (hform : Formed (⟨d, l⟩ : Body ObjId))
    (hd : d.kind = .vlist ∨ d.kind = .tvl) : ∀ e ∈ l, ∀ j c w w' u ks, w.heap j = Obj.new ⟨d, ks⟩ →
      Formed (⟨d, ks⟩ : Body ObjId) → insVersion C pre j e c w = (.ok u, w') → ∃ ks', w' = MM.edit j ⟨d, ks'⟩ w ∧
        Formed (⟨d, ks'⟩ : Body ObjId) ∧ ∀ k, dget ks' k = if prefixed pre e.1 = k then some (e.2.1, c) else dget ks k := by
  intro e he j c w w' u ks hobj hf hx
  have hfit := hform.fits e he
  obtain ⟨key, t, k⟩ := e
  cases key with
  | ver v p =>
    simp only [insVersion, setVersioned] at hx
    rw [M.bind_of_ok (ensureMapped_mapped (by rw [hobj]; rfl)), M.bind_of_ok (getObj_run j w), change_run, hobj] at hx
    cases hx
    exact ⟨vset ks v (pre.join p) (t, c), rfl, formed_vset hf hd v _ _, dget_vset hf.keys v _ _⟩
  | _ => rcases hd with hd | hd <;> simp only [hd] at hfit <;> cases hfit

theorem copyImpl_ok {cp : ObjId → W ObjId} {n : Nat} {pre : PPath} {w0 w' : World} {i c : ObjId} (hr : r ≠ [])
    (hcp : CpSpec C r cp) (hlog : ∀ k, M.Keeps (cp k) (Logged r)) (hc : Copyable C r w0 i)
    (hp : (w0.heap i).kind ≠ .tvl) (hm : (w0.heap i).mapped = true) (hpre : Canonical pre)
    (h : copyImpl C cp n (some r) pre (w0.heap i).body w0 = (.ok c, w')) (hcf : CollisionFree C w'.repo.log) :
    CopyMade C r pre w0 i w' c := by
  have hform := hc.fine.formed i hm
  have hnotext : (w0.heap i).body.data.kind ≠ .text := by
    have := look_nil (C := C) (L := w0.repo.log) (h := w0.heap) [] (view_mapped hm)
    exact (hc.keep.data [] [] _ _ _ this).2
  unfold copyImpl at h
  cases hd : (w0.heap i).body.data with
  | text s => rw [hd] at hnotext; exact absurd rfl hnotext
  | metadata m =>
    rw [hd] at h
    simp only at h
    rw [M.bind_of_ok (show alloc (Obj.new ⟨.metadata m, []⟩) w0 = (.ok w0.next, MM.create _ w0) from rfl)] at h
    have hempty : (w0.heap i).body.kids = [] := by
      cases hk : (w0.heap i).body.kids with
      | nil => rfl
      | cons e l =>
        have := hform.fits e (by rw [hk]; exact List.mem_cons_self ..)
        rw [hd] at this
        cases this
    have hstart : Copying C r (prefixed pre) w0 w0.next (.metadata m) (w0.heap i).body.kids
        (MM.create (Obj.new ⟨.metadata m, []⟩) w0) := by
      rw [hempty]; exact Copying.start hc.fine (.metadata m)
    exact Copying.finish hr hc hp hm hd hpre hstart h hcf
  | mtree leaf =>
    rw [hd] at h
    refine copy_filled (ins := fun j e k => addChild C j e.1.entryName k) hr hcp hlog (fun j e c => logged_addChild _ _ _)
      hc hp hm hpre hd (by intro hx; cases hx) ?_ h hcf
    intro e he j c w w' u ks hobj hf hx
    have hfit := hform.fits e he
    have hst := hform.stamps (by rw [hd]; rfl) e he
    rw [hd] at hfit
    obtain ⟨key, t, k⟩ := e
    cases key with
    | name nm =>
      obtain ⟨g1, g2⟩ := addChild_run (by rw [hobj]; rfl) hx
      rw [hobj] at g1 g2
      have g1 : dget ks (.name nm) = none := g1
      have hst : t = [] := hst
      subst hst
      refine ⟨ks ++ [(Key.name nm, [], c)], g2, ⟨?_, ?_, ?_⟩, ?_⟩
      · exact nodup_append_new hf.keys g1 _
      · intro e he
        rcases List.mem_append.mp he with he | he
        · exact hf.fits e he
        · rw [List.mem_singleton] at he; rw [he]; rfl
      · intro hx e he
        rcases List.mem_append.mp he with he | he
        · exact hf.stamps hx e he
        · rw [List.mem_singleton] at he; rw [he]
      · exact dget_append_new g1 _
    | _ => cases hfit
  | mrr id v =>
    rw [hd] at h
    simp only at h
    obtain ⟨dlm, w1, h1, h2⟩ := M.bind_ok h
    obtain ⟨ft, w2, h3, h4⟩ := M.bind_ok h2
    rw [M.bind_of_ok (show alloc (Obj.new ⟨.mrr id v, mrrKids dlm ft⟩) w2 = (.ok w2.next, MM.create _ w2) from rfl)] at h4
    have hcf2 : CollisionFree C w2.repo.log := by
      have := logged_settle (C := C) hr n w2.next (MM.create (Obj.new ⟨.mrr id v, mrrKids dlm ft⟩) w2)
      rw [h4] at this
      exact hcf.mono this.grows
    have hcf1 : CollisionFree C w1.repo.log := by
      have := logged_copyOpt hlog (dget (w0.heap i).body.kids .ft) w1
      rw [h3] at this
      exact hcf2.mono this.grows
    have hkid : ∀ key t k, dget (w0.heap i).body.kids key = some (t, k) → k < w0.next ∧
        Keepable C w0.repo.log w0.heap (.mem k) ∧ pubName (w0.heap k).kind = none := fun key t k hk =>
      ⟨hc.fine.kids i hm _ (dget_sub hk), hc.keep.kid hm hk, (hc.keep.slot hc.fine hm hc.typed hk).unnamed⟩
    obtain ⟨p1, c1⟩ := copyOpt_ok hcp hc.fine hc.caches hc.typed (fun t k => hkid .dlm t k) hcf1 h1
    obtain ⟨p2, c2⟩ := copyOpt_ok hcp p1.fine (p1.caches hc.caches) (p1.typed hc.typed) (fun t k hk => by
      obtain ⟨g1, g2, g3⟩ := hkid .ft t k hk
      exact ⟨Nat.lt_of_lt_of_le g1 p1.next, g2.of_same (p1.content k g1), by rw [p1.kind g1]; exact g3⟩) hcf2 h3
    have pass2 : Pass C r none w0.next w0 w2 := p1.trans (p2.mono p1.next)
    have hkd : (w0.heap i).kind = .mrr := by unfold Obj.kind; rw [hd]; rfl
    have hst : ∀ key t k, dget (w0.heap i).body.kids key = some (t, k) → t = [] := fun key t k hk =>
      hform.stamps (by rw [hd]; rfl) _ (mem_of_dget hk)
    -- the two parts and what they are copies of
    have hdlm : ∀ c, dlm = some c → ∃ k, dget (w0.heap i).body.kids .dlm = some ([], k) ∧ CopyOf C r w0 k w2 c := by
      intro c hx
      rcases c1 with ⟨_, e2⟩ | ⟨t, k, c', e1, e2, e3⟩
      · rw [e2] at hx; cases hx
      · rw [e2] at hx; cases hx
        refine ⟨k, ?_, e3.pass p2⟩
        rw [e1, hst _ _ _ e1]
    have hftc : ∀ c, ft = some c → ∃ k, dget (w0.heap i).body.kids .ft = some ([], k) ∧ CopyOf C r w0 k w2 c := by
      intro c hx
      rcases c2 with ⟨_, e2⟩ | ⟨t, k, c', e1, e2, e3⟩
      · rw [e2] at hx; cases hx
      · rw [e2] at hx; cases hx
        have hlt := (hkid _ _ _ e1).1
        refine ⟨k, ?_, ⟨e3.lt, e3.stub, e3.kind.trans (p1.kind hlt), (p1.content k hlt).trans e3.content⟩⟩
        rw [e1, hst _ _ _ e1]
    have hpart : ∀ k t c, dget (mrrKids dlm ft) k = some (t, c) → ∃ k0, (k, t, k0) ∈ (w0.heap i).body.kids ∧
        CopyOf C r w0 k0 w2 c := by
      intro k t c hk
      obtain ⟨g1, g2⟩ := mem_mrrKids (mem_of_dget hk)
      simp only at g1 g2
      rcases g1 with rfl | rfl
      · rw [dget_mrrKids_dlm] at hk
        cases hx : dlm with
        | none => rw [hx] at hk; cases hk
        | some c' =>
          rw [hx] at hk
          cases hk
          obtain ⟨k0, q1, q2⟩ := hdlm _ hx
          exact ⟨k0, mem_of_dget q1, q2⟩
      · rw [dget_mrrKids_ft] at hk
        cases hx : ft with
        | none => rw [hx] at hk; cases hk
        | some c' =>
          rw [hx] at hk
          cases hk
          obtain ⟨k0, q1, q2⟩ := hftc _ hx
          exact ⟨k0, mem_of_dget q1, q2⟩
    have hnew : Formed (⟨.mrr id v, mrrKids dlm ft⟩ : Body ObjId) := by
      refine ⟨nodup_mrrKids _ _, fun e he => ?_, fun _ e he => (mem_mrrKids he).2⟩
      rcases (mem_mrrKids he).1 with g | g <;> rw [g] <;> rfl
    have hlt2 : ∀ k t c, dget (mrrKids dlm ft) k = some (t, c) → c < w2.next := fun k t c hk => by
      obtain ⟨_, _, q⟩ := hpart k t c hk
      exact q.lt
    have p3 : Pass C r none w2.next w2 (MM.create (Obj.new ⟨.mrr id v, mrrKids dlm ft⟩) w2) := by
      refine Pass.create p2.fine (Nat.le_refl _) hnew ?_ ?_
      · intro k hk
        obtain ⟨x, hx, rfl⟩ := List.mem_map.mp hk
        exact hlt2 x.1 x.2.1 x.2.2 (dget_of_mem hnew.keys (k := x.1) (v := x.2) hx)
      · intro _ t c hk
        obtain ⟨k0, q1, q2⟩ := hpart _ _ _ hk
        rw [q2.kind]
        exact hc.typed i hm hkd t k0 (dget_of_mem hform.keys q1)
    have hcop : Copying C r (prefixed pre) w0 w2.next (.mrr id v) (w0.heap i).body.kids
        (MM.create (Obj.new ⟨.mrr id v, mrrKids dlm ft⟩) w2) := by
      refine ⟨pass2.trans (p3.mono pass2.next), pass2.next, Nat.lt_succ_self _, mrrKids dlm ft, create_self _ _, hnew, ?_, ?_⟩
      · intro e he
        have hfit := hform.fits e he
        rw [hd] at hfit
        obtain ⟨key, t, k⟩ := e
        have hde := dget_of_mem hform.keys he
        cases key with
        | dlm =>
          show (dget (mrrKids dlm ft) .dlm).isSome = true
          rw [dget_mrrKids_dlm]
          rcases c1 with ⟨e1, _⟩ | ⟨_, _, c', _, e2, _⟩
          · rw [hde] at e1; cases e1
          · rw [e2]; rfl
        | ft =>
          show (dget (mrrKids dlm ft) .ft).isSome = true
          rw [dget_mrrKids_ft]
          rcases c2 with ⟨e1, _⟩ | ⟨_, _, c', _, e2, _⟩
          · rw [hde] at e1; cases e1
          · rw [e2]; rfl
        | _ => cases hfit
      · intro k t c hk
        obtain ⟨k0, q1, q2⟩ := hpart k t c hk
        refine ⟨_, q1, ?_, rfl, q2.pass p3, ?_⟩
        · obtain ⟨g1, _⟩ := mem_mrrKids (mem_of_dget hk)
          simp only at g1
          rcases g1 with rfl | rfl <;> rfl
        · have := q2.lt
          oomega
    exact Copying.finish hr hc hp hm hd hpre hcop h4 hcf
  | vlist =>
    rw [hd] at h
    refine copy_filled (ins := insVersion C pre) hr hcp hlog (logged_insVersion pre) hc hp hm hpre hd (by intro hx; cases hx) ?_ h hcf
    exact insVersion_ok (hd ▸ hform) (Or.inl rfl)
  | tvl => exact absurd (by unfold Obj.kind; rw [hd]; rfl) hp
  | uuidset =>
    rw [hd] at h
    refine copy_filled (ins := fun j e k => updObj j fun o => { o with body := ⟨o.body.data, dset o.body.kids e.1 ([], k)⟩ })
      hr hcp hlog (fun j e c => logged_still fun _ => rfl) hc hp hm hpre hd (by intro hx; cases hx) ?_ h hcf
    intro e he j c w w' u ks hobj hf hx
    have hfit := hform.fits e he
    have hst := hform.stamps (by rw [hd]; rfl) e he
    rw [hd] at hfit
    obtain ⟨key, t, k⟩ := e
    cases key with
    | uuid uu =>
      simp only at hx
      rw [updObj_run] at hx
      have hst : t = [] := hst
      subst hst
      refine ⟨dset ks (.uuid uu) ([], c), ?_, ⟨nodup_dset hf.keys _ _, ?_, ?_⟩, dget_dset _ _ _⟩
      · cases hx
        unfold MM.edit
        rw [hobj]
        rfl
      · intro e he
        rcases mem_dset he with he | he
        · rw [he]; rfl
        · exact hf.fits e he
      · intro hx e he
        rcases mem_dset he with he | he
        · rw [he]
        · exact hf.stamps hx e he
    | _ => cases hfit

/-! ### `deepcopy` -/

theorem CopyMade.visit {n : Nat} {pre : PPath} {w w1 w2 w3 : World} {i c : ObjId} (hc : Copyable C r w i)
    (ho : Opened C i w w1) (h : CopyMade C r pre w1 i w2 c) (hcf : CollisionFree C w2.repo.log)
    (hx : purge n i w2 = (.ok (), w3)) : CopyMade C r pre w i w3 c := by
  have hp := h.pass
  rw [ho.kind] at hp
  obtain ⟨p, rfl, hpr⟩ := Pass.visit hc.fine hc.lt ho hp hcf hc.unread hx
  have hci : c ≠ i := by
    have := h.new
    have := ho.next
    have := hc.lt
    oomega
  have hun := unload_unloads i w2
  have hold : (MM.unload i w2).heap c = w2.heap c := by unfold MM.unload; simp [Heap.set_ne hci]
  refine ⟨p, Nat.le_trans ho.next h.new, h.lt, ?_, by rw [hun.kind, h.kind, ho.kind], ?_⟩
  · exact ⟨by rw [hold]; exact h.stub.away, by rw [hold]; exact h.stub.realm, by rw [hold]; exact h.stub.saved,
      by rw [hold]; exact h.stub.ref, by rw [hold]; exact h.stub.plain, by rw [hold]; exact h.stub.only⟩
  · exact (Copied.left (ho.content i hc.lt) h.copied).right ((hp.fine.unload hpr).2 c)

/-- The claims about an object hold also after it was read. -/
theorem Copyable.opened {w w1 : World} {i : ObjId} (hc : Copyable C r w i) (ho : Opened C i w w1) :
    Copyable C r w1 i := by
  refine ⟨ho.fine, ho.caches.trans hc.caches, ho.typedHeap hc.fine hc.typed, hc.keep.of_same (ho.content i hc.lt),
    Nat.lt_of_lt_of_le hc.lt ho.next, ?_⟩
  intro nm hnm
  exact ho.reader (pubName_name hnm) (hc.unread nm (by rw [← ho.kind]; exact hnm))

theorem copied_same {w w' : World} {i c : ObjId} (hs : Fine C w) (hk : Keepable C w.repo.log w.heap (.mem i))
    (h : Copied C Placed (prefixed (metadataPath [[]])) w i w' c) :
    SameContent C w.repo.log w.heap (.mem i) w'.repo.log w'.heap (.mem c) := by
  have hid : ∀ k, Placed k → prefixed (metadataPath [[]]) k = k := by
    intro k hk
    cases k with
    | ver v p => simp only [prefixed]; rw [(C02_neutral p hk).1]
    | _ => rfl
  intro ks t
  cases ks with
  | nil => exact (h.root t).symm
  | cons k ks =>
    by_cases hP : Placed k
    · have := h.parts k hP ks t
      rw [hid k hP] at this
      exact this.symm
    · have h1 : look C w'.repo.log w'.heap (k :: ks) t (.mem c) = .absent := by
        refine Classical.byContradiction fun hne => ?_
        obtain ⟨k0, g1, g2⟩ := h.only k ks t hne
        rw [hid k0 g1] at g2
        exact hP (by rw [g2]; exact g1)
      rw [h1]
      have hft : k ≠ .ft := by rintro rfl; exact hP trivial
      obtain ⟨b, hb⟩ := view_ok_of_look (hs.all i [] [])
      cases hd : dget b.kids k with
      | none => exact look_cons_none hb hd
      | some x =>
        exfalso
        obtain ⟨t', c'⟩ := x
        have h2 : look C w.repo.log w.heap ([] ++ [k]) [] (.mem i) = look C w.repo.log w.heap [] t' c' :=
          look_cons_some hb hd hft
        have h3 := hs.all i ([] ++ [k]) []
        rw [h2] at h3
        obtain ⟨b', hb'⟩ := view_ok_of_look h3
        rw [look_nil _ hb'] at h2
        exact hP (hk.slots [] k [] _ _ _ _ _ _ (look_nil [] hb) h2).placed

theorem cpSpec_of {cp : ObjId → W ObjId} (h : ∀ {i c : ObjId} {w w' : World}, Copyable C r w i → (w.heap i).kind ≠ .tvl →
    cp i w = (.ok c, w') → CollisionFree C w'.repo.log → CopyMade C r (metadataPath [[]]) w i w' c) : CpSpec C r cp := by
  intro k w w' c hs hca hft hk hlt hp hcf hx
  have hck : Copyable C r w k := ⟨hs, hca, hft, hk, hlt, by intro nm hx; rw [hp] at hx; cases hx⟩
  have hm := h hck (by intro hx; rw [hx] at hp; cases hp) hx hcf
  refine ⟨?_, hm.new, ⟨hm.lt, hm.stub, hm.kind, copied_same hs hk hm.copied⟩⟩
  have := hm.pass
  rwa [hp] at this

theorem deepcopy_ok (hr : r ≠ []) (n : Nat) : ∀ {pre : PPath} {i c : ObjId} {w w' : World}, Canonical pre →
    Copyable C r w i → (w.heap i).kind ≠ .tvl → deepcopy C n (some r) pre i w = (.ok c, w') →
    CollisionFree C w'.repo.log → CopyMade C r pre w i w' c := by
  induction n with
  | zero => intro pre i c w w' _ _ _ h; cases h
  | succ n ih =>
    intro pre i c w w' hpre hc hp h hcf
    have hcp : CpSpec C r (deepcopy C n (some r) (metadataPath [[]])) := cpSpec_of (ih (C01_canonical [[]]))
    have hlog := fun k => logged_deepcopy (C := C) hr n (metadataPath [[]]) k
    unfold deepcopy withMapped at h
    rcases hc.fine.ensure hc.lt with ⟨hm, he⟩ | ⟨e, w1, he, _⟩ | ⟨w1, he, ho⟩
    · rw [M.bind_of_ok he] at h
      simp only [Bool.false_eq_true, if_false] at h
      rw [M.bind_of_ok (getObj_run i w)] at h
      exact copyImpl_ok hr hcp hlog hc hp hm hpre h hcf
    · rw [M.bind_of_error he] at h; cases h
    · rw [M.bind_of_ok he] at h
      simp only [if_true] at h
      obtain ⟨w2, h1, h2⟩ := finally_ok h
      rw [M.bind_of_ok (getObj_run i w1)] at h1
      have hcf2 : CollisionFree C w2.repo.log := by
        have := logged_purge (r := r) n i w2
        rw [h2] at this
        exact hcf.mono this.grows
      exact CopyMade.visit hc ho (copyImpl_ok hr hcp hlog (hc.opened ho) (by rw [ho.kind]; exact hp) ho.mapped hpre h1 hcf2)
        hcf2 h2

/-- Copying a tree version list -/
theorem deepcopy_tvl (hr : r ≠ []) {n : Nat} {pre : PPath} {i c : ObjId} {w w' : World} (hpre : Canonical pre)
    (hc : Copyable C r w i) (hk : (w.heap i).kind = .tvl) (h : deepcopy C n (some r) pre i w = (.ok c, w'))
    (hcf : CollisionFree C w'.repo.log) : TreeListCopied C r pre w i w' c := by
  cases n with
  | zero => cases h
  | succ n =>
    have hcp : CpSpec C r (deepcopy C n (some r) (metadataPath [[]])) :=
      cpSpec_of (deepcopy_ok hr n (C01_canonical [[]]))
    have hlog := fun k => logged_deepcopy (C := C) hr n (metadataPath [[]]) k
    have key : ∀ {w w' : World}, Copyable C r w i → (w.heap i).kind = .tvl → (w.heap i).mapped = true →
        copyImpl C (deepcopy C n (some r) (metadataPath [[]])) n (some r) pre (w.heap i).body w = (.ok c, w') →
        CollisionFree C w'.repo.log → TreeListCopied C r pre w i w' c := by
      intro w w' hc hk hm h hcf
      have hd : (w.heap i).body.data = .tvl := by
        unfold Obj.kind at hk
        cases hd : (w.heap i).body.data <;> rw [hd] at hk <;> first | rfl | cases hk
      unfold copyImpl at h
      rw [hd] at h
      obtain ⟨w1, h1, h2⟩ := copy_filling (ins := insVersion C pre) hr hcp hlog (logged_insVersion pre) hc hm
        (by intro hx; cases hx) (insVersion_ok (hd ▸ hc.fine.formed i hm) (Or.inr rfl)) h hcf
      exact Copying.finish_tvl hr hc hm hd hpre h1 h2 hcf
    unfold deepcopy withMapped at h
    rcases hc.fine.ensure hc.lt with ⟨hm, he⟩ | ⟨e, w1, he, _⟩ | ⟨w1, he, ho⟩
    · rw [M.bind_of_ok he] at h
      simp only [Bool.false_eq_true, if_false] at h
      rw [M.bind_of_ok (getObj_run i w)] at h
      exact key hc hk hm h hcf
    · rw [M.bind_of_error he] at h; cases h
    · rw [M.bind_of_ok he] at h
      simp only [if_true] at h
      obtain ⟨w2, h1, h2⟩ := finally_ok h
      rw [M.bind_of_ok (getObj_run i w1)] at h1
      have hcf2 : CollisionFree C w2.repo.log := by
        have := logged_purge (r := r) n i w2
        rw [h2] at this
        exact hcf.mono this.grows
      have g := key (hc.opened ho) (by rw [ho.kind]; exact hk) ho.mapped h1 hcf2
      have hpg := purge_purged n i w2
      rw [h2] at hpg
      refine TreeListCopied.purged ?_ hpg
      obtain ⟨ref, q1, q2, q3, q4⟩ := g.ref
      refine ⟨g.away, g.realm, g.saved, g.kind, ref, q1, q2, q3, fun h0 => ⟨?_, (q4 h0).2⟩⟩
      intro v p hp ks t
      rw [(q4 h0).1 v p hp ks t, ho.content i hc.lt]

end MM
