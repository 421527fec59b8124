import Verif.Props.Rough
import Verif.Props.Asking

/-! C76: metadata that is added in a session is stored and found, while git works. -/

namespace MM
variable {C : Cfg} {r : Realm} {t u : ObjId}

/-- What the code does in one process, it does in the other. -/
theorem Bench.call {α : Type} {P : α → Prop} {g : ObjId} {w v v' : World} (b : Bench C r g t u w v) {f : W α}
    (hf : Twin (fun j => g ≤ j) P f) {res : Except PyErr α} (h : f v = (res, v')) (hd : Desk C r t u v') :
    ∃ w', f w = (res, w') ∧ Bench C r g t u w' v' ∧ ∀ a, res = .ok a → P a := by
  have b' := b.step hf (by rw [h]; exact hd)
  obtain ⟨e, _, _, hP⟩ := hf w v b.side
  cases hx : f w with
  | mk res' w' =>
    rw [h, hx] at b' e
    rw [hx] at hP
    simp only at e
    subst e
    exact ⟨w', rfl, b', hP⟩

theorem Orderly.trans {g : ObjId} {a b c : World} (h : Orderly C g t u a b) (h' : Orderly C g t u b c) :
    Orderly C g t u a c := by
  induction h' with
  | refl => exact h
  | loaded _ i _ h1 h2 ih => exact .loaded _ i ih h1 h2
  | read _ i _ h1 h2 ih => exact .read _ i ih h1 h2
  | looked _ i p _ h1 h2 ih => exact .looked _ i p ih h1 h2
  | listed _ i id _ h1 h2 ih => exact .listed _ i id ih h1 h2
  | element _ i v p _ h1 h2 ih => exact .element _ i v p ih h1 h2
  | asked _ auto now id v pre path root rv _ h1 h2 h3 h4 h5 ih => exact .asked _ auto now id v pre path root rv ih h1 h2 h3 h4 h5
  | new _ b _ h1 h2 ih => exact .new _ b ih h1 h2
  | ran _ i ext run _ h1 h2 h3 ih => exact .ran _ i ext run ih h1 h2 h3
  | filed _ leaf i x p _ h1 h2 h3 h4 h5 h6 h7 h8 h9 ih => exact .filed _ leaf i x p ih h1 h2 h3 h4 h5 h6 h7 h8 h9
  | part _ k i x _ h1 h2 h3 h4 h5 h6 h7 h8 h9 ih => exact .part _ k i x ih h1 h2 h3 h4 h5 h6 h7 h8 h9

/-- Loading an object of a session -/
theorem Bench.ensure {g : ObjId} {w v : World} (hr : r ≠ []) (b : Bench C r g t u w v) (l : Lively C r t u v)
    (hf : v.repo.faults = []) {i : ObjId} (hg : g ≤ i) (hi : i < v.next) :
    ∃ o w' v', ensureMapped C i w = (.ok o, w') ∧ ensureMapped C i v = (.ok o, v') ∧ Bench C r g t u w' v' ∧
      Lively C r t u v' ∧ Loads C v v' ∧ (v'.heap i).mapped = true ∧ v'.repo = v.repo := by
  obtain ⟨o, v', h1, h2⟩ := l.desk.sound.fine.loads hf i
  obtain ⟨hl, hm⟩ := l.desk.sound.fine.loaded hi h1
  have l' := l.loads hr hl
  obtain ⟨w', h3, b', _⟩ := b.call (twin_ensureMapped hg) h1 l'.desk
  exact ⟨o, w', v', h3, h1, b', l', hl, hm, h2⟩

theorem Bench.readsIn {g : ObjId} {w v : World} (hr : r ≠ []) (b : Bench C r g t u w v) (l : Lively C r t u v)
    (hf : v.repo.faults = []) {i : ObjId} (hg : g ≤ i) (hi : i < v.next) :
    ∃ w' v', readIn C i w = (.ok (), w') ∧ readIn C i v = (.ok (), v') ∧ Bench C r g t u w' v' ∧
      Lively C r t u v' ∧ Loads C v v' ∧ v'.repo = v.repo := by
  obtain ⟨v', h1, h2⟩ := l.desk.sound.fine.readTotal hf i
  have hl := l.desk.sound.fine.readStep hi
  rw [h1] at hl
  have l' := l.loads hr hl
  obtain ⟨w', h3, b', _⟩ := b.call (twin_readIn hg) h1 l'.desk
  exact ⟨w', v', h3, h1, b', l', hl, h2⟩

/-- Giving an object other data of the same kind neither adds nor removes keys. -/
theorem look_edit_absent {L : Log} {w : World} {i : ObjId} {b : Body ObjId} (hm : (w.heap i).mapped = true)
    (hk : b.kids = (w.heap i).body.kids) (hd : b.data.kind = (w.heap i).body.data.kind) :
    ∀ (ks : List Key) (st : Str) (n : Node),
      look C L (MM.edit i b w).heap ks st n = .absent ↔ look C L w.heap ks st n = .absent := by
  have hv : ∀ n, (∀ e, view C L w.heap n = .error e → view C L (MM.edit i b w).heap n = .error e) ∧
      ∀ x, view C L w.heap n = .ok x → ∃ y, view C L (MM.edit i b w).heap n = .ok y ∧ y.kids = x.kids ∧
        y.data.kind = x.data.kind := by
    intro n
    cases n with
    | mem j =>
      by_cases hj : j = i
      · subst hj
        rw [view_mapped hm, view_mapped (by rw [edit_self]; exact hm), edit_self]
        refine ⟨fun e h => (by cases h), fun x h => ?_⟩
        cases h
        exact ⟨_, rfl, by rw [Body.map_kids, Body.map_kids, hk], hd⟩
      · have : view C L (MM.edit i b w).heap (.mem j) = view C L w.heap (.mem j) := by
          unfold view; simp only; rw [edit_ne b w hj]
        rw [this]
        exact ⟨fun e h => h, fun x h => ⟨x, h, rfl, rfl⟩⟩
    | _ => exact ⟨fun e h => h, fun x h => ⟨x, h, rfl, rfl⟩⟩
  intro ks
  induction ks with
  | nil =>
    intro st n
    unfold look
    cases hx : view C L w.heap n with
    | error e => rw [(hv n).1 e hx]
    | ok x =>
      obtain ⟨y, hy, _⟩ := (hv n).2 x hx
      rw [hy]; simp
  | cons k ks ih =>
    intro st n
    unfold look
    cases hx : view C L w.heap n with
    | error e => rw [(hv n).1 e hx]
    | ok x =>
      obtain ⟨y, hy, hyk, _⟩ := (hv n).2 x hx
      rw [hy]
      simp only
      rw [hyk]
      cases dget x.kids k with
      | none => simp
      | some z =>
        obtain ⟨st', c⟩ := z
        simp only
        cases hc : view C L w.heap c with
        | error e => rw [(hv c).1 e hc]
        | ok x' =>
          obtain ⟨y', hy', hyk', hyd'⟩ := (hv c).2 x' hc
          rw [hy']
          simp only
          rw [show y'.blank = x'.blank by unfold Body.blank; rw [hyk', hyd']]
          split
          · simp
          · exact ih st' c

/-- Adding a run to metadata of a session -/
theorem Bench.runs {g : ObjId} {w v : World} (hr : r ≠ []) (b : Bench C r g t u w v) (l : Lively C r t u v)
    (hf : v.repo.faults = []) {d : ObjId} (hg : g ≤ d) (hd : d < v.next) {s : Sets} {st : Str} {bl : Bool}
    (hs : MM.look C v.repo.log v.heap [] st (.mem d) = .found st (.metadata s) bl) (ext : Str) {run : Instance} (hw : run.WF) :
    ∃ w1 v1 v2, addExtractorRun C d ext run w = (.ok (), w1) ∧ Loads C v v1 ∧ (v1.heap d).mapped = true ∧
      (v1.heap d).body.data = .metadata s ∧
      v2 = MM.edit d ⟨.metadata (s.addRun ext run), (v1.heap d).body.kids⟩ v1 ∧ Bench C r g t u w1 v2 ∧ Lively C r t u v2 ∧
      v2.repo = v.repo ∧ Stays v v2 := by
  obtain ⟨o, v1, h1, h2⟩ := l.desk.sound.fine.loads hf d
  obtain ⟨hl, hm⟩ := l.desk.sound.fine.loaded hd h1
  have hdat : (v1.heap d).body.data = .metadata s := by
    have := (hl.content d hd [] st).symm.trans hs
    rw [look_nil st (view_mapped hm)] at this
    injection this
  have hx : addExtractorRun C d ext run v =
      (.ok (), MM.edit d ⟨.metadata (s.addRun ext run), (v1.heap d).body.kids⟩ v1) := by
    unfold addExtractorRun
    rw [M.bind_of_ok h1, M.bind_of_ok (getObj_run d v1), hdat]
    simp only
    rw [change_run]
  have l2 := l.ran hr hd ext hw hx
  obtain ⟨w1, h3, b2, _⟩ := b.call (twin_addExtractorRun hg ext run) hx l2.desk
  refine ⟨w1, v1, _, h3, hl, hm, hdat, rfl, b2, l2, h2, hl.grown.stays.trans (Stays.rewrite hm ?_)⟩
  show Kind.metadata = (v1.heap d).body.data.kind
  rw [hdat]; rfl

/-- Getting dataset-level metadata and adding a run to it -/
theorem Bench.addsRun {g : ObjId} {w v : World} (hr : r ≠ []) (b : Bench C r g t u w v) (l : Lively C r t u v)
    (hf : v.repo.faults = []) {m : ObjId} (hg : g ≤ m) (hm : m < v.next) {s : Sets} {bl : Bool}
    (hs : MM.look C v.repo.log v.heap [.dlm] [] (.mem m) = .found [] (.metadata s) bl) (ext : Str) {run : Instance}
    (hw : run.WF) :
    ∃ d w1 w2 v2, getDlm C m w = (.ok d, w1) ∧ addExtractorRun C d ext run w1 = (.ok (), w2) ∧
      Orderly C g t u w w2 ∧ Bench C r g t u w2 v2 ∧ Lively C r t u v2 ∧ v2.repo = v.repo ∧
      (∃ bl', MM.look C v2.repo.log v2.heap [.dlm] [] (.mem m) = .found [] (.metadata (s.addRun ext run)) bl') ∧
      ∀ ks, MM.look C v2.repo.log v2.heap ks [] (.mem m) = .absent ↔ MM.look C v.repo.log v.heap ks [] (.mem m) = .absent := by
  obtain ⟨o, wa, va, h1, _, ba, la, hla, hma, ra⟩ := b.ensure hr l hf hg hm
  have hm1 := Nat.lt_of_lt_of_le hm hla.next
  have hsa : MM.look C va.repo.log va.heap [.dlm] [] (.mem m) = .found [] (.metadata s) bl :=
    (hla.content m hm [.dlm] []).symm.trans hs
  have hheap : va.heap m = wa.heap m := ba.side.heap m hg
  cases hd : dget (va.heap m).body.kids .dlm with
  | none =>
    rw [look_cons_none (view_mapped hma) (by rw [Body.dget_map, hd]; rfl)] at hsa; cases hsa
  | some x =>
    obtain ⟨st, d⟩ := x
    have hst : st = [] := by
      have hk := la.desk.sound.fine.formed m hma
      have hfit := hk.fits _ (mem_of_dget hd)
      exact hk.stamps (by cases hq : (va.heap m).body.data <;> rw [hq] at hfit <;> first | rfl | cases hfit) _ (mem_of_dget hd)
    subst hst
    have hsub : d ∈ (va.heap m).body.subs := List.mem_map.mpr ⟨_, mem_of_dget hd, rfl⟩
    have hdv : d < va.next := la.desk.sound.fine.kids m hma d hsub
    have hgd : g ≤ d := ba.side.subs m hg (by rw [← hheap]; exact hma) d (by rw [← hheap]; exact hsub)
    obtain ⟨wb, vb, h3, _, bb, lb, hlb, rb⟩ := ba.readsIn hr la (by rw [ra]; exact hf) hgd hdv
    have hdlm : getDlm C m w = (.ok d, wb) := by
      unfold getDlm
      rw [M.bind_of_ok h1, M.bind_of_ok (getObj_run m wa), ← hheap, hd]
      simp only
      rw [M.bind_of_ok h3]; rfl
    have hmb : (vb.heap m).mapped = true := by rw [hlb.loaded m hm1 hma]; exact hma
    have hdb : dget (vb.heap m).body.kids .dlm = some ([], d) := by rw [hlb.loaded m hm1 hma]; exact hd
    have hsd : MM.look C vb.repo.log vb.heap [] [] (.mem d) = .found [] (.metadata s) bl := by
      rw [← look_part hmb hdb (by decide) [] []]
      exact (hlb.content m hm1 [.dlm] []).symm.trans hsa
    obtain ⟨wc, v1, vc, h4, hl1, hmd, hdat, he, bc, lc, rc, sc⟩ := bb.runs hr lb (by rw [rb, ra]; exact hf) hgd
      (Nat.lt_of_lt_of_le hdv hlb.next) hsd ext hw
    refine ⟨d, wb, wc, vc, hdlm, h4, ?_, bc, lc, by rw [rc, rb, ra], ?_, fun ks => ?_⟩
    · have o1 : Orderly C g t u w wa := by
        have := Orderly.loaded (C := C) (t := t) (u := u) w m .refl hg (by rw [← b.side.next]; exact hm)
        rwa [h1] at this
      have o2 : Orderly C g t u w wb := by
        have := Orderly.read _ d o1 hgd (by rw [← ba.side.next]; exact hdv)
        rwa [h3] at this
      have := Orderly.ran _ d ext run o2 hgd (by rw [← bb.side.next]; exact Nat.lt_of_lt_of_le hdv hlb.next) hw
      rwa [h4] at this
    · have hm2 := Nat.lt_of_lt_of_le hm1 hlb.next
      have e1 : v1.heap m = vb.heap m := hl1.loaded m hm2 hmb
      have hne : m ≠ d := by
        intro e
        have hfit := (la.desk.sound.fine.formed m hma).fits _ (mem_of_dget hd)
        rw [← e, e1, hlb.loaded m hm1 hma] at hdat
        rw [hdat] at hfit
        cases hfit
      rw [he]
      have hmv : ((MM.edit d ⟨.metadata (s.addRun ext run), (v1.heap d).body.kids⟩ v1).heap m) = vb.heap m := by
        rw [edit_ne _ _ hne, e1]
      rw [look_part (x := ([], d)) (by rw [hmv]; exact hmb) (by rw [hmv]; exact hdb) (by decide)]
      have hmm : ((MM.edit d ⟨.metadata (s.addRun ext run), (v1.heap d).body.kids⟩ v1).heap d).mapped = true := by
        rw [edit_self]; exact hmd
      refine ⟨_, (look_nil [] (view_mapped hmm)).trans (congrArg (fun q => Res.found [] q _) ?_)⟩
      rw [edit_self]; rfl
    · rw [he, show ∀ b, (MM.edit d b v1).repo = v1.repo from fun _ => rfl, 
        look_edit_absent (b := ⟨.metadata (s.addRun ext run), (v1.heap d).body.kids⟩) hmd rfl (by rw [hdat]; rfl), hla.content m hm, hlb.content m hm1,
        hl1.content m (Nat.lt_of_lt_of_le hm1 hlb.next)]

/-- The record of a request is there, with its dataset listed. -/
theorem Done.facts {v : World} (hs : Fine C v) {ds : Uuid} {dv : Str} {pre : PPath} {path : List Str} {root : Option Uuid}
    {rv : Option Str} {m : ObjId} (hd : Done v t u ds dv pre path root rv m) :
    m < v.next ∧ MM.look C v.repo.log v.heap [.uuid ds] [] (.mem u) ≠ .absent := by
  obtain ⟨tv, dt, _, _, h3, _⟩ := hd
  obtain ⟨vl, y, h4, _⟩ := h3.entry
  exact ⟨h3.record.there, h4.here hs⟩

/-! ### Saving -/

/-- In state `w` of a session both top-level objects can be saved, with every recursion limit that is large
enough and whether or not objects are written that have not changed.  The repository then has a history of
sessions again, and every later process that asks for the record of dataset `ds` in version `dv` gets one
with the content that `m` has in `w`. -/
def KeptRecord (C : Cfg) (r : Realm) (t u : ObjId) (ds : Uuid) (dv : Str) (pre : PPath) (path : List Str) (root : Option Uuid)
    (rv : Option Str) (m : ObjId) (w : World) : Prop :=
  ∃ N, ∀ n n' force force', N ≤ n → N ≤ n' → CollisionFree C (writeOut C n (some r) force t w).2.eff →
    ∃ ref w1, writeOut C n (some r) force t w = (.ok ref, w1) ∧
      (CollisionFree C (writeOut C n' (some r) force' u w1).2.eff →
        ∃ ref' w2, writeOut C n' (some r) force' u w1 = (.ok ref', w2) ∧ Past C r w2.repo.log ∧
          ∀ (s' : Repo) (i : World), After C r w2.repo.log s'.log → s'.faults = [] → Idle s' i → ∀ (auto : Option Bool) (now : Str) (id : Uuid)
            (v : Str) (sub : Option (Uuid × Str)), sub = some (ds, dv) ∨ (sub = none ∧ path = [] ∧ ds = id ∧ dv = v) →
            (path ≠ [] → root = some id ∧ rv = some v) →
            ∃ t' u' m' w3, topRecord C auto now r id v pre path sub i = (.ok (some (t', u'), some m'), w3) ∧
              ∀ ks, look C w3.repo.log w3.heap ks [] (.mem m') = look C w.repo.log w.heap ks [] (.mem m))

/-- C76: after every history of sessions, when a session has got a record and git works, all it has done with
the record can be saved, and is found by every later process. -/
theorem C76_kept (hr : r ≠ []) (hrem : Ref.isRemote r = false) {L : Log} (hL : Past C r L) {fs : List Fault} {g : ObjId}
    {w0 w1 w2 w : World} (ho : Opens C r ⟨L, fs⟩ g t u w0) (h1 : Orderly C g t u w0 w1) {auto : Option Bool} {now : Str}
    {ds : Uuid} {dv : Str} {pre : PPath} (hc : Canonical pre) {path : List Str} (hp : ∀ n ∈ path, CompOk n ∧ NameOk n)
    (hnm : rootRecordName ∉ path) {root : Option Uuid} {rv : Option Str} (hroot : path ≠ [] → root ≠ none ∧ rv ≠ none)
    {m : ObjId} (hask : rootRecord C auto now t u ds dv pre path root rv w1 = (.ok (some m), w2))
    (h2 : Orderly C g t u w2 w) (hf : w.repo.faults = []) : KeptRecord C r t u ds dv pre path root rv m w := by
  have hU := hL.ready hr
  obtain ⟨v1, b1, l1⟩ := ho.session hr hU.trim hU.trees h1
  have o2 : Orderly C g t u w0 w2 := by
    have := Orderly.asked w1 auto now ds dv pre path root rv h1 hc hp hnm hroot (Or.inr (Or.inr (Or.inr (Or.inr ⟨some m, by rw [hask]⟩))))
    rwa [hask] at this
  obtain ⟨e, _, _, hm⟩ := twin_rootRecord (C := C) b1.gt b1.gu auto now ds dv pre path root rv w1 v1 b1.side
  rw [hask] at e hm
  cases hx : rootRecord C auto now t u ds dv pre path root rv v1 with
  | mk res v2 =>
    rw [hx] at e
    simp only at e
    subst e
    have d2 := b1.desk.rootRecord hr auto now ds dv hc hp root rv hx
    have run := rootRecord_run b1.desk.sound auto now b1.desk.tl b1.desk.tk b1.desk.ul b1.desk.uk ds dv pre
      (fun n hn => (hp n hn).1) root rv hx
    have b2 := b1.step (twin_rootRecord b1.gt b1.gu auto now ds dv pre path root rv) (by rw [hx]; exact d2)
    rw [hask, hx] at b2
    obtain ⟨v', b, st, _⟩ := b2.meanwhile hr h2.busy.meanwhile
    have hd := (run.done m rfl).stays d2.sound.fine st
    obtain ⟨N, hN⟩ := C72_saves hr hrem hL ho (o2.trans h2) hf
      ⟨ds, by rw [b.look b.gu]; exact (hd.facts b.desk.sound.fine).2⟩
    refine ⟨N, fun n n' force force' hn hn' hc1 => ?_⟩
    obtain ⟨ref, w4, h4, h5⟩ := hN n n' force force' hn hn' hc1
    refine ⟨ref, w4, h4, fun hc2 => ?_⟩
    obtain ⟨ref', w5, h6, h7⟩ := h5 hc2
    exact ⟨ref', w5, h6, h7, fun s' i ha' hf' hi auto' now' id vv sub hsub hroot' => C64_saved hr ho h1.busy.meanwhile hc hp hask
      h2.busy.meanwhile (SavesBoth.direct h4 h6) ha' hf' hi auto' now' hsub hroot'⟩

/-! ### Files -/

/-- The file tree of a record, made if there is none -/
def treeOf (C : Cfg) (m : ObjId) : W ObjId := do
  let o ← getFileTree C m
  match o with
  | some f => pure f
  | none => do
    let f ← alloc (Obj.new (Body.empty (.mtree .metadata)))
    setFileTree C m f
    pure f

/-- How a program that uses the package gives a record metadata for a file that has none: it gets the file
tree of the record, or gives the record a new one (metadatarootrecord.py 55-64), adds new metadata at the
path of the file (`add_metadata`, filetree.py 36-40), and adds the run to it (metadata.py 266-289). -/
def fileRun (C : Cfg) (m : ObjId) (p : List Str) (ext : Str) (run : Instance) : W Unit := do
  let f ← treeOf C m
  let x ← alloc (Obj.new (Body.empty .metadata))
  addChildAt C x p f
  addExtractorRun C x ext run

/-- Making an object in a session -/
theorem Bench.creates {g : ObjId} {w v : World} (b : Bench C r g t u w v) (l : Lively C r t u v)
    {x : Body ObjId} (hk : x.kids = []) (hd : DataOk x.data) :
    Bench C r g t u (create (Obj.new x) w) (create (Obj.new x) v) ∧ Lively C r t u (create (Obj.new x) v) ∧
      Loose (create (Obj.new x) v) v.next := by
  have dn := (b.desk.create hd hk).1
  have := b.step (f := alloc (Obj.new x)) (Twin.alloc (fun _ y hy => by
    unfold Body.subs at hy
    rw [show (Obj.new x).body.kids = [] from hk] at hy
    cases hy)) dn
  refine ⟨this, ⟨dn, l.tidy.create l.desk.sound.fine hk, l.trees⟩, fun p hp => ?_⟩
  obtain ⟨h1, h2⟩ := hp
  by_cases hpn : p = v.next
  · rw [hpn, create_self] at h2
    unfold Body.subs at h2
    rw [show (Obj.new x).body.kids = [] from hk] at h2
    cases h2
  · rw [create_ne _ _ hpn] at h1 h2
    exact absurd (l.desk.sound.fine.kids p h1 _ h2) (Nat.lt_irrefl _)

theorem Bench.treeOf {g : ObjId} {w v : World} (hr : r ≠ []) (b : Bench C r g t u w v) (l : Lively C r t u v)
    (hf : v.repo.faults = []) {m : ObjId} (hg : g ≤ m) (hm : m < v.next) (hk : (v.heap m).kind = .mrr) :
    ∃ f w1 v1, MM.treeOf C m w = (.ok f, w1) ∧ Orderly C g t u w w1 ∧ Bench C r g t u w1 v1 ∧ Lively C r t u v1 ∧
      v1.repo = v.repo ∧ m < v1.next ∧ g ≤ f ∧ f < v1.next ∧ (v1.heap f).kind = .mtree .metadata ∧ (v1.heap m).mapped = true ∧
      dget (v1.heap m).body.kids .ft = some ([], f) ∧
      ∀ a, a ≠ [] → MM.look C v1.repo.log v1.heap (names a) [] (.mem f) =
        MM.look C v.repo.log v.heap (.ft :: names a) [] (.mem m) := by
  obtain ⟨o, wa, va, h1, _, ba, la, hla, hma, ra⟩ := b.ensure hr l hf hg hm
  have hm1 := Nat.lt_of_lt_of_le hm hla.next
  have hka : (va.heap m).kind = .mrr := (hla.kind m hm).trans hk
  have hheap : va.heap m = wa.heap m := ba.side.heap m hg
  have o1 : Orderly C g t u w wa := by
    have := Orderly.loaded (C := C) (t := t) (u := u) w m .refl hg (by rw [← b.side.next]; exact hm)
    rwa [h1] at this
  cases hd : dget (va.heap m).body.kids .ft with
  | none =>
    have hget : getFileTree C m w = (.ok none, wa) := by
      unfold getFileTree
      rw [M.bind_of_ok h1, M.bind_of_ok (getObj_run m wa), ← hheap, hd]
      rfl
    obtain ⟨bb, lb, loose⟩ := ba.creates la (x := Body.empty (.mtree .metadata)) rfl trivial
    generalize hvb : create (Obj.new (Body.empty (.mtree .metadata))) va = vb at bb lb loose
    generalize hwb : create (Obj.new (Body.empty (.mtree .metadata))) wa = wb at bb
    have hne : m ≠ va.next := Nat.ne_of_lt hm1
    have hbm : vb.heap m = va.heap m := by rw [← hvb]; exact create_ne _ _ hne
    have hbf : vb.heap va.next = Obj.new (Body.empty (.mtree .metadata)) := by rw [← hvb]; exact create_self _ _
    have hbn : vb.next = va.next + 1 := by rw [← hvb]; rfl
    have hgf : g ≤ va.next := Nat.le_trans hg (Nat.le_of_lt hm1)
    have hmb : (vb.heap m).mapped = true := by rw [hbm]; exact hma
    have hkb : (vb.heap m).kind = .mrr := by rw [hbm]; exact hka
    have hnb : dget (vb.heap m).body.kids .ft = none := by rw [hbm]; exact hd
    have hm2 : m < vb.next := by rw [hbn]; exact Nat.lt_succ_of_lt hm1
    have hf2 : va.next < vb.next := by rw [hbn]; exact Nat.lt_succ_self _
    have hfk : (vb.heap va.next).kind = .mtree .metadata := by rw [hbf]; rfl
    have lc := lb.setPart (k := .ft) hm2 hkb hmb hnb hf2 (.inr ⟨rfl, hfk⟩) loose
    have hrun := setPart_run (C := C) (k := .ft) (x := va.next) (.inr rfl) hmb
    obtain ⟨wc, h3, bc, _⟩ := bb.call (twin_setPart hg hgf) hrun (by rw [hrun] at lc; exact lc.desk)
    rw [hrun] at lc
    obtain ⟨q1, q2, q3⟩ := mrrSet_spec (lb.desk.sound.fine.formed m hmb) hkb (.inr rfl) va.next
    have o2 : Orderly C g t u w wb := by
      have := Orderly.new _ (Body.empty (.mtree .metadata)) o1 rfl trivial
      rwa [hwb] at this
    have hwn : wb.next = vb.next := bb.side.next.symm
    have o3 : Orderly C g t u w wc := by
      have := Orderly.part _ .ft m va.next o2 hg (by rw [hwn]; exact hm2) (by rw [← bb.side.heap m hg]; exact hkb)
        (by rw [← bb.side.heap m hg]; exact hmb) (by rw [← bb.side.heap m hg]; exact hnb) hgf (by rw [hwn]; exact hf2)
        (.inr ⟨rfl, by rw [← bb.side.heap _ hgf]; exact hfk⟩) (fun q hq _ hh => loose q (by
          unfold Has at hh ⊢
          rwa [bb.side.heap q hq]))
      rwa [h3] at this
    have hset : setFileTree C m va.next wb = (.ok (), wc) := by
      have := h3
      unfold setPart at this
      rwa [if_neg (by decide)] at this
    have hne' : va.next ≠ m := fun e => hne e.symm
    refine ⟨va.next, wc, _, ?_, o3, bc, lc, ?_, hm2, hgf, hf2, ?_, ?_, ?_, fun a ha => ?_⟩
    · unfold MM.treeOf
      rw [M.bind_of_ok hget]
      simp only
      have hal : alloc (Obj.new (Body.empty (.mtree .metadata))) wa = (.ok va.next, wb) := by
        rw [ba.side.next, ← hwb]; rfl
      rw [M.bind_of_ok hal, M.bind_of_ok hset]; rfl
    · show vb.repo = v.repo
      rw [← hvb]; exact ra
    · rw [edit_ne _ _ hne']; exact hfk
    · rw [edit_self]; exact hmb
    · rw [edit_self]; exact q2
    · obtain ⟨n, a, rfl⟩ : ∃ n a', a = n :: a' := by cases a with | nil => exact absurd rfl ha | cons n a => exact ⟨n, a, rfl⟩
      rw [hla.content m hm, look_cons_none (view_mapped hma) (by rw [Body.dget_map, hd]; rfl)]
      have hfm : ((MM.edit m ⟨(vb.heap m).body.data, mrrSet (vb.heap m).body.kids .ft va.next⟩ vb).heap va.next) =
          Obj.new (Body.empty (.mtree .metadata)) := by rw [edit_ne _ _ hne', hbf]
      exact look_cons_none (view_mapped (by rw [hfm]; rfl)) (by rw [hfm]; rfl)
  | some x =>
    obtain ⟨st, f⟩ := x
    have hst : st = [] := (la.desk.sound.fine.formed m hma).stamps (by rw [show (va.heap m).body.data.kind = .mrr from hka]; rfl) _ (mem_of_dget hd)
    subst hst
    have hsub : f ∈ (va.heap m).body.subs := List.mem_map.mpr ⟨_, mem_of_dget hd, rfl⟩
    have hdv : f < va.next := la.desk.sound.fine.kids m hma f hsub
    have hgd : g ≤ f := ba.side.subs m hg (by rw [← hheap]; exact hma) f (by rw [← hheap]; exact hsub)
    have hfk : (va.heap f).kind = .mtree .metadata := by
      have := la.desk.sound.typed m hma _ (mem_of_dget hd)
      rw [hka] at this
      exact this
    obtain ⟨wb, vb, h3, _, bb, lb, hlb, rb⟩ := ba.readsIn hr la (by rw [ra]; exact hf) hgd hdv
    have hmb : (vb.heap m).mapped = true := by rw [hlb.loaded m hm1 hma]; exact hma
    have hdb : dget (vb.heap m).body.kids .ft = some ([], f) := by rw [hlb.loaded m hm1 hma]; exact hd
    refine ⟨f, wb, vb, ?_, ?_, bb, lb, by rw [rb, ra], Nat.lt_of_lt_of_le hm1 hlb.next, hgd, Nat.lt_of_lt_of_le hdv hlb.next,
      (hlb.kind f hdv).trans hfk, hmb, hdb, fun a ha => ?_⟩
    · have hget : getFileTree C m w = (.ok (some f), wb) := by
        unfold getFileTree
        rw [M.bind_of_ok h1, M.bind_of_ok (getObj_run m wa), ← hheap, hd]
        simp only
        rw [M.bind_of_ok h3]; rfl
      unfold MM.treeOf
      rw [M.bind_of_ok hget]; rfl
    · have := Orderly.read _ f o1 hgd (by rw [← ba.side.next]; exact hdv)
      rwa [h3] at this
    · rw [hla.content m hm, hlb.content m hm1, look_cons (view_mapped hmb), Body.dget_map, hdb]
      simp only [Option.map_some]
      obtain ⟨bf, hbf⟩ := view_ok_of_look (lb.desk.sound.fine.all f [] [])
      rw [hbf]
      simp only
      split
      · rename_i hbl
        obtain ⟨n, a, rfl⟩ : ∃ n a', a = n :: a' := by cases a with | nil => exact absurd rfl ha | cons n a => exact ⟨n, a, rfl⟩
        have : bf.kids = [] := by
          have := hbl.2
          unfold Body.blank at this
          simp only [Bool.and_eq_true, List.isEmpty_iff] at this
          exact this.2
        exact look_cons_none hbf (by rw [this]; rfl)
      · rfl

/-- Giving a file metadata -/
theorem Bench.fileRun {g : ObjId} {w v : World} (hr : r ≠ []) (b : Bench C r g t u w v) (l : Lively C r t u v)
    (hf : v.repo.faults = []) {m : ObjId} (hg : g ≤ m) (hm : m < v.next) (hk : (v.heap m).kind = .mrr) {p : List Str}
    (hp : ∀ n ∈ p, CompOk n ∧ NameOk n) (hne : p ≠ [])
    (hfree : ∀ a b, p = a ++ b → a ≠ [] → ∀ s d e, MM.look C v.repo.log v.heap (.ft :: names a) [] (.mem m) = .found s d e →
      b ≠ [] ∧ d.kind.isMtree = true) (ext : Str) {run : Instance} (hw : run.WF) :
    ∃ w1 v1, MM.fileRun C m p ext run w = (.ok (), w1) ∧ Orderly C g t u w w1 ∧ Bench C r g t u w1 v1 ∧ Lively C r t u v1 ∧
      v1.repo = v.repo ∧
      ∃ bl, MM.look C v1.repo.log v1.heap (.ft :: names p) [] (.mem m) = .found [] (.metadata (Sets.addRun [] ext run)) bl := by
  obtain ⟨f, wa, va, h1, oa, ba, la, ra, hma, hgf, hfl, hfk, hmm, hdf, hlook⟩ := b.treeOf hr l hf hg hm hk
  obtain ⟨bb, lb, loose⟩ := ba.creates la (x := Body.empty .metadata) rfl ⟨List.nodup_nil, fun _ h => by cases h⟩
  generalize hvb : create (Obj.new (Body.empty .metadata)) va = vb at bb lb loose
  generalize hwb : create (Obj.new (Body.empty .metadata)) wa = wb at bb
  have hgx : g ≤ va.next := Nat.le_trans hg (Nat.le_of_lt hma)
  have hbo : ∀ j, j < va.next → vb.heap j = va.heap j := fun j hj => by rw [← hvb]; exact create_ne _ _ (Nat.ne_of_lt hj)
  have hbx : vb.heap va.next = Obj.new (Body.empty .metadata) := by rw [← hvb]; exact create_self _ _
  have hbn : vb.next = va.next + 1 := by rw [← hvb]; rfl
  have hxl : va.next < vb.next := by rw [hbn]; exact Nat.lt_succ_self _
  have hup : ∀ {j}, j < va.next → j < vb.next := fun hj => Nat.lt_trans hj hxl
  have hfb : f < vb.next := hup hfl
  have hfkb : (vb.heap f).kind = .mtree .metadata := by rw [hbo f hfl]; exact hfk
  have hrb : vb.repo = va.repo := by rw [← hvb]; rfl
  have hfaults : vb.repo.faults = [] := by rw [hrb, ra]; exact hf
  have hlookb : ∀ a, MM.look C vb.repo.log vb.heap (names a) [] (.mem f) = MM.look C va.repo.log va.heap (names a) [] (.mem f) := by
    intro a
    have := look_create_of (C := C) la.desk.sound.fine.kids (Obj.new (Body.empty .metadata)) (Nat.ne_of_lt hfl) (names a) []
    rw [hvb] at this
    rw [hrb]; exact this.symm
  have hnb : ¬ Blocked C vb f p := by
    rintro ⟨a, c, s, d, e, q1, q2, q3, q4⟩
    rw [hlookb, hlook a q2] at q3
    obtain ⟨z1, z2⟩ := hfree a c q1 q2 s d e q3
    rcases q4 with q4 | q4
    · exact z1 q4
    · rw [z2] at q4; cases q4
  have hpc : ∀ n ∈ p, CompOk n := fun n hn => (hp n hn).1
  have o2 : Orderly C g t u w wb := by
    have := Orderly.new _ (Body.empty .metadata) oa rfl ⟨List.nodup_nil, fun _ h => by cases h⟩
    rwa [hwb] at this
  have hwn : wb.next = vb.next := bb.side.next.symm
  have hxk : (vb.heap va.next).kind = Leaf.kind .metadata := by rw [hbx]; rfl
  cases hx : addChildAt C va.next p f vb with
  | mk res vc =>
    cases res with
    | error e =>
      exact ((C12_fails_iff (child := va.next) lb.desk.sound.fine hfaults hfb (by rw [hfkb]; rfl) hpc).mp ⟨e, by rw [hx]⟩).elim
        (fun h => absurd h hne) (fun h => absurd h hnb)
    | ok y =>
      have lc := lb.filed hr hfb hfkb hxl hxk loose hp (by intro h; cases h) hx
      obtain ⟨wc, h3, bc, _⟩ := bb.call (twin_addChildAt hgx p hgf) hx lc.desk
      obtain ⟨v1, q, n, rest, m', hpq, hlo, ha⟩ := addChildAt_ok p hpc lb.desk.sound.fine hfb (by rw [hfkb]; rfl) hx
      have hrc : vc.repo = vb.repo := by
        refine repo_same (ha.log.trans hlo.log) hfaults ?_
        have := worksOn_addChildAt C va.next p f vb hfaults
        rwa [hx] at this
      have hlead : Leads vc.heap f (names p) va.next := by
        rw [hpq]; exact ha.leads_added hlo.fine (Nat.lt_of_lt_of_le hfb hlo.next)
      have hkeep : ∀ j, j < vb.next → (vb.heap j).mapped = true → (vb.heap j).kind.isMtree = false → vc.heap j = vb.heap j := by
        intro j hj hjm hjk
        have e1 := hlo.loaded j hj hjm
        rw [ha.old j (fun e => ?_) (Nat.lt_of_lt_of_le hj hlo.next), e1]
        have := ha.tree
        rw [← e, e1, hjk] at this
        cases this
      have hkb : (vb.heap m).kind = .mrr := by
        have hfit := (la.desk.sound.fine.formed m hmm).fits _ (mem_of_dget hdf)
        rw [hbo m hma]
        show (va.heap m).body.data.kind = .mrr
        cases hq : (va.heap m).body.data <;> rw [hq] at hfit <;> first | rfl | cases hfit
      have hxc : vc.heap va.next = Obj.new (Body.empty .metadata) := by
        rw [hkeep _ hxl (by rw [hbx]; rfl) (by rw [hbx]; rfl), hbx]
      have hmc : vc.heap m = va.heap m := by
        rw [hkeep m (hup hma) (by rw [hbo m hma]; exact hmm) (by rw [hkb]; rfl), hbo m hma]
      have hxlc : va.next < vc.next := Nat.lt_of_lt_of_le (Nat.lt_of_lt_of_le hxl hlo.next) (by rw [ha.next]; exact Nat.le_add_right _ _)
      have hflc : f < vc.next := Nat.lt_trans hfl hxlc
      have hlx : MM.look C vc.repo.log vc.heap [] [] (.mem va.next) = .found [] (.metadata []) false := by
        rw [look_nil [] (view_mapped (by rw [hxc]; rfl)), hxc]; rfl
      obtain ⟨wd, v2, vd, h4, hl2, hm2, hdat, he, bd, ld, rd, sd⟩ := bc.runs hr lc (by rw [hrc]; exact hfaults) hgx hxlc hlx ext hw
      refine ⟨wd, vd, ?_, ?_, bd, ld, by rw [rd, hrc, hrb, ra], ?_⟩
      · unfold MM.fileRun
        rw [M.bind_of_ok h1]
        have hal : alloc (Obj.new (Body.empty .metadata)) wa = (.ok va.next, wb) := by
          rw [ba.side.next, ← hwb]; rfl
        rw [M.bind_of_ok hal, M.bind_of_ok h3, h4]
      · have o3 : Orderly C g t u w wc := by
          have := Orderly.filed _ .metadata f va.next p o2 hgf (by rw [hwn]; exact hfb) (by rw [← bb.side.heap f hgf]; exact hfkb) hgx
            (by rw [hwn]; exact hxl) (by rw [← bb.side.heap _ hgx]; exact hxk) (fun q hq _ hh => loose q (by
              unfold Has at hh ⊢
              rwa [bb.side.heap q hq])) hp (by intro h; cases h)
          rwa [h3] at this
        have := Orderly.ran _ va.next ext run o3 hgx (by rw [← bc.side.next]; exact hxlc) hw
        rwa [h4] at this
      · have hlc := sd.leads lc.desk.sound.fine hflc hlead
        have hmlc : m < vc.next := Nat.lt_trans hma hxlc
        have hmd := sd.mapped m hmlc (by rw [hmc]; exact hmm)
        have hdd := sd.kids m hmlc (by rw [hmc]; exact hmm) .ft _ (by rw [hmc]; exact hdf)
        have hfull : (vd.heap f).mapped = true ∧ (vd.heap f).body.blank = false := by
          cases p with
          | nil => exact absurd rfl hne
          | cons n p =>
            cases hlc with
            | cons t c k1 k2 k3 =>
              refine ⟨k1, ?_⟩
              cases hkk : (vd.heap f).body.kids with
              | nil => rw [hkk] at k2; cases k2
              | cons a b => unfold Body.blank; rw [hkk]; simp
        have hxd : (vd.heap va.next).mapped = true := by rw [he, edit_self]; exact hm2
        have hfin : MM.look C vd.repo.log vd.heap (names p ++ []) [] (.mem f) =
            MM.look C vd.repo.log vd.heap [] [] (.mem va.next) := hlc.look ld.desk.sound.fine.plain []
        rw [List.append_nil] at hfin
        rw [look_cons (view_mapped hmd), Body.dget_map, hdd]
        simp only [Option.map_some]
        rw [view_mapped hfull.1]
        simp only
        rw [if_neg (by
          rintro ⟨_, hb⟩
          have : ((vd.heap f).body.map Node.mem).blank = (vd.heap f).body.blank := by
            unfold Body.blank Body.map; simp
          rw [this, hfull.2] at hb; cases hb), hfin]
        refine ⟨_, (look_nil [] (view_mapped hxd)).trans (congrArg (fun q => Res.found [] q _) ?_)⟩
        rw [he, edit_self]; rfl

/-- The metadata of a file, found from the record -/
theorem look_filed {v : World} (hs : Fine C v) {m f x : ObjId} (hm : (v.heap m).mapped = true)
    (hf : dget (v.heap m).body.kids .ft = some ([], f)) {p : List Str} (hne : p ≠ []) (hl : Leads v.heap f (names p) x) :
    look C v.repo.log v.heap (.ft :: names p) [] (.mem m) = look C v.repo.log v.heap [] [] (.mem x) := by
  have hfull : (v.heap f).mapped = true ∧ (v.heap f).body.blank = false := by
    cases p with
    | nil => exact absurd rfl hne
    | cons n p =>
      cases hl with
      | cons t c k1 k2 k3 =>
        refine ⟨k1, ?_⟩
        cases hkk : (v.heap f).body.kids with
        | nil => rw [hkk] at k2; cases k2
        | cons a b => unfold Body.blank; rw [hkk]; simp
  have hfin := hl.look (C := C) (L := v.repo.log) hs.plain []
  rw [List.append_nil] at hfin
  rw [look_cons (view_mapped hm), Body.dget_map, hf]
  simp only [Option.map_some]
  rw [view_mapped hfull.1]
  simp only
  rw [if_neg (by
    rintro ⟨_, hb⟩
    have : ((v.heap f).body.map Node.mem).blank = (v.heap f).body.blank := by
      unfold Body.blank Body.map; simp
    rw [this, hfull.2] at hb; cases hb), hfin]

/-- Adding a run to the metadata of a file -/
theorem Bench.moreRun {g : ObjId} {w v : World} (hr : r ≠ []) (b : Bench C r g t u w v) (l : Lively C r t u v)
    (hf : v.repo.faults = []) {m : ObjId} (hg : g ≤ m) (hm : m < v.next) (hk : (v.heap m).kind = .mrr) {p : List Str}
    (hne : p ≠ []) {s : Sets} {bl : Bool}
    (hs : MM.look C v.repo.log v.heap (.ft :: names p) [] (.mem m) = .found [] (.metadata s) bl) (ext : Str) {run : Instance}
    (hw : run.WF) :
    ∃ f d w1 w2 w3 v3, getFileTree C m w = (.ok (some f), w1) ∧ getMetadata C f p w1 = (.ok (some d), w2) ∧
      addExtractorRun C d ext run w2 = (.ok (), w3) ∧ Orderly C g t u w w3 ∧ Bench C r g t u w3 v3 ∧ Lively C r t u v3 ∧
      v3.repo = v.repo ∧
      (∃ bl', MM.look C v3.repo.log v3.heap (.ft :: names p) [] (.mem m) = .found [] (.metadata (s.addRun ext run)) bl') ∧
      ∀ ks, MM.look C v3.repo.log v3.heap ks [] (.mem m) = .absent ↔ MM.look C v.repo.log v.heap ks [] (.mem m) = .absent := by
  obtain ⟨o, wa, va, h1, _, ba, la, hla, hma, ra⟩ := b.ensure hr l hf hg hm
  have hm1 := Nat.lt_of_lt_of_le hm hla.next
  have hka : (va.heap m).kind = .mrr := (hla.kind m hm).trans hk
  have hheap : va.heap m = wa.heap m := ba.side.heap m hg
  have o1 : Orderly C g t u w wa := by
    have := Orderly.loaded (C := C) (t := t) (u := u) w m .refl hg (by rw [← b.side.next]; exact hm)
    rwa [h1] at this
  have hsa := (hla.content m hm (.ft :: names p) []).symm.trans hs
  cases hd : dget (va.heap m).body.kids .ft with
  | none => rw [look_cons_none (view_mapped hma) (by rw [Body.dget_map, hd]; rfl)] at hsa; cases hsa
  | some x =>
    obtain ⟨st, f⟩ := x
    have hst : st = [] := (la.desk.sound.fine.formed m hma).stamps (by rw [show (va.heap m).body.data.kind = .mrr from hka]; rfl) _ (mem_of_dget hd)
    subst hst
    have hsub : f ∈ (va.heap m).body.subs := List.mem_map.mpr ⟨_, mem_of_dget hd, rfl⟩
    have hdv : f < va.next := la.desk.sound.fine.kids m hma f hsub
    have hgd : g ≤ f := ba.side.subs m hg (by rw [← hheap]; exact hma) f (by rw [← hheap]; exact hsub)
    obtain ⟨wb, vb, h3, _, bb, lb, hlb, rb⟩ := ba.readsIn hr la (by rw [ra]; exact hf) hgd hdv
    have hm2 := Nat.lt_of_lt_of_le hm1 hlb.next
    have hf2 := Nat.lt_of_lt_of_le hdv hlb.next
    have hmb : (vb.heap m).mapped = true := by rw [hlb.loaded m hm1 hma]; exact hma
    have hdb : dget (vb.heap m).body.kids .ft = some ([], f) := by rw [hlb.loaded m hm1 hma]; exact hd
    have hsb := (hlb.content m hm1 (.ft :: names p) []).symm.trans hsa
    have hsf : MM.look C vb.repo.log vb.heap (names p) [] (.mem f) = .found [] (.metadata s) bl := by
      rw [look_cons (view_mapped hmb), Body.dget_map, hdb] at hsb
      simp only [Option.map_some] at hsb
      cases hvf : view C vb.repo.log vb.heap (.mem f) with
      | error e => rw [hvf] at hsb; cases hsb
      | ok y =>
        rw [hvf] at hsb
        simp only at hsb
        split at hsb
        · cases hsb
        · exact hsb
    have hget : getFileTree C m w = (.ok (some f), wb) := by
      unfold getFileTree
      rw [M.bind_of_ok h1, M.bind_of_ok (getObj_run m wa), ← hheap, hd]
      simp only
      rw [M.bind_of_ok h3]; rfl
    have o2 : Orderly C g t u w wb := by
      have := Orderly.read _ f o1 hgd (by rw [← ba.side.next]; exact hdv)
      rwa [h3] at this
    have hfb : vb.repo.faults = [] := by rw [rb, ra]; exact hf
    obtain ⟨res, vc, hx, rc⟩ := getObjectAt_total p lb.desk.sound.fine hfb hf2
    have hlc := getObjectAt_any (C := C) p lb.desk.sound.fine hf2
    rw [hx] at hlc
    cases res with
    | none =>
      have hn := getObjectAt_none p lb.desk.sound.fine hf2 hx []
      rw [List.append_nil, hsf] at hn
      cases hn
    | some d =>
      obtain ⟨hlead, hdl⟩ := getObjectAt_some p lb.desk.sound.fine hf2 hx
      obtain ⟨dd, b', hfound, hkind⟩ := getObjectAt_found lb.desk.sound.fine hf2 hx
      have hdk : (vc.heap d).kind = .metadata := by
        rw [← hkind]
        rw [hsf] at hfound
        injection hfound with _ e
        rw [← e]; rfl
      have lc := lb.loads hr hlc
      obtain ⟨wc, h4, bc, hin⟩ := bb.call (twin_getObjectAt p hgd) hx lc.desk
      have hgx : g ≤ d := hin (some d) rfl d rfl
      obtain ⟨o4, we, ve, h5, _, be, le, hle, hme, re⟩ := bc.ensure hr lc (by rw [rc]; exact hfb) hgx hdl
      have hmeta : getMetadata C f p wb = (.ok (some d), we) := by
        unfold getMetadata
        rw [M.bind_of_ok h4]
        simp only
        rw [M.bind_of_ok (getObj_run d wc), ← bc.side.heap d hgx, decide_eq_true hdk, M.bind_of_ok (M.assert_true wc),
          M.bind_of_ok h5]
        rfl
      have o3 : Orderly C g t u w we := by
        have q1 := Orderly.looked _ f p o2 hgd (by rw [← bb.side.next]; exact hf2)
        rw [h4] at q1
        have q2 := Orderly.loaded _ d q1 hgx (by rw [← bc.side.next]; exact hdl)
        rwa [h5] at q2
      have hm3 := Nat.lt_of_lt_of_le hm2 hlc.next
      have hm4 := Nat.lt_of_lt_of_le hm3 hle.next
      have hd4 := Nat.lt_of_lt_of_le hdl hle.next
      have hmc : vc.heap m = vb.heap m := hlc.loaded m hm2 hmb
      have hme' : ve.heap m = vb.heap m := (hle.loaded m hm3 (by rw [hmc]; exact hmb)).trans hmc
      have hleade : Leads ve.heap f (names p) d :=
        hle.grown.stays.leads lc.desk.sound.fine (Nat.lt_of_lt_of_le hf2 hlc.next) hlead
      have hse : MM.look C ve.repo.log ve.heap [] [] (.mem d) = .found [] (.metadata s) bl := by
        rw [← look_filed le.desk.sound.fine (by rw [hme']; exact hmb) (by rw [hme']; exact hdb) hne hleade]
        rw [← hle.content m hm3, ← hlc.content m hm2]
        exact hsb
      obtain ⟨wd, v1, vd, h6, hl1, hmd, hdat, he, bd, ld, rd, sd⟩ := be.runs hr le (by rw [re, rc]; exact hfb) hgx hd4 hse ext hw
      refine ⟨f, d, wb, we, wd, vd, hget, hmeta, h6, ?_, bd, ld, by rw [rd, re, rc, rb, ra], ?_, fun ks => ?_⟩
      · have := Orderly.ran _ d ext run o3 hgx (by rw [← be.side.next]; exact hd4) hw
        rwa [h6] at this
      · rw [look_filed ld.desk.sound.fine (sd.mapped m hm4 (by rw [hme']; exact hmb))
          (sd.kids m hm4 (by rw [hme']; exact hmb) .ft _ (by rw [hme']; exact hdb)) hne
          (sd.leads le.desk.sound.fine (Nat.lt_of_lt_of_le (Nat.lt_of_lt_of_le hf2 hlc.next) hle.next) hleade)]
        have hxd : (vd.heap d).mapped = true := by rw [he, edit_self]; exact hmd
        refine ⟨_, (look_nil [] (view_mapped hxd)).trans (congrArg (fun q => Res.found [] q _) ?_)⟩
        rw [he, edit_self]; rfl
      · rw [he, show ∀ b, (MM.edit d b v1).repo = v1.repo from fun _ => rfl,
          look_edit_absent (b := ⟨.metadata (s.addRun ext run), (v1.heap d).body.kids⟩) hmd rfl (by rw [hdat]; rfl),
          hla.content m hm, hlb.content m hm1, hlc.content m hm2, hle.content m hm3, hl1.content m hm4]

/-- What is found in the course of a session -/
theorem Bench.over {g : ObjId} {w w' v : World} (hr : r ≠ []) (b : Bench C r g t u w v) {m : ObjId} (hg : g ≤ m) (hm : m < v.next)
    (h : Orderly C g t u w w') : Over C w.repo.log w.heap (.mem m) w'.repo.log w'.heap (.mem m) := by
  obtain ⟨v', b', _, rich⟩ := b.meanwhile hr h.busy.meanwhile
  intro ks st s d bl hl
  rw [b.look hg] at hl
  obtain ⟨d', bl', h1, h2, h3⟩ := rich m hm ks st s d bl hl
  exact ⟨d', bl', (b'.look hg _ _).trans h1, h2, h3⟩

/-- A record that a session has got -/
theorem Opens.got (hr : r ≠ []) {L : Log} (hL : Past C r L) {fs : List Fault} {g : ObjId}
    {w0 w1 w2 w : World} (ho : Opens C r ⟨L, fs⟩ g t u w0) (h1 : Orderly C g t u w0 w1) {auto : Option Bool} {now : Str}
    {ds : Uuid} {dv : Str} {pre : PPath} (hc : Canonical pre) {path : List Str} (hp : ∀ n ∈ path, CompOk n ∧ NameOk n)
    (hnm : rootRecordName ∉ path) {root : Option Uuid} {rv : Option Str} (hroot : path ≠ [] → root ≠ none ∧ rv ≠ none)
    {m : ObjId} (hask : rootRecord C auto now t u ds dv pre path root rv w1 = (.ok (some m), w2))
    (h2 : Orderly C g t u w2 w) : ∃ v, Bench C r g t u w v ∧ Lively C r t u v ∧ g ≤ m ∧ m < v.next ∧ (v.heap m).kind = .mrr := by
  have hU := hL.ready hr
  obtain ⟨v1, b1, l1⟩ := ho.session hr hU.trim hU.trees h1
  have o2 : Orderly C g t u w0 w2 := by
    have := Orderly.asked w1 auto now ds dv pre path root rv h1 hc hp hnm hroot (Or.inr (Or.inr (Or.inr (Or.inr ⟨some m, by rw [hask]⟩))))
    rwa [hask] at this
  obtain ⟨v, b, l⟩ := ho.session hr hU.trim hU.trees (o2.trans h2)
  obtain ⟨e, _, _, hm⟩ := twin_rootRecord (C := C) b1.gt b1.gu auto now ds dv pre path root rv w1 v1 b1.side
  rw [hask] at e hm
  cases hx : rootRecord C auto now t u ds dv pre path root rv v1 with
  | mk res v2 =>
    rw [hx] at e
    simp only at e
    subst e
    have d2 := b1.desk.rootRecord hr auto now ds dv hc hp root rv hx
    have run := rootRecord_run b1.desk.sound auto now b1.desk.tl b1.desk.tk b1.desk.ul b1.desk.uk ds dv pre
      (fun n hn => (hp n hn).1) root rv hx
    have b2 := b1.step (twin_rootRecord b1.gt b1.gu auto now ds dv pre path root rv) (by rw [hx]; exact d2)
    rw [hask, hx] at b2
    obtain ⟨v', b', st, _⟩ := b2.meanwhile hr h2.busy.meanwhile
    obtain ⟨_, _, _, _, h3, _⟩ := (run.done m rfl).stays d2.sound.fine st
    have hg := hm (some m) rfl m rfl
    refine ⟨v, b, l, hg, ?_, ?_⟩
    · rw [b.side.next, ← b'.side.next]; exact h3.record.there
    · rw [b.side.heap m hg, ← b'.side.heap m hg]; exact h3.record.kind

/-! ### C76 -/

/-- C76: after every history of sessions, wherever a session has got to with a record that it has got, and
while git works: if the record has dataset-level metadata `s`, a run of an extractor can be added to it.  The
record then has the dataset-level metadata `s` with the run added, all else that was found in the record still
is, and all of it can be saved and is found by every later process. -/
theorem C76_added (hr : r ≠ []) (hrem : Ref.isRemote r = false) {L : Log} (hL : Past C r L) {fs : List Fault} {g : ObjId}
    {w0 w1 w2 w : World} (ho : Opens C r ⟨L, fs⟩ g t u w0) (h1 : Orderly C g t u w0 w1) {auto : Option Bool} {now : Str}
    {ds : Uuid} {dv : Str} {pre : PPath} (hc : Canonical pre) {path : List Str} (hp : ∀ n ∈ path, CompOk n ∧ NameOk n)
    (hnm : rootRecordName ∉ path) {root : Option Uuid} {rv : Option Str} (hroot : path ≠ [] → root ≠ none ∧ rv ≠ none)
    {m : ObjId} (hask : rootRecord C auto now t u ds dv pre path root rv w1 = (.ok (some m), w2))
    (h2 : Orderly C g t u w2 w) (hf : w.repo.faults = []) {s : Sets} {bl : Bool}
    (hs : look C w.repo.log w.heap [.dlm] [] (.mem m) = .found [] (.metadata s) bl) (ext : Str) {run : Instance} (hw : run.WF) :
    ∃ d w3 w4, getDlm C m w = (.ok d, w3) ∧ addExtractorRun C d ext run w3 = (.ok (), w4) ∧
      Orderly C g t u w2 w4 ∧ w4.repo = w.repo ∧
      (∃ bl', look C w4.repo.log w4.heap [.dlm] [] (.mem m) = .found [] (.metadata (s.addRun ext run)) bl') ∧
      (∀ ks, look C w4.repo.log w4.heap ks [] (.mem m) = .absent ↔ look C w.repo.log w.heap ks [] (.mem m) = .absent) ∧
      Over C w.repo.log w.heap (.mem m) w4.repo.log w4.heap (.mem m) ∧
      KeptRecord C r t u ds dv pre path root rv m w4 := by
  obtain ⟨v, b, l, hg, hm, _⟩ := ho.got hr hL h1 hc hp hnm hroot hask h2
  rw [b.look hg] at hs
  obtain ⟨d, w3, w4, v4, h3, h4, o4, b4, l4, r4, ⟨bl', hl4⟩, ha4⟩ := b.addsRun hr l (by rw [b.side.repo]; exact hf) hg hm hs ext hw
  have hr4 : w4.repo = w.repo := by rw [← b4.side.repo, r4, b.side.repo]
  exact ⟨d, w3, w4, h3, h4, h2.trans o4, hr4, ⟨bl', (b4.look hg _ _).trans hl4⟩,
    fun ks => by rw [b.look hg, b4.look hg]; exact ha4 ks, b.over hr hg hm o4,
    C76_kept hr hrem hL ho h1 hc hp hnm hroot hask (h2.trans o4) (by rw [hr4]; exact hf)⟩

/-- C76: the same for a file: if nothing is at its path in the file tree of the record, and nothing but
directories above it, the record can be given metadata with the run for the file. -/
theorem C76_filed (hr : r ≠ []) (hrem : Ref.isRemote r = false) {L : Log} (hL : Past C r L) {fs : List Fault} {g : ObjId}
    {w0 w1 w2 w : World} (ho : Opens C r ⟨L, fs⟩ g t u w0) (h1 : Orderly C g t u w0 w1) {auto : Option Bool} {now : Str}
    {ds : Uuid} {dv : Str} {pre : PPath} (hc : Canonical pre) {path : List Str} (hp : ∀ n ∈ path, CompOk n ∧ NameOk n)
    (hnm : rootRecordName ∉ path) {root : Option Uuid} {rv : Option Str} (hroot : path ≠ [] → root ≠ none ∧ rv ≠ none)
    {m : ObjId} (hask : rootRecord C auto now t u ds dv pre path root rv w1 = (.ok (some m), w2))
    (h2 : Orderly C g t u w2 w) (hf : w.repo.faults = []) {p : List Str} (hne : p ≠ []) (hpp : ∀ n ∈ p, CompOk n ∧ NameOk n)
    (hfree : ∀ a b, p = a ++ b → a ≠ [] → ∀ s d e, look C w.repo.log w.heap (.ft :: names a) [] (.mem m) = .found s d e →
      b ≠ [] ∧ d.kind.isMtree = true) (ext : Str) {run : Instance} (hw : run.WF) :
    ∃ w3, fileRun C m p ext run w = (.ok (), w3) ∧ Orderly C g t u w2 w3 ∧ w3.repo = w.repo ∧
      (∃ bl, look C w3.repo.log w3.heap (.ft :: names p) [] (.mem m) = .found [] (.metadata (Sets.addRun [] ext run)) bl) ∧
      Over C w.repo.log w.heap (.mem m) w3.repo.log w3.heap (.mem m) ∧
      KeptRecord C r t u ds dv pre path root rv m w3 := by
  obtain ⟨v, b, l, hg, hm, hk⟩ := ho.got hr hL h1 hc hp hnm hroot hask h2
  obtain ⟨w3, v3, h3, o3, b3, l3, r3, bl, hl3⟩ := b.fileRun hr l (by rw [b.side.repo]; exact hf) hg hm hk hpp hne
    (fun a c q1 q2 s d e q3 => hfree a c q1 q2 s d e (by rw [b.look hg]; exact q3)) ext hw
  have hr3 : w3.repo = w.repo := by rw [← b3.side.repo, r3, b.side.repo]
  exact ⟨w3, h3, h2.trans o3, hr3, ⟨bl, (b3.look hg _ _).trans hl3⟩, b.over hr hg hm o3,
    C76_kept hr hrem hL ho h1 hc hp hnm hroot hask (h2.trans o3) (by rw [hr3]; exact hf)⟩

/-- C76: the same for a file that has metadata. -/
theorem C76_more (hr : r ≠ []) (hrem : Ref.isRemote r = false) {L : Log} (hL : Past C r L) {fs : List Fault} {g : ObjId}
    {w0 w1 w2 w : World} (ho : Opens C r ⟨L, fs⟩ g t u w0) (h1 : Orderly C g t u w0 w1) {auto : Option Bool} {now : Str}
    {ds : Uuid} {dv : Str} {pre : PPath} (hc : Canonical pre) {path : List Str} (hp : ∀ n ∈ path, CompOk n ∧ NameOk n)
    (hnm : rootRecordName ∉ path) {root : Option Uuid} {rv : Option Str} (hroot : path ≠ [] → root ≠ none ∧ rv ≠ none)
    {m : ObjId} (hask : rootRecord C auto now t u ds dv pre path root rv w1 = (.ok (some m), w2))
    (h2 : Orderly C g t u w2 w) (hf : w.repo.faults = []) {p : List Str} (hne : p ≠ []) {s : Sets} {bl : Bool}
    (hs : look C w.repo.log w.heap (.ft :: names p) [] (.mem m) = .found [] (.metadata s) bl) (ext : Str) {run : Instance} (hw : run.WF) :
    ∃ f d w3 w4 w5, getFileTree C m w = (.ok (some f), w3) ∧ getMetadata C f p w3 = (.ok (some d), w4) ∧
      addExtractorRun C d ext run w4 = (.ok (), w5) ∧ Orderly C g t u w2 w5 ∧ w5.repo = w.repo ∧
      (∃ bl', look C w5.repo.log w5.heap (.ft :: names p) [] (.mem m) = .found [] (.metadata (s.addRun ext run)) bl') ∧
      (∀ ks, look C w5.repo.log w5.heap ks [] (.mem m) = .absent ↔ look C w.repo.log w.heap ks [] (.mem m) = .absent) ∧
      Over C w.repo.log w.heap (.mem m) w5.repo.log w5.heap (.mem m) ∧
      KeptRecord C r t u ds dv pre path root rv m w5 := by
  obtain ⟨v, b, l, hg, hm, hk⟩ := ho.got hr hL h1 hc hp hnm hroot hask h2
  rw [b.look hg] at hs
  obtain ⟨f, d, w3, w4, w5, v5, h3, h4, h5, o5, b5, l5, r5, ⟨bl', hl5⟩, ha5⟩ :=
    b.moreRun hr l (by rw [b.side.repo]; exact hf) hg hm hk hne hs ext hw
  have hr5 : w5.repo = w.repo := by rw [← b5.side.repo, r5, b.side.repo]
  exact ⟨f, d, w3, w4, w5, h3, h4, h5, h2.trans o5, hr5, ⟨bl', (b5.look hg _ _).trans hl5⟩,
    fun ks => by rw [b.look hg, b5.look hg]; exact ha5 ks, b.over hr hg hm o5,
    C76_kept hr hrem hL ho h1 hc hp hnm hroot hask (h2.trans o5) (by rw [hr5]; exact hf)⟩

/-- C76, for records that are not there yet, with nothing assumed about the calls: after every history of
sessions, wherever a session has got to, and while git works, a session that may create records gets one,
without files and with empty dataset-level metadata.  A run can be added to that and metadata with a run for a
file at any path, and all of it can be saved and is found by every later process. -/
theorem C76_new (hr : r ≠ []) (hrem : Ref.isRemote r = false) {L : Log} (hL : Past C r L) {fs : List Fault} {g : ObjId}
    {w0 w1 : World} (ho : Opens C r ⟨L, fs⟩ g t u w0) (h1 : Orderly C g t u w0 w1) (hf : w1.repo.faults = [])
    {auto : Option Bool} (hauto : auto = none ∨ auto = some true) (now : Str)
    (ds : Uuid) (dv : Str) {pre : PPath} (hc : Canonical pre) {path : List Str} (hp : ∀ n ∈ path, CompOk n ∧ NameOk n)
    (hnm : rootRecordName ∉ path) {root : Option Uuid} {rv : Option Str} (hroot : path ≠ [] → root ≠ none ∧ rv ≠ none)
    {tv : Str} (htv : (if path = [] then some dv else rv) = some tv)
    (hnone : look C w1.repo.log w1.heap (.ver tv pre :: names (path ++ [rootRecordName])) [] (.mem t) = .absent)
    (ext : Str) {run : Instance} (hw : run.WF) {p : List Str} (hne : p ≠ []) (hpp : ∀ n ∈ p, CompOk n ∧ NameOk n)
    (ext' : Str) {run' : Instance} (hw' : run'.WF) :
    ∃ m w2 d w3 w4 w5, rootRecord C auto now t u ds dv pre path root rv w1 = (.ok (some m), w2) ∧
      getDlm C m w2 = (.ok d, w3) ∧ addExtractorRun C d ext run w3 = (.ok (), w4) ∧
      fileRun C m p ext' run' w4 = (.ok (), w5) ∧
      (∃ bl, look C w4.repo.log w4.heap [.dlm] [] (.mem m) = .found [] (.metadata (Sets.addRun [] ext run)) bl) ∧
      (∃ bl, look C w5.repo.log w5.heap (.ft :: names p) [] (.mem m) = .found [] (.metadata (Sets.addRun [] ext' run')) bl) ∧
      Over C w4.repo.log w4.heap (.mem m) w5.repo.log w5.heap (.mem m) ∧
      KeptRecord C r t u ds dv pre path root rv m w5 := by
  have hU := hL.ready hr
  obtain ⟨v1, b1, l1⟩ := ho.session hr hU.trim hU.trees h1
  obtain ⟨o, v2, hx, l2, r2, hsome⟩ := l1.rootRecord hr (by rw [b1.side.repo]; exact hf) auto now ds dv hc hp hnm hroot
  obtain ⟨m, rfl⟩ := Option.ne_none_iff_exists'.mp (hsome (by rcases hauto with rfl | rfl <;> rfl))
  obtain ⟨w2, hask, b2, hm⟩ := b1.call (twin_rootRecord b1.gt b1.gu auto now ds dv pre path root rv) hx l2.desk
  have hg : g ≤ m := hm (some m) rfl m rfl
  have hw2 : w2.repo = w1.repo := by rw [← b2.side.repo, r2, b1.side.repo]
  obtain ⟨f1, f2⟩ := ((rootRecord_run b1.desk.sound auto now b1.desk.tl b1.desk.tk b1.desk.ul b1.desk.uk ds dv pre
      (fun n hn => (hp n hn).1) root rv hx).made tv htv (by rw [← b1.look b1.gt]; exact hnone) m rfl).2
  obtain ⟨d, w3, w4, h3, h4, o4, r4, hd4, ha4, _, _⟩ := C76_added hr hrem hL ho h1 hc hp hnm hroot hask .refl
    (by rw [hw2]; exact hf) ((b2.look hg _ _).trans f1) ext hw
  obtain ⟨w5, h5, _, _, hd5, ho5, hk5⟩ := C76_filed hr hrem hL ho h1 hc hp hnm hroot hask o4 (by rw [r4, hw2]; exact hf)
    hne hpp (fun a b _ _ s d e hl => by
      rw [(ha4 (.ft :: names a)).mpr ((b2.look hg _ _).trans (f2 _))] at hl; cases hl) ext' hw'
  exact ⟨m, w2, d, w3, w4, w5, hask, h3, h4, h5, hd4, hd5, ho5, hk5⟩

/-! ### Non-trivial cases -/

/-- The metadata without runs -/
def Res.isFresh : Res → Bool
  | .found [] (.metadata []) _ => true
  | _ => false

theorem Res.of_isFresh {x : Res} (h : x.isFresh = true) : ∃ b, x = .found [] (.metadata []) b := by
  unfold Res.isFresh at h
  split at h
  · exact ⟨_, rfl⟩
  · cases h

theorem wholeAsks : rootRecord sampleCfg (some true) c!"0.1" 2 3 sampleUuid c!"v1" ⟨[], []⟩ [] none none wholeOpen =
    (.ok (some 8), wholeAsked.2) := of_okVal (x := wholeAsked) (by decide +kernel)

/-- A session in an empty repository asks for the record of a dataset, and adds a run to its dataset-level
metadata; later processes find it. -/
example : ∃ d w2 w3, getDlm sampleCfg 8 wholeAsked.2 = (.ok d, w2) ∧
    addExtractorRun sampleCfg d c!"core" sampleRun w2 = (.ok (), w3) ∧
    KeptRecord sampleCfg sampleRealm 2 3 sampleUuid c!"v1" ⟨[], []⟩ [] none none 8 w3 := by
  obtain ⟨bl, hs⟩ := Res.of_isFresh (x := look sampleCfg wholeAsked.2.repo.log wholeAsked.2.heap [.dlm] [] (.mem 8)) (by decide +kernel)
  have hf : wholeAsked.2.repo.faults = [] := by decide +kernel
  have ha := wholeAsks
  have ho := wholeOpens
  generalize wholeAsked.2 = wa at *
  generalize wholeOpen = wo at *
  obtain ⟨d, w3, w4, h3, h4, _, _, _, _, _, hk⟩ := C76_added (by decide) (by decide) .blank ho .refl ⟨rfl, fun c hc => by cases hc⟩
    (fun n hn => by cases hn) (by decide) (fun q => absurd rfl q) ha .refl hf hs c!"core" wf_sampleRun
  exact ⟨d, w3, w4, h3, h4, hk⟩

/-- The same in one go: the repository is empty, and so the record is not there. -/
example : ∃ m w2 d w3 w4 w5, rootRecord sampleCfg (some true) c!"0.1" 2 3 sampleUuid c!"v1" ⟨[], []⟩ [] none none wholeOpen =
      (.ok (some m), w2) ∧ getDlm sampleCfg m w2 = (.ok d, w3) ∧ addExtractorRun sampleCfg d c!"core" sampleRun w3 = (.ok (), w4) ∧
    fileRun sampleCfg m [c!"f"] c!"file" sampleRun w4 = (.ok (), w5) ∧
    KeptRecord sampleCfg sampleRealm 2 3 sampleUuid c!"v1" ⟨[], []⟩ [] none none m w5 := by
  have hn := Res.of_isAbsent (x := look sampleCfg wholeOpen.repo.log wholeOpen.heap
    (.ver c!"v1" ⟨[], []⟩ :: names ([] ++ [rootRecordName])) [] (.mem 2)) (by decide +kernel)
  have hf : wholeOpen.repo.faults = [] := by decide +kernel
  have ho := wholeOpens
  generalize wholeOpen = wo at *
  obtain ⟨m, w2, d, w3, w4, w5, q1, q2, q3, q4, _, _, _, q5⟩ := C76_new (p := [c!"f"]) (by decide) (by decide) .blank ho .refl hf
    (Or.inr rfl) c!"0.1" sampleUuid c!"v1" ⟨rfl, fun c hc => by cases hc⟩ (fun n hn => by cases hn) (by decide)
    (fun q => absurd rfl q) (root := none) (rv := none) rfl hn c!"core" wf_sampleRun (by simp)
    (fun n hn => by rw [List.mem_singleton.mp hn]; exact ⟨by decide, by decide, by decide, by decide, by decide⟩)
    c!"file" wf_sampleRun
  exact ⟨m, w2, d, w3, w4, w5, q1, q2, q3, q4, q5⟩

/-- When it has added the run, it gives the file `d/f` metadata, and then a further run. -/
example : ∃ w, fileRun sampleCfg 8 [c!"d", c!"f"] c!"file" sampleRun wholeRan = (.ok (), w) ∧
    (∃ bl, look sampleCfg w.repo.log w.heap [.ft, .name c!"d", .name c!"f"] [] (.mem 8) =
      .found [] (.metadata (Sets.addRun [] c!"file" sampleRun)) bl) ∧
    KeptRecord sampleCfg sampleRealm 2 3 sampleUuid c!"v1" ⟨[], []⟩ [] none none 8 w ∧
    ∃ f d w1 w2 w3, getFileTree sampleCfg 8 w = (.ok (some f), w1) ∧
      getMetadata sampleCfg f [c!"d", c!"f"] w1 = (.ok (some d), w2) ∧ addExtractorRun sampleCfg d c!"more" sampleRun w2 = (.ok (), w3) ∧
      KeptRecord sampleCfg sampleRealm 2 3 sampleUuid c!"v1" ⟨[], []⟩ [] none none 8 w3 := by
  have l1 : (look sampleCfg wholeRan.repo.log wholeRan.heap [.ft, .name c!"d"] [] (.mem 8)).isAbsent = true := by decide +kernel
  have l2 : (look sampleCfg wholeRan.repo.log wholeRan.heap [.ft, .name c!"d", .name c!"f"] [] (.mem 8)).isAbsent = true := by
    decide +kernel
  have hf : wholeRan.repo.faults = [] := by decide +kernel
  have hb : Orderly sampleCfg 2 2 3 wholeAsked.2 wholeRan :=
    .ran _ 6 _ _ .refl (by decide) (by decide +kernel) wf_sampleRun
  have ha := wholeAsks
  have ho := wholeOpens
  generalize wholeRan = wr at *
  generalize wholeAsked.2 = wa at *
  generalize wholeOpen = wo at *
  obtain ⟨w, h3, h5, h6, h4, _, hk⟩ := C76_filed (p := [c!"d", c!"f"]) (by decide) (by decide) .blank ho .refl ⟨rfl, fun c hc => by cases hc⟩
    (fun n hn => by cases hn) (by decide) (fun q => absurd rfl q) ha hb hf (by simp)
    (by
      intro n hn
      rcases List.mem_cons.mp hn with rfl | hn
      · exact ⟨by decide, by decide, by decide, by decide, by decide⟩
      · rw [List.mem_singleton.mp hn]
        exact ⟨by decide, by decide, by decide, by decide, by decide⟩)
    (by
      intro a b e hne s d bl hl
      rcases a with _ | ⟨x, _ | ⟨y, _ | ⟨z, a⟩⟩⟩
      · exact absurd rfl hne
      · injection e with e1 e2
        subst e1
        rw [show Key.ft :: names [c!"d"] = [.ft, .name c!"d"] from rfl] at hl
        rw [hl] at l1; cases l1
      · injection e with e1 e2
        injection e2 with e2 e3
        subst e1; subst e2
        rw [show Key.ft :: names [c!"d", c!"f"] = [.ft, .name c!"d", .name c!"f"] from rfl] at hl
        rw [hl] at l2; cases l2
      · injection e with e1 e2
        injection e2 with e2 e3
        cases e3)
    c!"file" wf_sampleRun
  obtain ⟨bl, hs⟩ := h4
  obtain ⟨f, d, w3, w4, w5, q1, q2, q3, _, _, _, _, _, q4⟩ := C76_more (p := [c!"d", c!"f"]) (by decide) (by decide) .blank ho .refl
    ⟨rfl, fun c hc => by cases hc⟩ (fun n hn => by cases hn) (by decide) (fun q => absurd rfl q) ha h5 (by rw [h6]; exact hf) (by simp)
    hs c!"more" wf_sampleRun
  exact ⟨w, h3, ⟨bl, hs⟩, hk, f, d, w3, w4, w5, q1, q2, q3, q4⟩

end MM
