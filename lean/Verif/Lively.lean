/-
Whole sessions while git works: every call keeps the content trim, and saving succeeds.
-/
import Verif.Answers
import Verif.Props.Whole
import Verif.Props.Success

namespace MM

variable {C : Cfg} {r : Realm}

/-! ### Git goes on working -/

private theorem won_trans' : ∀ a b c : World, WorksOn a b → WorksOn b c → WorksOn a c := fun _ _ _ h h' h0 => h' (h h0)

theorem worksOn_getObjectAt (C : Cfg) (p : List Str) : ∀ i, M.Keeps (getObjectAt C p i) WorksOn := by
  induction p with
  | nil => intro i w h; exact h
  | cons n p ih =>
    intro i
    unfold getObjectAt
    refine M.Keeps.bind won_trans' (fun w h => h) fun o => ?_
    split
    · refine M.Keeps.bind won_trans' (worksOn_getChild C i n) fun c => ?_
      cases c with
      | none => exact fun w h => h
      | some j => exact ih j
    · exact fun w h => h

theorem worksOn_getVersionList (C : Cfg) (i : ObjId) (id : Uuid) : M.Keeps (getVersionList C i id) WorksOn := by
  unfold getVersionList
  refine M.Keeps.bind won_trans' (worksOn_load C i) fun _ => M.Keeps.bind won_trans' (fun w h => h) fun o => ?_
  cases dget o.body.kids (.uuid id) with
  | none => exact fun w h => h
  | some e => exact M.Keeps.bind won_trans' (worksOn_read C _) fun _ w h => h

theorem worksOn_getVersioned (C : Cfg) (i : ObjId) (v : Str) (p : PPath) : M.Keeps (getVersioned C i v p) WorksOn := by
  unfold getVersioned
  refine M.Keeps.bind won_trans' (worksOn_load C i) fun _ => M.Keeps.bind won_trans' (fun w h => h) fun o => ?_
  cases dget o.body.kids (.ver v p) with
  | none => exact fun w h => h
  | some e => exact M.Keeps.bind won_trans' (worksOn_read C _) fun _ w h => h

/-! ### The calls -/

/-- A request does not fail halfway for a version of a root dataset that is new: git works, or the request is
for a sub-dataset, or may not make anything, or the version is listed, or the request is answered. -/
def Mild (C : Cfg) (auto : Option Bool) (now : Str) (t u : ObjId) (id : Uuid) (v : Str) (pre : PPath) (path : List Str)
    (root : Option Uuid) (rv : Option Str) (w : World) : Prop :=
  w.repo.faults = [] ∨ path ≠ [] ∨ auto = some false ∨ look C w.repo.log w.heap [.ver v pre] [] (.mem t) ≠ .absent ∨
    ∃ o, (rootRecord C auto now t u id v pre path root rv w).1 = .ok o

/-- Calls as in `Busy`, where root records are the only elements of dataset trees and are there under
their own name.  A request for a sub-dataset names the root dataset and its version.  Any git command may fail;
requests are `Mild`. -/
inductive Orderly (C : Cfg) (g t u : ObjId) (w : World) : World → Prop
  | refl : Orderly C g t u w w
  | loaded (w' : World) (i : ObjId) : Orderly C g t u w w' → g ≤ i → i < w'.next → Orderly C g t u w (ensureMapped C i w').2
  | read (w' : World) (i : ObjId) : Orderly C g t u w w' → g ≤ i → i < w'.next → Orderly C g t u w (readIn C i w').2
  | looked (w' : World) (i : ObjId) (p : List Str) : Orderly C g t u w w' → g ≤ i → i < w'.next →
      Orderly C g t u w (getObjectAt C p i w').2
  | listed (w' : World) (i : ObjId) (id : Uuid) : Orderly C g t u w w' → g ≤ i → i < w'.next →
      Orderly C g t u w (getVersionList C i id w').2
  | element (w' : World) (i : ObjId) (v : Str) (p : PPath) : Orderly C g t u w w' → g ≤ i → i < w'.next →
      Orderly C g t u w (getVersioned C i v p w').2
  | asked (w' : World) (auto : Option Bool) (now : Str) (id : Uuid) (v : Str) (pre : PPath) (path : List Str)
      (root : Option Uuid) (rv : Option Str) : Orderly C g t u w w' → Canonical pre → (∀ n ∈ path, CompOk n ∧ NameOk n) →
      rootRecordName ∉ path → (path ≠ [] → root ≠ none ∧ rv ≠ none) → Mild C auto now t u id v pre path root rv w' →
      Orderly C g t u w (rootRecord C auto now t u id v pre path root rv w').2
  | new (w' : World) (b : Body ObjId) : Orderly C g t u w w' → b.kids = [] → DataOk b.data →
      Orderly C g t u w (create (Obj.new b) w')
  | ran (w' : World) (i : ObjId) (ext : Str) (run : Instance) : Orderly C g t u w w' → g ≤ i → i < w'.next → run.WF →
      Orderly C g t u w (addExtractorRun C i ext run w').2
  | filed (w' : World) (leaf : Leaf) (i x : ObjId) (p : List Str) : Orderly C g t u w w' → g ≤ i → i < w'.next →
      (w'.heap i).kind = .mtree leaf → g ≤ x → x < w'.next → (w'.heap x).kind = leaf.kind →
      (∀ q, g ≤ q → q < w'.next → ¬ Has w'.heap q x) → (∀ n ∈ p, CompOk n ∧ NameOk n) →
      (leaf = .mrr → ∃ l, rootRecordName ∉ l ∧ l ++ [rootRecordName] = p) → Orderly C g t u w (addChildAt C x p i w').2
  | part (w' : World) (k : Key) (i x : ObjId) : Orderly C g t u w w' → g ≤ i → i < w'.next → (w'.heap i).kind = .mrr →
      (w'.heap i).mapped = true → dget (w'.heap i).body.kids k = none → g ≤ x → x < w'.next →
      (k = .dlm ∧ (w'.heap x).kind = .metadata ∨ k = .ft ∧ (w'.heap x).kind = .mtree .metadata) →
      (∀ q, g ≤ q → q < w'.next → ¬ Has w'.heap q x) → Orderly C g t u w (setPart C k i x w').2

theorem Orderly.busy {g t u : ObjId} {w w' : World} (h : Orderly C g t u w w') : Busy C g t u w w' := by
  induction h with
  | refl => exact .refl
  | loaded w' i _ h1 h2 ih => exact .loaded w' i ih h1 h2
  | read w' i _ h1 h2 ih => exact .read w' i ih h1 h2
  | looked w' i p _ h1 h2 ih => exact .looked w' i p ih h1 h2
  | listed w' i id _ h1 h2 ih => exact .listed w' i id ih h1 h2
  | element w' i v p _ h1 h2 ih => exact .element w' i v p ih h1 h2
  | asked w' auto now id v pre path root rv _ h1 h2 _ _ _ ih => exact .asked w' auto now id v pre path root rv ih h1 h2
  | new w' b _ h1 h2 ih => exact .new w' b ih h1 h2
  | ran w' i ext run _ h1 h2 h3 ih => exact .ran w' i ext run ih h1 h2 h3
  | filed w' leaf i x p _ h1 h2 h3 h4 h5 h6 h7 h8 _ ih => exact .filed w' leaf i x p ih h1 h2 h3 h4 h5 h6 h7 h8
  | part w' k i x _ h1 h2 h3 h4 h5 h6 h7 h8 h9 ih => exact .part w' k i x ih h1 h2 h3 h4 h5 h6 h7 h8 h9

/-! ### What stays -/

variable {t u : ObjId}

/-- Nothing is empty that should not be. -/
abbrev Lively (C : Cfg) (r : Realm) (t u : ObjId) (w : World) : Prop := Live C r t u (fun _ => False) w

theorem Live.ran {X : ObjId → Prop} {w w' : World} (hr : r ≠ []) (l : Live C r t u X w) {i : ObjId} (hi : i < w.next)
    (ext : Str) {run : Instance} (hw : run.WF) {res : Except PyErr Unit} (h : addExtractorRun C i ext run w = (res, w')) :
    Live C r t u X w' := by
  have d' := l.desk.ran hr hi ext hw h
  cases h1 : ensureMapped C i w with
  | mk r1 w1 =>
    have hl := l.desk.sound.fine.loadsStep hi
    rw [h1] at hl
    have l1 := l.loads hr hl
    unfold addExtractorRun at h
    cases r1 with
    | error e => rw [M.bind_of_error h1] at h; cases h; exact l1
    | ok b =>
      have hm := (l.desk.sound.fine.loaded hi h1).2
      have hi1 := Nat.lt_of_lt_of_le hi hl.next
      rw [M.bind_of_ok h1, M.bind_of_ok (getObj_run i w1)] at h
      cases hd : (w1.heap i).body.data with
      | metadata m =>
        rw [hd] at h
        simp only at h
        rw [change_run] at h
        cases h
        refine ⟨d', l1.tidy.extend l1.desk.sound.fine hi1 hm ?_ (fun _ hx => hx) (fun h => h) (fun e he => Or.inl he),
          l1.trees⟩
        show Kind.metadata = (w1.heap i).body.data.kind
        rw [hd]; rfl
      | _ => rw [hd] at h; cases h; exact l1

theorem Live.filed {X : ObjId → Prop} {w w' : World} (hr : r ≠ []) (l : Live C r t u X w) {leaf : Leaf} {i x : ObjId}
    (hi : i < w.next) (hik : (w.heap i).kind = .mtree leaf) (hx : x < w.next) (hxk : (w.heap x).kind = leaf.kind)
    (ho : Loose w x) {p : List Str} (hp : ∀ n ∈ p, CompOk n ∧ NameOk n)
    (hn : leaf = .mrr → ∃ l, rootRecordName ∉ l ∧ l ++ [rootRecordName] = p) {res : Except PyErr Unit}
    (h : addChildAt C x p i w = (res, w')) : Live C r t u X w' := by
  have hf := l.desk.sound.fine
  have d' := l.desk.filed hr hi hik hx hxk ho hp h
  cases res with
  | error e => exact l.loads hr (addChildAt_error p (fun n hn => (hp n hn).1) hf hi h)
  | ok _ =>
    obtain ⟨w1, q, n, rest, m, hpq, hlo, ha⟩ := addChildAt_ok p (fun n hn => (hp n hn).1) hf hi (by rw [hik]; rfl) h
    have d1 := l.desk.loads hr hlo
    have t1 := l.tidy.loads hr l.desk l.trees hlo
    have hlog : w'.repo.log = w1.repo.log := ha.log
    refine ⟨d', t1.added d1.sound ha (Nat.lt_of_lt_of_le hi hlo.next) ((hlo.kind i hi).trans hik)
      (Nat.lt_of_lt_of_le hx hlo.next) ((hlo.kind x hx).trans hxk) (by rw [← hpq]; exact hn), ?_⟩
    rw [hlog, hlo.log]
    exact l.trees

theorem Live.setPart {X : ObjId → Prop} {w : World} (l : Live C r t u X w) {k : Key} {i x : ObjId} (hi : i < w.next)
    (hik : (w.heap i).kind = .mrr) (hm : (w.heap i).mapped = true) (hnone : dget (w.heap i).body.kids k = none) (hx : x < w.next)
    (hxk : k = .dlm ∧ (w.heap x).kind = .metadata ∨ k = .ft ∧ (w.heap x).kind = .mtree .metadata) (hl : Loose w x) :
    Live C r t u X (MM.setPart C k i x w).2 := by
  have hkey : k = .dlm ∨ k = .ft := hxk.imp And.left And.left
  obtain ⟨d2, _, _⟩ := l.desk.setPart hi hik hm hnone hx hxk hl
  obtain ⟨m1, m2, m3⟩ := mrrSet_spec (l.desk.sound.fine.formed i hm) hik hkey x
  rw [setPart_run hkey hm] at d2 ⊢
  refine ⟨d2, l.tidy.extend l.desk.sound.fine hi hm rfl (fun _ h => h) (fun h => ?_) (fun e he => ?_), l.trees⟩
  · have h : mrrSet (w.heap i).body.kids k x = [] := h
    rw [h] at m2
    cases m2
  · have hde := dget_of_mem m1.keys (show (e.1, e.2) ∈ mrrSet (w.heap i).body.kids k x from he)
    by_cases hek : e.1 = k
    · right
      rw [hek, m2] at hde
      injection hde with hde
      have hxi : x ≠ i := by
        rintro rfl
        rw [hik] at hxk
        rcases hxk with ⟨_, e⟩ | ⟨_, e⟩ <;> cases e
      refine edge_small ?_ (fun hft => ?_)
      · rw [edit_self]
        have : ∀ b : Body ObjId, b.data.kind = .mrr → b.data.kind ≠ .mtree .mrr ∧ b.data.kind ≠ .tvl := by
          intro b h; rw [h]; exact ⟨by decide, by decide⟩
        exact this _ hik
      · rw [← hde]
        show ((MM.edit i _ w).heap x).kind.isMtree = false
        rw [edit_ne _ w hxi]
        rcases hxk with ⟨_, e⟩ | ⟨e, _⟩
        · rw [e]; rfl
        · exact absurd (hek.trans e) hft
    · rw [m3 _ hek] at hde
      exact Or.inl (mem_of_dget hde)

/-- The calls of a session, in the process without what failed attempts have left -/
theorem Orderly.lively {g : ObjId} (hr : r ≠ []) {w w' : World} (hb : Orderly C g t u w w') :
    ∀ {v}, Bench C r g t u w v → Lively C r t u v → ∃ v', Bench C r g t u w' v' ∧ Lively C r t u v' := by
  intro v b0 l0
  induction hb with
  | refl => exact ⟨v, b0, l0⟩
  | loaded w' i _ hg hi ih =>
    obtain ⟨v', b, l⟩ := ih
    have hi' : i < v'.next := by rw [b.side.next]; exact hi
    have hl := b.desk.sound.fine.loadsStep hi'
    exact ⟨_, b.step (twin_ensureMapped hg) (b.desk.loads hr hl), l.loads hr hl⟩
  | read w' i _ hg hi ih =>
    obtain ⟨v', b, l⟩ := ih
    have hi' : i < v'.next := by rw [b.side.next]; exact hi
    have hl := b.desk.sound.fine.readStep hi'
    exact ⟨_, b.step (twin_readIn hg) (b.desk.loads hr hl), l.loads hr hl⟩
  | looked w' i p _ hg hi ih =>
    obtain ⟨v', b, l⟩ := ih
    have hl := getObjectAt_any (C := C) p b.desk.sound.fine (i := i) (by rw [b.side.next]; exact hi)
    exact ⟨_, b.step (twin_getObjectAt p hg) (b.desk.loads hr hl), l.loads hr hl⟩
  | listed w' i id _ hg hi ih =>
    obtain ⟨v', b, l⟩ := ih
    have hl := getVersionList_any b.desk.sound.fine (i := i) (by rw [b.side.next]; exact hi) id
    exact ⟨_, b.step (twin_getVersionList hg id) (b.desk.loads hr hl), l.loads hr hl⟩
  | element w' i v p _ hg hi ih =>
    obtain ⟨v', b, l⟩ := ih
    have hl := getVersioned_any b.desk.sound.fine (i := i) (by rw [b.side.next]; exact hi) v p
    exact ⟨_, b.step (twin_getVersioned hg v p) (b.desk.loads hr hl), l.loads hr hl⟩
  | asked w' auto now id v pre path root rv _ hc hp hn hroot hm ih =>
    obtain ⟨v', b, l⟩ := ih
    have tw := twin_rootRecord (C := C) b.gt b.gu auto now id v pre path root rv
    have l2 : Lively C r t u (rootRecord C auto now t u id v pre path root rv v').2 := by
      rcases hm with hm | hm
      · obtain ⟨o, v2, hx, l2, _, _⟩ := l.rootRecord hr (by rw [b.side.repo]; exact hm) auto now id v hc hp hn hroot
        rw [hx]; exact l2
      · have e := (tw w' v' b.side).1
        cases hx : rootRecord C auto now t u id v pre path root rv v' with
        | mk res v2 =>
          rw [hx] at e
          simp only at e
          refine l.rootRecord_any hr auto now id v hc hp hn hx ?_
          rw [← b.look b.gt, e]
          refine hm.imp_right (Or.imp_left fun e => ?_)
          rw [e]; rfl
    exact ⟨_, b.step tw l2.desk, l2⟩
  | new w' x _ hk hd ih =>
    obtain ⟨v', b, l⟩ := ih
    have dn := (b.desk.create hd hk).1
    have := b.step (f := alloc (Obj.new x)) (Twin.alloc (fun _ y hy => by
      unfold Body.subs at hy
      rw [show (Obj.new x).body.kids = [] from hk] at hy
      cases hy)) dn
    exact ⟨_, this, dn, l.tidy.create l.desk.sound.fine hk, l.trees⟩
  | ran w' i ext run _ hg hi hw ih =>
    obtain ⟨v', b, l⟩ := ih
    have hi' : i < v'.next := by rw [b.side.next]; exact hi
    have l2 := l.ran hr hi' ext hw (h := rfl) (res := (addExtractorRun C i ext run v').1) (w' := (addExtractorRun C i ext run v').2)
    exact ⟨_, b.step (twin_addExtractorRun hg ext run) l2.desk, l2⟩
  | filed w' leaf i x p _ hg hi hik hgx hx hxk hl hp hn ih =>
    obtain ⟨v', b, l⟩ := ih
    have hi' : i < v'.next := by rw [b.side.next]; exact hi
    have hx' : x < v'.next := by rw [b.side.next]; exact hx
    have hik' : (v'.heap i).kind = .mtree leaf := by rw [b.side.heap i hg]; exact hik
    have hxk' : (v'.heap x).kind = leaf.kind := by rw [b.side.heap x hgx]; exact hxk
    have hl' : Loose v' x := by
      intro q hq
      by_cases hqg : g ≤ q
      · have hlt := b.desk.rooted.bare q x hq
        unfold Has at hq
        rw [b.side.heap q hqg] at hq
        exact hl q hqg (by rw [← b.side.next]; exact hlt) hq
      · have := hq.2
        unfold Body.subs at this
        rw [b.empty q (Nat.not_le.mp hqg)] at this
        cases this
    have l2 := l.filed hr hi' hik' hx' hxk' hl' hp hn (h := rfl) (res := (addChildAt C x p i v').1)
      (w' := (addChildAt C x p i v').2)
    exact ⟨_, b.step (twin_addChildAt hgx p hg) l2.desk, l2⟩
  | part w' key i x _ hg hi hik hm hnone hgx hx hxk hl ih =>
    obtain ⟨v', b, l⟩ := ih
    have l2 := l.setPart (k := key) (i := i) (x := x) (by rw [b.side.next]; exact hi) (by rw [b.side.heap i hg]; exact hik)
      (by rw [b.side.heap i hg]; exact hm) (by rw [b.side.heap i hg]; exact hnone) (by rw [b.side.next]; exact hx)
      (by rw [b.side.heap x hgx]; exact hxk) (b.loose hl)
    exact ⟨_, b.step (twin_setPart hg hgx) l2.desk, l2⟩

/-! ### The start -/

theorem Opens.works {s : Repo} {g : ObjId} {w : World} (h : Opens C r s g t u w) (hf : s.faults = []) :
    w.repo.faults = [] := by
  have key : ∀ i w', Idle s i → M.Keeps (topLevel C r) WorksOn → (topLevel C r i).2 = w' → w'.repo.faults = [] := by
    rintro i w' hi hk rfl
    exact hk i (show i.repo.faults = [] by rw [hi.repo]; exact hf)
  have hk : M.Keeps (topLevel C r) WorksOn := by
    unfold topLevel
    refine M.Keeps.bind won_trans' (fun w h => h) fun a => M.Keeps.bind won_trans' (fun w h => h) fun b => ?_
    have hin : M.Keeps (do readIn C a; readIn C b; pure (some (a, b)) : W (Option (ObjId × ObjId))) WorksOn :=
      M.Keeps.bind won_trans' (worksOn_read C a) fun _ => M.Keeps.bind won_trans' (worksOn_read C b) fun _ w h => h
    intro w hw
    have := hin w hw
    unfold M.catchRuntime
    split
    · rename_i h1; rw [h1] at this; exact this
    · rename_i h1; exact this
  cases h with
  | found i t u w hi _ h => exact key i w hi hk (by rw [h])
  | made i w hi h => exact key i w hi hk (by rw [h])

/-- The repository holds trim content under the names of the top-level objects, as far as it holds
anything there. -/
def TrimAt (C : Cfg) (r : Realm) (L : Log) : Prop := ∀ l nm, Named l nm → ∀ h, Trim C L h (.sto r l)

theorem kempt_found (hr : r ≠ []) {i : World} (p : Vacant i) (h : TrimAt C r i.repo.log) :
    Kempt C r (fun _ => False) (create (uuidSetLink.obj r) (create (tvlLink.obj r) i)) := by
  generalize hw : create (uuidSetLink.obj r) (create (tvlLink.obj r) i) = w
  have hn : w.next = i.next + 2 := by rw [← hw]; rfl
  have hlog : w.repo.log = i.repo.log := by rw [← hw]; rfl
  have h0 : w.heap i.next = tvlLink.obj r := by
    rw [← hw, create_ne _ _ (show i.next ≠ i.next + 1 by oomega)]
    exact create_self _ i
  have h1 : w.heap (i.next + 1) = uuidSetLink.obj r := by rw [← hw]; exact create_self _ (create (tvlLink.obj r) i)
  have cases3 : ∀ j, j = i.next ∨ j = i.next + 1 ∨ w.heap j = i.heap j := by
    intro j
    by_cases a : j = i.next
    · exact Or.inl a
    · by_cases b : j = i.next + 1
      · exact Or.inr (Or.inl b)
      · refine Or.inr (Or.inr ?_)
        rw [← hw, create_ne _ _ b, create_ne _ _ a]
  have sv : ∀ l : Link, l.ref.isNone = false → r ∈ (l.obj r).savedOn := by
    intro l hl
    show r ∈ (if l.ref.isNone || r.isEmpty then [] else [r])
    rw [hl]
    cases r with
    | nil => exact absurd rfl hr
    | cons a l => simp
  refine ⟨fun q _ hm e he => ?_, fun j _ hm => ?_⟩
  · rcases cases3 q with rfl | rfl | e0
    · rw [h0] at hm; cases hm
    · rw [h1] at hm; cases hm
    · rw [e0, p.kids] at he; cases he
  · rcases cases3 j with rfl | rfl | e0
    · refine ⟨by rw [h0]; exact sv _ (by decide), ?_⟩
      have := look_unloaded (C := C) (L := w.repo.log) (h := w.heap) (h' := i.heap) (i := i.next) (r := r)
        (ref := tvlLink.ref) (by rw [h0]; rfl) (by rw [h0]; rfl) (by rw [h0]; rfl)
      rw [h0] at this
      refine Trim.of_same this.symm ?_
      rw [hlog]
      exact h tvlLink tvlRefName (Or.inl ⟨rfl, rfl⟩) _
    · refine ⟨by rw [h1]; exact sv _ (by decide), ?_⟩
      have := look_unloaded (C := C) (L := w.repo.log) (h := w.heap) (h' := i.heap) (i := i.next + 1) (r := r)
        (ref := uuidSetLink.ref) (by rw [h1]; rfl) (by rw [h1]; rfl) (by rw [h1]; rfl)
      rw [h1] at this
      refine Trim.of_same this.symm ?_
      rw [hlog]
      exact h uuidSetLink uuidSetRefName (Or.inr ⟨rfl, rfl⟩) _
    · rw [e0, p.mapped] at hm; cases hm

theorem Opens.lively (hr : r ≠ []) {s : Repo} {g : ObjId} {w : World} (h : Opens C r s g t u w)
    (hn : TrimAt C r s.log) (hh : HashTrees w.repo.log r) : ∃ v, Bench C r g t u w v ∧ Lively C r t u v := by
  obtain ⟨v, b, e⟩ := h.started hr
  rw [← b.side.repo] at hh
  rcases e with ⟨i, hp, rfl, hst, htop⟩ | hj
  · have d := desk_found hr hp hst
    have t0 := kempt_found hr hp hn
    obtain ⟨w1, h1, h2, rfl, rfl⟩ := topLevel_found htop
    have l1 := d.sound.fine.readStep d.tl
    rw [h1] at l1
    have d1 := d.loads hr l1
    have l2 := d1.sound.fine.readStep d1.ul
    rw [h2] at l2
    have hh1 : HashTrees w1.repo.log r := by rw [← l2.log]; exact hh
    have hh0 := hh1
    rw [l1.log] at hh0
    exact ⟨_, b, b.desk, (t0.loads hr d hh0 l1).loads hr d1 hh1 l2, hh⟩
  · refine ⟨v, b, b.desk, ⟨fun p _ _ e he => ?_, fun j _ hm => ?_⟩, hh⟩
    · rw [(hj p).2] at he; cases he
    · rw [(hj j).1] at hm; cases hm

/-! ### Saving -/

/-- The class of an object or of a stored object -/
def Node.class (h : Heap) : Node → Kind
  | .mem j => (h j).kind
  | .sto _ l => l.kind

theorem fetch_kidKinds {L : Log} {x : Realm} {k : Kind} {ref : Ref} {b : Body Link} (h : strictFetch C L x k ref = .ok b) :
    ∀ e ∈ b.kids, KidOk k e.1 e.2.2.kind := by
  have hf := (strictFetch_ok h).1
  unfold fetch at hf
  split at hf
  · split at hf
    · split at hf
      · cases hf
      · cases hf; intro e he; cases he
    · cases hf
  · split at hf
    · split at hf
      · cases hf
      · exact decode_kidOk hf
    · cases hf

theorem view_kidKinds {L : Log} {h : Heap} (ht : Typed h) {n : Node} {b : Body Node} (hv : view C L h n = .ok b) :
    ∀ e ∈ b.kids, KidOk (n.class h) e.1 (e.2.2.class h) := by
  have sto : ∀ (a : Body Link) (x : Realm) k, (∀ e ∈ a.kids, KidOk k e.1 e.2.2.kind) →
      ∀ e ∈ (a.map (Node.sto x)).kids, KidOk k e.1 (e.2.2.class h) := by
    intro a x k hk e he
    obtain ⟨e', h1, rfl⟩ := List.mem_map.mp he
    exact hk e' h1
  cases n with
  | mem j =>
    cases hm : (h j).mapped with
    | true =>
      rw [view_mapped hm] at hv
      cases hv
      intro e he
      obtain ⟨e', h1, rfl⟩ := List.mem_map.mp he
      exact ht j hm e' h1
    | false =>
      obtain ⟨x, ref, a, _, _, h1, rfl⟩ := (view_away hm).mp hv
      exact sto a x _ (fetch_kidKinds h1)
  | sto x l =>
    obtain ⟨a, h1, rfl⟩ := view_sto.mp hv
    exact sto a x _ (fetch_kidKinds h1)

theorem view_class' {L : Log} {h : Heap} {n : Node} {b : Body Node} (hv : view C L h n = .ok b) : b.data.kind = n.class h := by
  cases n with
  | mem j => exact view_class hv
  | sto x l =>
    let h' : Heap := fun _ => l.obj x
    have := view_class (C := C) (L := L) (h := h') (i := 0) (b := b) (by
      rw [view_unloaded (r := x) (ref := l.ref) rfl rfl rfl, kind_linkObj]
      exact hv)
    exact this.trans (kind_linkObj x l)

/-- UUID sets are parts of nothing. -/
theorem look_noset {L : Log} {h : Heap} (ht : Typed h) (ks : List Key) : ∀ {k : Key} {n : Node} {t s : Str} {d : Data} {b : Bool},
    look C L h (k :: ks) t n = .found s d b → d.kind ≠ .uuidset := by
  have noset : ∀ {p k c}, KidOk p k c → c ≠ .uuidset := by
    intro p k c hk
    cases p with
    | mtree leaf => cases k <;> first | exact absurd hk id | (rcases hk with e | e <;> subst e <;> cases leaf <;> simp [Leaf.kind])
    | _ => cases k <;> first | exact absurd hk id | (rcases hk with e | e <;> subst e <;> simp) | (cases hk; simp)
  induction ks with
  | nil =>
    intro k n t s d b hl
    cases hv : view C L h n with
    | error e => rw [look_missing_of_view hv] at hl; cases hl
    | ok bn =>
      rw [look_cons hv] at hl
      cases hx : dget bn.kids k with
      | none => rw [hx] at hl; cases hl
      | some x =>
        rw [hx] at hl
        have hkk := noset (view_kidKinds ht hv _ (mem_of_dget hx))
        simp only at hl
        cases hc : view C L h x.2 with
        | error e => rw [hc] at hl; cases hl
        | ok b' =>
          rw [hc] at hl
          simp only at hl
          split at hl
          · cases hl
          · rw [look_nil _ hc] at hl
            cases hl
            rw [view_class' hc]; exact hkk
  | cons k' ks ih =>
    intro k n t s d b hl
    cases hv : view C L h n with
    | error e => rw [look_missing_of_view hv] at hl; cases hl
    | ok bn =>
      rw [look_cons hv] at hl
      cases hx : dget bn.kids k with
      | none => rw [hx] at hl; cases hl
      | some x =>
        rw [hx] at hl
        simp only at hl
        cases hc : view C L h x.2 with
        | error e => rw [hc] at hl; cases hl
        | ok b' =>
          rw [hc] at hl
          simp only at hl
          split at hl
          · cases hl
          · exact ih hl

theorem Lively.noHole {w : World} (l : Lively C r t u w) {i : ObjId} (hi : i < w.next)
    (hs : (w.heap i).kind = .uuidset → ∃ k, look C w.repo.log w.heap [k] [] (.mem i) ≠ .absent) : NoHole C w i := by
  have hn := l.tidy.trim l.desk.sound.fine hi
  refine ⟨fun ks k s d b s' d' b' _ _ hl => hn.full (ks ++ [k]) [] s' d' b' (by simp) hl, fun ks s b hl => ?_⟩
  cases ks with
  | nil => exact hs (look_kind hl).symm
  | cons k ks => exact absurd rfl (look_noset l.desk.sound.typed ks hl)

theorem NoHole.of_same {w w' : World} {i : ObjId} (h : NoHole C w i)
    (hs : SameContent C w.repo.log w.heap (.mem i) w'.repo.log w'.heap (.mem i)) : NoHole C w' i :=
  ⟨fun ks k t d b t' d' b' h1 h2 h3 => h.inner ks k t d b t' d' b' (by rw [hs]; exact h1) h2 (by rw [hs]; exact h3),
   fun ks t b h1 => (h.sets ks t b (by rw [hs]; exact h1)).imp fun k hk => by rw [← hs]; exact hk⟩

theorem eff_log {w : World} (h : w.caches = []) : w.eff = w.repo.log := by unfold World.eff; rw [h]; rfl

/-- Both top-level objects can be saved. -/
theorem Lively.saves {w : World} (hr : r ≠ []) (hrem : Ref.isRemote r = false) (l : Lively C r t u w)
    (hf : w.repo.faults = []) (hset : ∃ k, look C w.repo.log w.heap [k] [] (.mem u) ≠ .absent) :
    ∃ N, ∀ n n' force force', N ≤ n → N ≤ n' → CollisionFree C (writeOut C n (some r) force t w).2.eff →
      ∃ ref w1, writeOut C n (some r) force t w = (.ok ref, w1) ∧
        (CollisionFree C (writeOut C n' (some r) force' u w1).2.eff →
          ∃ ref' w2, writeOut C n' (some r) force' u w1 = (.ok ref', w2) ∧ w2.repo.faults = []) := by
  have d := l.desk
  obtain ⟨rank, hrk⟩ := d.intact.ranked
  refine ⟨max (rank t) (rank u) + 1, fun n n' force force' hn hn' hc => ?_⟩
  have noset : ∀ {i}, i < w.next → (i = u ∨ (w.heap i).kind ≠ .uuidset) → NoHole C w i := fun hi h =>
    l.noHole hi fun hk => h.elim (fun e => by rw [e]; exact hset) (fun e => absurd hk e)
  have away : ∀ j, j < w.next → (w.heap j).mapped = false → r ∈ (w.heap j).savedOn := fun j hj hm => (l.tidy.away j hj hm).1
  obtain ⟨ref, w1, h1⟩ := d.intact.writes_at (via := .own) (force := force) hr hrem (fun e => by cases e) (d.storable d.tl)
    d.alone_tree (fun j _ => d.truth j) d.rooted.tree_owned (fun j hj hm => away j (d.below_lt d.tl hj) hm)
    (noset d.tl (Or.inr (by rw [d.tk]; decide))) hf hrk (n := n) (by omega) hc
  have h1 : writeOut C n (some r) force t w = (.ok ref, w1) := h1
  refine ⟨ref, w1, h1, fun hc' => ?_⟩
  have hca1 : w1.caches = [] := caches_writeAs (via := .own) h1 d.intact.caches
  rw [h1, eff_log hca1] at hc
  obtain ⟨hd, hu, htr, how, hal⟩ := d.after_tree hr h1 hc
  have hwo := writeOut_worksOn (C := C) hr n force t w hf
  rw [h1] at hwo
  have same := hd.tried.any.same
  have reach : ∀ {a b}, Reach w.heap a b → Clean r w1.heap a → Clean r w1.heap b := by
    intro a b hab
    induction hab with
    | refl => exact fun h => h
    | step a k c hm hk _ ih =>
      intro hcl
      exact ih (hcl.kid (by rw [(same a).mapped]; exact hm) (by rw [(same a).body]; exact hk))
  have blanks : NoBlanks r w1.heap u := by
    intro j hj hm
    have hj' := hj.mono same
    by_cases htj : Reach w.heap t j
    · exact (reach htj hd.clean).flag
    · rw [hd.tried.limits.out j (Or.inl htj)] at hm ⊢
      exact away j (d.below_lt d.ul hj') hm
  obtain ⟨ref', w2, h2⟩ := hd.intact.writes_at (via := .own) (force := force') hr hrem (fun e => by cases e)
    ((d.storable d.ul).mono same) hal htr how blanks ((noset d.ul (Or.inl rfl)).of_same (hd.look u)) hwo (hrk.mono same)
    (n := n') (by omega) hc'
  have h2 : writeOut C n' (some r) force' u w1 = (.ok ref', w2) := h2
  have hwo2 := writeOut_worksOn (C := C) hr n' force' u w1 hwo
  rw [h2] at hwo2
  exact ⟨ref', w2, h2, hwo2⟩

end MM
