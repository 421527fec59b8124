/-
Finding or creating a root record: the whole call, and calls after a successful one.
-/
import Verif.CommonRun

namespace MM

variable {C : Cfg}

/-- What is done for the root dataset of a sub-dataset -/
theorem rootPart_run {w : World} (hs : Sound C w) (auto : Option Bool) (now : Str) {tvl us : ObjId}
    (ht : tvl < w.next) (htk : (w.heap tvl).kind = .tvl) (hu : us < w.next)
    (huk : (w.heap us).kind = .uuidset) (id : Uuid) (v : Str) (p : PPath)
    {r : Except PyErr (Option ObjId)} {w' : World} (h : rootPart C auto now tvl us id v p w = (r, w')) :
    Part C auto w w' (NewKeys auto w tvl us id v p p) ∧
    (∀ dt, r = .ok (some dt) → VerAt w' tvl v p dt ∧ ∃ m, Entered w' us id v p dt [] m) ∧
    (∀ n1 n2 ns, look C w.repo.log w.heap (.ver v p :: names (n1 :: n2 :: ns)) [] (.mem tvl) = .absent →
      ∀ dt, r = .ok (some dt) → look C w'.repo.log w'.heap (names (n1 :: n2 :: ns)) [] (.mem dt) = .absent) ∧
    (∀ dt, r = .ok (some dt) → ∀ u' k, look C w'.repo.log w'.heap [.uuid u', k] [] (.mem us) ≠ .absent →
        k ≠ .ft → look C w.repo.log w.heap [.uuid u', k] [] (.mem us) ≠ .absent ∨ k = .ver v p) ∧
    (noCreate auto = true → (look C w.repo.log w.heap [.uuid id, .ver v p] [] (.mem us) ≠ .absent ∨
      ¬ Here C w us (.uuid id) ∨
      look C w.repo.log w.heap [.ver v p, .name rootRecordName] [] (.mem tvl) = .absent) → Loads C w w') ∧
    (noCreate auto = true → ∀ e, r = .error e → e = .runtime ∨
      (e = .type ∧ ∃ dt w1, Loads C w w1 ∧ VerAt w1 tvl v p dt ∧ (w1.heap dt).kind.isMtree = false) ∨
      (e = .assertion ∧ look C w.repo.log w.heap [.ver v p, .name rootRecordName] [] (.mem tvl) ≠ .absent)) := by
  unfold rootPart at h
  cases h1 : listFor C auto us id w with
  | mk r1 w1 =>
    obtain ⟨s1, g1, l1, a1, n1, e1, c1, t1, u1⟩ := listFor_run hs auto hu huk id h1
    have p1 : Part C auto w w1 (NewKeys auto w tvl us id v p p) :=
      ⟨s1, g1.mono fun _ _ _ h => Or.inr (Or.inl h), fun hn j hj _ _ => (l1 hn).content j hj⟩
    cases r1 with
    | error e =>
      rw [M.bind_of_error h1] at h
      cases h
      exact ⟨p1, (fun m e => by cases e), (fun _ _ _ _ m e => by cases e), (fun m e => by cases e), fun hn _ => l1 hn,
        fun _ e' he => by cases he; exact Or.inl (e1 e rfl).1⟩
    | ok o =>
      rw [M.bind_of_ok h1] at h
      cases o with
      | none =>
        cases h
        exact ⟨p1, (fun m e => by cases e), (fun _ _ _ _ m e => by cases e), (fun m e => by cases e), fun hn _ => l1 hn,
          (fun _ e' he => by cases he)⟩
      | some vl =>
        simp only at h
        have hla := a1 vl rfl
        have ht1 := Nat.lt_of_lt_of_le ht g1.grown.next
        have hu1 := Nat.lt_of_lt_of_le hu g1.grown.next
        have htk1 : (w1.heap tvl).kind = .tvl := (g1.grown.kind tvl ht).trans htk
        have huk1 : (w1.heap us).kind = .uuidset := (g1.grown.kind us hu).trans huk
        have hct := c1 tvl ht (by rw [htk]; simp)
        have hvl1 := hla.vl_lt s1.fine
        have hvk1 : (w1.heap vl).kind = .vlist := hla.kind s1 huk1
        have htu : us ≠ tvl := by rintro rfl; rw [htk] at huk; cases huk
        have hvt : vl ≠ tvl := by rintro rfl; rw [htk1] at hvk1; cases hvk1
        cases h2 : treeFor C auto now tvl v p w1 with
        | mk r2 w2 =>
          obtain ⟨s2, g2, l2, a2, n2, e2, x2⟩ := treeFor_run s1 auto now ht1 htk1 v p h2
          have p2 : Part C auto w w2 (NewKeys auto w tvl us id v p p) :=
            p1.trans (M := fun j k => (j = tvl ∧ k = .ver v p) ∧ noCreate auto = false)
              ⟨s2, g2, fun hn j hj _ _ => (l2 hn).content j hj⟩ (fun _ _ _ h => Or.inl h)
          cases r2 with
          | error e =>
            rw [M.bind_of_error h2] at h
            cases h
            exact ⟨p2, (fun m e => by cases e), (fun _ _ _ _ m e => by cases e), (fun m e => by cases e),
              fun hn _ => (l1 hn).trans (l2 hn), fun _ e' he => by cases he; exact Or.inl (e2 e rfl).1⟩
          | ok o2 =>
            rw [M.bind_of_ok h2] at h
            cases o2 with
            | none =>
              cases h
              exact ⟨p2, (fun m e => by cases e), (fun _ _ _ _ m e => by cases e), (fun m e => by cases e),
                fun hn _ => (l1 hn).trans (l2 hn), (fun _ e' he => by cases he)⟩
            | some dt =>
              simp only at h
              have hva := a2 dt rfl
              have hd2 := hva.el_lt s2.fine
              have htk2 : (w2.heap tvl).kind = .tvl := (g2.grown.kind tvl ht1).trans htk1
              have huk2 : (w2.heap us).kind = .uuidset := (g2.grown.kind us hu1).trans huk1
              have hdk := hva.treeKind s2 htk2
              have hdn : (w2.heap dt).kind ≠ .uuidset ∧ (w2.heap dt).kind ≠ .vlist := by
                obtain ⟨t, hd⟩ := hva.part
                have := s2.typed tvl hva.mapped _ (mem_of_dget hd)
                rw [htk2] at this
                rcases this with h1 | h1 <;> (constructor <;> rw [h1] <;> simp)
              have hlk : ∀ w2', Loads C w w2' → w2' = w2 → ∀ k ks, look C w.repo.log w.heap (.ver v p :: k :: ks) [] (.mem tvl) =
                  look C w2.repo.log w2.heap (k :: ks) [] (.mem dt) := by
                rintro _ hl rfl k ks
                obtain ⟨t, hd⟩ := hva.part
                rw [hl.content tvl ht, look_part hva.mapped hd (by simp), look_stamps hl.fine k ks [] t]
              have hla2 := hla.grown g2.grown
              have hvl2 := hla2.vl_lt s2.fine
              have hvk2 := hla2.kind s2 huk2
              cases h3 : recordFor C auto dt [] id v w2 with
              | mk r3 w3 =>
                obtain ⟨s3, g3, l3, a3, n3, d3, e3, x3⟩ := recordFor_run s2 auto hd2 hdk (by simp) id v h3
                have p3 : Part C auto w w3 (NewKeys auto w tvl us id v p p) :=
                  p2.trans (M := fun j _ => (w2.heap j).kind.isMtree = true ∧ noCreate auto = false)
                    ⟨s3, g3, fun hn j hj _ _ => (l3 hn).content j hj⟩
                    (fun j hj k h => Or.inr (Or.inr (Or.inr ⟨by rw [← p2.gained.grown.kind j hj]; exact h.1, h.2⟩)))
                have lo3 : noCreate auto = true → Loads C w w3 := fun hn => ((l1 hn).trans (l2 hn)).trans (l3 hn)
                cases r3 with
                | error e =>
                  rw [M.bind_of_error h3] at h
                  cases h
                  refine ⟨p3, (fun m e => by cases e), (fun _ _ _ _ m e => by cases e), (fun m e => by cases e),
                    fun hn _ => lo3 hn, fun hn e' he => ?_⟩
                  cases he
                  rcases e3 e hn rfl with q | ⟨q, q'⟩ | ⟨q, q'⟩
                  · exact Or.inl q
                  · exact Or.inr (Or.inl ⟨q, dt, w2, (l1 hn).trans (l2 hn), hva, q'⟩)
                  · refine Or.inr (Or.inr ⟨q, ?_⟩)
                    rw [hlk w2 ((l1 hn).trans (l2 hn)) rfl]
                    exact q'
                | ok o3 =>
                  rw [M.bind_of_ok h3] at h
                  cases o3 with
                  | none =>
                    cases h
                    exact ⟨p3, (fun m e => by cases e), (fun _ _ _ _ m e => by cases e), (fun m e => by cases e),
                      fun hn _ => lo3 hn, (fun _ e' he => by cases he)⟩
                  | some m =>
                    simp only at h
                    have hra := a3 m rfl
                    have hla3 := hla2.grown g3.grown
                    have hvk : (w3.heap vl).kind = .vlist := (g3.grown.kind vl hvl2).trans hvk2
                    have hvl3 := hla3.vl_lt s3.fine
                    have hhere : Here C w3 vl (.ver v p) ↔
                        look C w.repo.log w.heap [.uuid id, .ver v p] [] (.mem us) ≠ .absent := by
                      rw [← t1 vl rfl (.ver v p) (by simp)]
                      constructor
                      · intro hh
                        rcases g3.fresh vl hvl2 _ (by simp) hh with h3 | h3
                        · rcases g2.fresh vl hvl1 _ (by simp) h3 with h4 | h4
                          · exact h4
                          · exact absurd h4.1.1 hvt
                        · rw [hvk2] at h3; exact absurd h3.1 (by simp [Kind.isMtree])
                      · intro hh
                        have hne := hh
                        unfold Here at hne ⊢
                        cases hx : look C w1.repo.log w1.heap [.ver v p] [] (.mem vl) with
                        | absent => exact absurd hx hne
                        | missing => exact absurd hx (s1.fine.all vl _ _)
                        | found s d b =>
                          obtain ⟨b', hb', _⟩ := (g2.held.trans g2.grown.next g3.held) vl hvl1 _ _ s d b hx
                          rw [hb']; simp
                    cases h4 : entryFor C vl v now p m w3 with
                    | mk r4 w4 =>
                      obtain ⟨s4, g4, l4, a4, x4, e4, c4⟩ := entryFor_run s3 hvl3 hvk v now p hra.there hra.kind h4
                      have p4 : Part C auto w w4 (NewKeys auto w tvl us id v p p) := by
                        refine p3.trans (M := fun j k => j = vl ∧ k = .ver v p)
                          ⟨s4, g4, fun hn j hj q1 q2 => c4 j hj ?_⟩ ?_
                        · exact not_reach_list s4 (by rw [g4.grown.kind j hj]; exact q1)
                            (by rw [g4.grown.kind j hj]; exact q2) (by rw [g4.grown.kind vl hvl3]; exact hvk)
                        · rintro j hj k ⟨rfl, rfl⟩
                          refine Or.inr (Or.inr (Or.inl ⟨?_, rfl⟩))
                          rw [← p3.gained.grown.kind j hj]
                          exact hvk
                      have hlo : noCreate auto = true →
                          (look C w.repo.log w.heap [.uuid id, .ver v p] [] (.mem us) ≠ .absent ∨
                            ¬ Here C w us (.uuid id) ∨
                            look C w.repo.log w.heap [.ver v p, .name rootRecordName] [] (.mem tvl) = .absent) →
                          Loads C w w4 := by
                        intro hn hh
                        refine (lo3 hn).trans (l4 (hhere.mpr ?_))
                        rcases hh with hh | hh | hh
                        · exact hh
                        · refine absurd ?_ hh
                          unfold Here
                          rw [(lo3 hn).content us hu]
                          exact hla3.here s3.fine
                        · exfalso
                          rw [hlk w2 ((l1 hn).trans (l2 hn)) rfl, (l3 hn).content dt hd2] at hh
                          have := hra.look s3.fine []
                          rw [List.append_nil] at this
                          obtain ⟨d, b, h4⟩ := look_here s3.fine m []
                          rw [h4] at this
                          have h5 : look C w3.repo.log w3.heap [.name rootRecordName] [] (.mem dt) = .found [] d b := this
                          rw [hh] at h5
                          cases h5
                      cases r4 with
                      | error e =>
                        rw [M.bind_of_error h4] at h
                        cases h
                        exact ⟨p4, (fun m e => by cases e), (fun _ _ _ _ m e => by cases e), (fun m e => by cases e), hlo,
                          fun _ e' he => by cases he; exact Or.inl (e4 e rfl).1⟩
                      | ok _ =>
                        rw [M.bind_of_ok h4] at h
                        cases h
                        have hg34 := g3.grown.trans g4.grown
                        refine ⟨p4, ?_, ?_, ?_, hlo, (fun _ e' he => by cases he)⟩
                        · intro m' e
                          cases e
                          obtain ⟨y, hy⟩ := a4 rfl
                          exact ⟨hva.grown hg34, m, hra.grown s3.fine g4.grown, vl, y, hla3.grown g4.grown, hy⟩
                        · intro n1 n2 ns ha m' e
                          cases e
                          rw [hct] at ha
                          have q2 := x2 dt rfl _ _ ha
                          have q3 := x3 rfl n1 n2 ns q2
                          have hdk3 := g3.grown.kind dt hd2
                          have hd3 := Nat.lt_of_lt_of_le hd2 g3.grown.next
                          rw [← c4 dt hd3 (not_reach_list s4 (by rw [g4.grown.kind dt hd3, hdk3]; exact hdn.2)
                            (by rw [g4.grown.kind dt hd3, hdk3]; exact hdn.1)
                            (by rw [g4.grown.kind vl hvl3]; exact hvk))]
                          exact q3
                        · intro m' e u' k hh hk
                          cases e
                          have hu4 := (hla3.grown g4.grown)
                          have hmus := hu4.mapped
                          cases hd4 : dget (w'.heap us).body.kids (.uuid u') with
                          | none =>
                            exact absurd (look_cons_none (view_mapped hmus) (by rw [Body.dget_map, hd4]; rfl)) hh
                          | some y =>
                            rw [look_part hmus hd4 (by simp)] at hh
                            have hh' : Here C w' y.2 k := by
                              unfold Here; rw [look_stamps s4.fine k [] [] y.1]; exact hh
                            have hus4 : Here C w' us (.uuid u') := look_of_dget s4.fine hmus (by simp) hd4
                            have hus3 : Here C w3 us (.uuid u') := by
                              rcases g4.fresh us hla3.lt _ (by simp) hus4 with q | q
                              · exact q
                              · exact absurd q.2 (by simp)
                            have hus2 : Here C w2 us (.uuid u') := by
                              rcases g3.fresh us hla2.lt _ (by simp) hus3 with q | q
                              · exact q
                              · rw [huk2] at q; exact absurd q.1 (by simp [Kind.isMtree])
                            have hus1 : Here C w1 us (.uuid u') := by
                              rcases g2.fresh us hla.lt _ (by simp) hus2 with q | q
                              · exact q
                              · exact absurd q.1.1 htu
                            obtain ⟨z, hz⟩ := (look_entry s1.fine hla.mapped (by simp)).mp hus1
                            have hz1 := dget_of_mem (s1.fine.formed us hla.mapped).keys hz
                            have hz4 := (g2.grown.trans hg34).kids us hla.lt hla.mapped _ _ hz1
                            rw [hd4] at hz4
                            injection hz4 with hz4
                            subst hz4
                            have hy1 : y.2 < w1.next := s1.fine.kids us hla.mapped y.2 (dget_sub hz1)
                            have hyk : (w1.heap y.2).kind = .vlist := by
                              have := s1.typed us hla.mapped _ (mem_of_dget hz1)
                              rw [huk1] at this
                              exact this
                            have hy2 := Nat.lt_of_lt_of_le hy1 g2.grown.next
                            have hy3 := Nat.lt_of_lt_of_le hy2 g3.grown.next
                            rcases g4.fresh y.2 hy3 k hk hh' with q | q
                            · left
                              have q2 : Here C w2 y.2 k := by
                                rcases g3.fresh y.2 hy2 k hk q with q | q
                                · exact q
                                · rw [g2.grown.kind _ hy1, hyk] at q; exact absurd q.1 (by simp [Kind.isMtree])
                              have q1 : Here C w1 y.2 k := by
                                rcases g2.fresh y.2 hy1 k hk q2 with q | q
                                · exact q
                                · have := q.1.1
                                  rw [this, htk1] at hyk
                                  cases hyk
                              apply u1 u' k
                              rw [look_part hla.mapped hz1 (by simp), look_stamps s1.fine k [] y.1 []]
                              exact q1
                            · exact Or.inr q.2

/-! ### The whole call -/

/-- The version under which the dataset tree is filed: the one of the root dataset -/
def treeVersion (path : List Str) (v : Str) (rv : Option Str) : Option Str := if path = [] then some v else rv

/-- The prefix path under which the record is entered in the version list of its dataset id -/
def entryPath (path : List Str) (pre : PPath) : PPath := if path = [] then pre else metadataPath [[]]

/-- The keys that may be new after a call -/
def CallKeys (auto : Option Bool) (w : World) (tvl us : ObjId) (id : Uuid) (v : Str) (pre : PPath) (path : List Str)
    (root : Option Uuid) (rv : Option Str) (j : ObjId) (k : Key) : Prop :=
  ((j = tvl ∧ ∃ tv, treeVersion path v rv = some tv ∧ k = .ver tv pre) ∧ noCreate auto = false) ∨
    ((j = us ∧ (k = .uuid id ∨ ∃ u, root = some u ∧ k = .uuid u)) ∧ noCreate auto = false) ∨
    (w.heap j).kind = .vlist ∨ ((w.heap j).kind.isMtree = true ∧ noCreate auto = false)

/-- All that a successful call returns or passes is there. -/
def Done (w : World) (tvl us : ObjId) (id : Uuid) (v : Str) (pre : PPath) (path : List Str) (root : Option Uuid)
    (rv : Option Str) (m : ObjId) : Prop :=
  ∃ tv dt, treeVersion path v rv = some tv ∧ VerAt w tvl tv pre dt ∧
    Entered w us id v (entryPath path pre) dt path m ∧
    (path ≠ [] → ∃ u m0, root = some u ∧ Entered w us u tv pre dt [] m0)

theorem Done.grown {w w' : World} {tvl us : ObjId} {id : Uuid} {v : Str} {pre : PPath} {path : List Str}
    {root : Option Uuid} {rv : Option Str} {m : ObjId} (h : Done w tvl us id v pre path root rv m) (hf : Fine C w)
    (hg : Grown w w') : Done w' tvl us id v pre path root rv m := by
  obtain ⟨tv, dt, h1, h2, h3, h4⟩ := h
  refine ⟨tv, dt, h1, h2.grown hg, h3.grown hf hg, fun hp => ?_⟩
  obtain ⟨u, m0, h5, h6⟩ := h4 hp
  exact ⟨u, m0, h5, h6.grown hf hg⟩

/-- The version lists have entries for the records that are there. -/
def Indexed (C : Cfg) (w : World) (tvl us : ObjId) (tv : Str) (pre : PPath) (path : List Str) (id : Uuid) (v : Str)
    (p : PPath) : Prop :=
  look C w.repo.log w.heap [.uuid id, .ver v p] [] (.mem us) ≠ .absent ∨ ¬ Here C w us (.uuid id) ∨
    look C w.repo.log w.heap (.ver tv pre :: names (path ++ [rootRecordName])) [] (.mem tvl) = .absent

theorem names_ne (path : List Str) : ∃ n ns, names (path ++ [rootRecordName]) = .name n :: names ns := by
  cases path with
  | nil => exact ⟨rootRecordName, [], rfl⟩
  | cons n ns => exact ⟨n, ns ++ [rootRecordName], rfl⟩

theorem VerAt.look {w : World} (hs : Fine C w) {i x : ObjId} {v : Str} {p : PPath} (h : VerAt w i v p x)
    (k : Key) (ks : List Key) : look C w.repo.log w.heap (.ver v p :: k :: ks) [] (.mem i) =
      look C w.repo.log w.heap (k :: ks) [] (.mem x) := by
  obtain ⟨t, ht⟩ := h.part
  rw [look_part h.mapped ht (by simp), look_stamps hs k ks [] t]

theorem VerAt.notList {w : World} (hs : Sound C w) {i x : ObjId} {v : Str} {p : PPath}
    (hk : (w.heap i).kind = .tvl) (h : VerAt w i v p x) : (w.heap x).kind ≠ .uuidset ∧ (w.heap x).kind ≠ .vlist := by
  obtain ⟨t, hd⟩ := h.part
  have := hs.typed i h.mapped _ (mem_of_dget hd)
  rw [hk] at this
  rcases this with h1 | h1 <;> (constructor <;> rw [h1] <;> simp)

structure CallResult (C : Cfg) (auto : Option Bool) (tvl us : ObjId) (id : Uuid) (v : Str) (pre : PPath)
    (path : List Str) (root : Option Uuid) (rv : Option Str) (w : World) (r : Except PyErr (Option ObjId))
    (w' : World) : Prop where
  part : Part C auto w w' (CallKeys auto w tvl us id v pre path root rv)
  done : ∀ m, r = .ok (some m) → Done w' tvl us id v pre path root rv m
  made : ∀ tv, treeVersion path v rv = some tv →
    look C w.repo.log w.heap (.ver tv pre :: names (path ++ [rootRecordName])) [] (.mem tvl) = .absent →
    ∀ m, r = .ok (some m) → (w'.heap m).body.data = .mrr (some id) (some v) ∧ FreshRecord C w' m
  entered : ∀ tv, treeVersion path v rv = some tv →
    look C w.repo.log w.heap [.uuid id, .ver v (entryPath path pre)] [] (.mem us) = .absent →
    (path ≠ [] → (v, entryPath path pre) ≠ (tv, pre)) →
    ∀ m, r = .ok (some m) → ∃ vl, ListAt w' us id vl ∧ VerAt w' vl v (entryPath path pre) m
  only : noCreate auto = true → (∀ tv, treeVersion path v rv = some tv →
      Indexed C w tvl us tv pre path id v (entryPath path pre) ∧
      (∀ u, path ≠ [] → root = some u → Indexed C w tvl us tv pre [] u tv pre)) → Loads C w w'

theorem rootRecord_run {w : World} (hs : Sound C w) (auto : Option Bool) (now : Str) {tvl us : ObjId}
    (ht : tvl < w.next) (htk : (w.heap tvl).kind = .tvl) (hu : us < w.next)
    (huk : (w.heap us).kind = .uuidset) (id : Uuid) (v : Str) (pre : PPath) {path : List Str}
    (hp : ∀ n ∈ path, CompOk n) (root : Option Uuid) (rv : Option Str)
    {r : Except PyErr (Option ObjId)} {w' : World}
    (h : rootRecord C auto now tvl us id v pre path root rv w = (r, w')) :
    CallResult C auto tvl us id v pre path root rv w r w' := by
  unfold rootRecord at h
  by_cases hpe : path = []
  · subst hpe
    rw [if_pos rfl] at h
    have htv : ∀ tv, treeVersion [] v rv = some tv → tv = v := by
      intro tv e; unfold treeVersion at e; rw [if_pos rfl] at e; cases e; rfl
    have hev : entryPath [] pre = pre := rfl
    cases h1 : treeFor C auto now tvl v pre w with
    | mk r1 w1 =>
      obtain ⟨s1, g1, l1, a1, n1, e1, x1⟩ := treeFor_run hs auto now ht htk v pre h1
      have p1 : Part C auto w w1 (CallKeys auto w tvl us id v pre [] root rv) :=
        ⟨s1, g1.mono fun _ _ _ h => Or.inl ⟨⟨h.1.1, v, rfl, h.1.2⟩, h.2⟩, fun hn j hj _ _ => (l1 hn).content j hj⟩
      cases r1 with
      | error e =>
        rw [M.bind_of_error h1] at h
        cases h
        exact ⟨p1, (fun m e => by cases e), (fun _ _ _ m e => by cases e), (fun _ _ _ _ m e => by cases e),
          fun hn _ => l1 hn⟩
      | ok o =>
        rw [M.bind_of_ok h1] at h
        cases o with
        | none =>
          cases h
          exact ⟨p1, (fun m e => by cases e), (fun _ _ _ m e => by cases e), (fun _ _ _ _ m e => by cases e),
            fun hn _ => l1 hn⟩
        | some dt =>
          simp only at h
          have hva := a1 dt rfl
          have hd1 := hva.el_lt s1.fine
          have htk1 : (w1.heap tvl).kind = .tvl := (g1.grown.kind tvl ht).trans htk
          have huk1 : (w1.heap us).kind = .uuidset := (g1.grown.kind us hu).trans huk
          have hu1 := Nat.lt_of_lt_of_le hu g1.grown.next
          obtain ⟨q1, q2, q3, q4, q5, _⟩ := ownPart_run s1 auto now hu1 huk1 hd1 (hva.treeKind s1 htk1)
            (hva.notList s1 htk1) id v pre hp h
          have hcu : noCreate auto = true ∨ noCreate auto = false := by cases noCreate auto <;> simp
          have hus : ∀ k, k ≠ .ft → look C w.repo.log w.heap [.uuid id, k] [] (.mem us) = .absent →
              look C w1.repo.log w1.heap [.uuid id, k] [] (.mem us) = .absent := by
            intro k hk ha
            have hc := treeFor_case hs.fine auto now ht v pre
            rw [h1] at hc
            cases hc with
            | found _ t _ hl _ _ => rw [← hl.content us hu]; exact ha
            | made w0 hl hm hn ha' hd =>
              rw [hl.content us hu, content_create hl.fine (Obj.new (Body.empty (.mtree .mrr)))
                (Nat.lt_of_lt_of_le hu hl.next)] at ha
              rw [← ha]
              refine (content_edit (C := C) (fun hr => ?_) _ _).symm
              have hsc := (gained_create (hs.loads hl) (formed_empty (.mtree .mrr)) (fun e he => by cases he)
                (fun _ _ => True)).1
              have hu0 := Nat.lt_of_lt_of_le hu hl.next
              have ht0 := Nat.lt_of_lt_of_le ht hl.next
              have ek : ((MM.create (Obj.new (Body.empty (.mtree .mrr))) w0).heap us).kind = .uuidset := by
                rw [create_ne _ _ (show us ≠ w0.next by oomega), hl.kind us hu]; exact huk
              have et : ((MM.create (Obj.new (Body.empty (.mtree .mrr))) w0).heap tvl).kind = .tvl := by
                rw [create_ne _ _ (show tvl ≠ w0.next by oomega), hl.kind tvl ht]; exact htk
              cases hr with
              | refl => rw [ek] at et; cases et
              | step _ c _ hmc hc hr =>
                obtain ⟨e, he, rfl⟩ := List.mem_map.mp hc
                have h6 := hsc.typed us hmc e he
                rw [ek] at h6
                have h7 : ((MM.create (Obj.new (Body.empty (.mtree .mrr))) w0).heap e.2.2).kind = .vlist := by
                  cases hek : e.1 <;> rw [hek] at h6 <;> first | exact absurd h6 (fun h => h) | exact h6
                rcases hsc.typed.below (Or.inl h7) hr with h8 | h8
                · rw [h8, h7] at et; cases et
                · rw [et] at h8; exact absurd h8 (by decide)
          refine ⟨p1.trans q1 ?_, ?_, ?_, ?_, ?_⟩
          · rintro j hj k (h2 | h2 | h2)
            · exact Or.inr (Or.inl ⟨⟨h2.1.1, Or.inl h2.1.2⟩, h2.2⟩)
            · exact Or.inr (Or.inr (Or.inl (by rw [← g1.grown.kind j hj]; exact h2.1)))
            · exact Or.inr (Or.inr (Or.inr ⟨by rw [← g1.grown.kind j hj]; exact h2.1, h2.2⟩))
          · intro m e
            exact ⟨v, dt, rfl, hva.grown q1.gained.grown, q2 m e, fun h => absurd rfl h⟩
          · intro tv htv' ha m e
            rw [htv tv htv'] at ha
            exact ⟨(q3 (x1 dt rfl _ _ ha) m e).1, (q3 (x1 dt rfl _ _ ha) m e).2.2⟩
          · intro tv htv' ha _ m e
            exact q4 (hus _ (by simp) ha) m e
          · intro hn hix
            have hl := l1 hn
            refine hl.trans (q5 hn ?_)
            obtain ⟨hi, _⟩ := hix v rfl
            rcases hi with hi | hi | hi
            · left; rw [← hl.content us hu]; exact hi
            · right; left; intro hh; apply hi; unfold Here at hh ⊢; rw [hl.content us hu]; exact hh
            · right; right
              rw [hl.content tvl ht] at hi
              rw [← hi]
              exact (hva.look hl.fine _ _).symm
  · rw [if_neg hpe] at h
    have hnone : ∀ {a b}, (M.raise .assertion : W (Option ObjId)) w = (a, b) →
        CallResult C auto tvl us id v pre path root rv w a b := by
      intro a b h
      cases h
      exact ⟨(Loads.refl hs.fine).asPart hs _ _, (fun m e => by cases e), (fun _ _ _ m e => by cases e),
        (fun _ _ _ _ m e => by cases e), fun hn _ => Loads.refl hs.fine⟩
    cases root with
    | none => exact hnone h
    | some u =>
      cases rv with
      | none => exact hnone h
      | some rv =>
        simp only at h
        have htv : ∀ tv, treeVersion path v (some rv) = some tv → tv = rv := by
          intro tv e; unfold treeVersion at e; rw [if_neg hpe] at e; cases e; rfl
        have htv' : treeVersion path v (some rv) = some rv := by unfold treeVersion; rw [if_neg hpe]
        have hev : entryPath path pre = metadataPath [[]] := by unfold entryPath; rw [if_neg hpe]
        cases h1 : rootPart C auto now tvl us u rv pre w with
        | mk r1 w1 =>
          obtain ⟨p1, a1, x1, y1, l1, _⟩ := rootPart_run hs auto now ht htk hu huk u rv pre h1
          have g1 := p1.gained
          have s1 := p1.sound
          have hk1 : ∀ j, j < w.next → ∀ k, NewKeys auto w tvl us u rv pre pre j k →
              CallKeys auto w tvl us id v pre path (some u) (some rv) j k := by
            rintro j _ k (h2 | h2 | h2 | h2)
            · exact Or.inl ⟨⟨h2.1.1, rv, htv', h2.1.2⟩, h2.2⟩
            · exact Or.inr (Or.inl ⟨⟨h2.1.1, Or.inr ⟨u, rfl, h2.1.2⟩⟩, h2.2⟩)
            · exact Or.inr (Or.inr (Or.inl h2.1))
            · exact Or.inr (Or.inr (Or.inr h2))
          have p1' : Part C auto w w1 (CallKeys auto w tvl us id v pre path (some u) (some rv)) :=
            ⟨s1, g1.mono hk1, p1.same⟩
          have hl1 : noCreate auto = true → (∀ tv, treeVersion path v (some rv) = some tv →
              Indexed C w tvl us tv pre path id v (entryPath path pre) ∧
              (∀ u', path ≠ [] → some u = some u' → Indexed C w tvl us tv pre [] u' tv pre)) → Loads C w w1 :=
            fun hn hix => l1 hn ((hix rv htv').2 u hpe rfl)
          cases r1 with
          | error e =>
            rw [M.bind_of_error h1] at h
            cases h
            exact ⟨p1', (fun m e => by cases e), (fun _ _ _ m e => by cases e), (fun _ _ _ _ m e => by cases e), hl1⟩
          | ok o =>
            rw [M.bind_of_ok h1] at h
            cases o with
            | none =>
              cases h
              exact ⟨p1', (fun m e => by cases e), (fun _ _ _ m e => by cases e), (fun _ _ _ _ m e => by cases e), hl1⟩
            | some dt =>
              simp only at h
              obtain ⟨hva, m0, hen⟩ := a1 dt rfl
              have hd1 := hva.el_lt s1.fine
              have htk1 : (w1.heap tvl).kind = .tvl := (g1.grown.kind tvl ht).trans htk
              have huk1 : (w1.heap us).kind = .uuidset := (g1.grown.kind us hu).trans huk
              have hu1 := Nat.lt_of_lt_of_le hu g1.grown.next
              obtain ⟨q1, q2, q3, q4, q5, _⟩ := ownPart_run s1 auto now hu1 huk1 hd1 (hva.treeKind s1 htk1)
                (hva.notList s1 htk1) id v (metadataPath [[]]) hp h
              refine ⟨p1'.trans q1 ?_, ?_, ?_, ?_, ?_⟩
              · rintro j hj k (h2 | h2 | h2)
                · exact Or.inr (Or.inl ⟨⟨h2.1.1, Or.inl h2.1.2⟩, h2.2⟩)
                · exact Or.inr (Or.inr (Or.inl (by rw [← g1.grown.kind j hj]; exact h2.1)))
                · exact Or.inr (Or.inr (Or.inr ⟨by rw [← g1.grown.kind j hj]; exact h2.1, h2.2⟩))
              · intro m e
                refine ⟨rv, dt, htv', hva.grown q1.gained.grown, ?_, fun _ => ⟨u, m0, rfl, hen.grown s1.fine q1.gained.grown⟩⟩
                rw [hev]
                exact q2 m e
              · intro tv htv2 ha m e
                rw [htv tv htv2] at ha
                suffices hh : _ from ⟨(q3 hh m e).1, (q3 hh m e).2.2⟩
                obtain ⟨a, b, hab⟩ : ∃ a b, path = a :: b := by
                  cases path with
                  | nil => exact absurd rfl hpe
                  | cons a b => exact ⟨a, b, rfl⟩
                subst hab
                cases b with
                | nil => exact x1 a rootRecordName [] ha dt rfl
                | cons b bs => exact x1 a b (bs ++ [rootRecordName]) ha dt rfl
              · intro tv htv2 ha hne m e
                rw [htv tv htv2, hev] at hne
                rw [hev] at ha ⊢
                refine q4 ?_ m e
                refine Classical.byContradiction fun hh => ?_
                rcases y1 dt rfl id _ hh (by simp) with h2 | h2
                · exact h2 ha
                · injection h2 with e1 e2
                  exact hne hpe (by rw [e1, e2])
              · intro hn hix
                have hl := hl1 hn hix
                refine hl.trans (q5 hn ?_)
                obtain ⟨hi, _⟩ := hix rv htv'
                rw [hev] at hi
                rcases hi with hi | hi | hi
                · left; rw [← hl.content us hu]; exact hi
                · right; left; intro hh; apply hi; unfold Here at hh ⊢; rw [hl.content us hu]; exact hh
                · right; right
                  rw [hl.content tvl ht] at hi
                  rw [← hi]
                  obtain ⟨n, ns, e⟩ := names_ne path
                  rw [e]
                  exact (hva.look hl.fine _ _).symm

/-! ### The same call again -/

theorem readIn_mapped {i : ObjId} {w : World} (hm : (w.heap i).mapped = true) : readIn C i w = (.ok (), w) := by
  unfold readIn
  rw [M.bind_of_ok (getObj_run i w), if_pos hm]
  rfl

theorem listFor_at {w : World} (hs : Fine C w) (auto : Option Bool) {us vl : ObjId} {u : Uuid} (h : ListAt w us u vl)
    (hm : (w.heap vl).mapped = true) : listFor C auto us u w = (.ok (some vl), w) := by
  have hu : ∃ l, uuids C us w = (.ok l, w) := by
    unfold uuids
    rw [M.bind_of_ok (ensureMapped_mapped h.mapped), M.bind_of_ok (getObj_run us w)]
    exact ⟨_, rfl⟩
  obtain ⟨l, hl⟩ := hu
  unfold listFor
  rw [M.bind_of_ok hl, if_pos (((C34_list hs h.lt hl).2.1 u).mpr (h.here hs))]
  obtain ⟨t, ht⟩ := h.part
  have hg : getVersionList C us u w = (.ok vl, w) := by
    unfold getVersionList
    rw [M.bind_of_ok (ensureMapped_mapped h.mapped), M.bind_of_ok (getObj_run us w), ht]
    simp only
    rw [M.bind_of_ok (readIn_mapped hm)]
    rfl
  rw [M.bind_of_ok hg]
  rfl

theorem verPaths_at {w : World} {i : ObjId} (hm : (w.heap i).mapped = true) :
    ∃ l, versionsAndPaths C i w = (.ok l, w) := by
  unfold versionsAndPaths
  rw [M.bind_of_ok (ensureMapped_mapped hm), M.bind_of_ok (getObj_run i w)]
  exact ⟨_, rfl⟩

theorem treeFor_at {w : World} (hs : Fine C w) (auto : Option Bool) (now : Str) {tvl dt : ObjId} {v : Str} {p : PPath}
    (h : VerAt w tvl v p dt) (hm : (w.heap dt).mapped = true) :
    treeFor C auto now tvl v p w = (.ok (some dt), w) := by
  obtain ⟨l, hl⟩ := verPaths_at (C := C) h.mapped
  unfold treeFor
  rw [M.bind_of_ok hl, if_pos (((C32_list hs h.lt hl).2.1 v p).mpr (h.here hs))]
  obtain ⟨t, ht⟩ := h.part
  have hg : getVersioned C tvl v p w = (.ok (t, p, dt), w) := by
    unfold getVersioned
    rw [M.bind_of_ok (ensureMapped_mapped h.mapped), M.bind_of_ok (getObj_run tvl w), ht]
    simp only
    rw [M.bind_of_ok (readIn_mapped hm)]
    rfl
  rw [M.bind_of_ok hg]
  rfl

theorem entryFor_at {w : World} (hs : Fine C w) {vl y : ObjId} {v : Str} {p : PPath} (h : VerAt w vl v p y) (now : Str)
    (x : ObjId) : entryFor C vl v now p x w = (.ok (), w) := by
  obtain ⟨l, hl⟩ := verPaths_at (C := C) h.mapped
  unfold entryFor
  rw [M.bind_of_ok hl, if_pos (((C32_list hs h.lt hl).2.1 v p).mpr (h.here hs))]
  rfl

theorem recordFor_at {w : World} (hs : Fine C w) (auto : Option Bool) {dt m : ObjId} {path : List Str}
    (h : RecordAt w dt path m) (id : Uuid) (v : Str) : recordFor C auto dt path id v w = (.ok (some m), w) := by
  have hg : getObjectAt C (path ++ [rootRecordName]) dt w = (.ok (some m), w) := getObjectAt_leads hs.plain h.leads
  have hh : hasDataset C dt path w = (.ok true, w) := by
    unfold hasDataset
    rw [M.bind_of_ok hg]; rfl
  unfold recordFor
  rw [M.bind_of_ok (getObj_run dt w), if_neg (by simp [h.tree]), M.bind_of_ok hh, if_pos rfl]
  unfold getRootRecord
  rw [M.bind_of_ok hg]
  simp only
  rw [M.bind_of_ok (getObj_run m w), decide_eq_true h.kind, M.bind_of_ok (M.assert_true w),
    M.bind_of_ok (ensureMapped_mapped h.mapped)]
  rfl

theorem RecordAt.dtMapped {w : World} {dt m : ObjId} {path : List Str} (h : RecordAt w dt path m) :
    (w.heap dt).mapped = true := by
  obtain ⟨n, ns, e⟩ := names_ne path
  have hl := h.leads
  rw [e] at hl
  cases hl with
  | cons _ _ hm _ _ => exact hm

theorem ownPart_at {w : World} (hs : Fine C w) (auto : Option Bool) (now : Str) {us dt m : ObjId} {id : Uuid}
    {v : Str} {p : PPath} {path : List Str} (h : Entered w us id v p dt path m) :
    ownPart C auto now us dt id v p path w = (.ok (some m), w) := by
  obtain ⟨vl, y, h1, h2⟩ := h.entry
  unfold ownPart
  rw [M.bind_of_ok (listFor_at hs auto h1 h2.mapped)]
  simp only
  rw [M.bind_of_ok (recordFor_at hs auto h.record id v)]
  simp only
  rw [M.bind_of_ok (entryFor_at hs h2 now m)]
  rfl

theorem rootRecord_at {w : World} (hs : Fine C w) (auto : Option Bool) (now : Str) {tvl us : ObjId} {id : Uuid}
    {v : Str} {pre : PPath} {path : List Str} {root : Option Uuid} {rv : Option Str} {m : ObjId}
    (h : Done w tvl us id v pre path root rv m) :
    rootRecord C auto now tvl us id v pre path root rv w = (.ok (some m), w) := by
  obtain ⟨tv, dt, h1, h2, h3, h4⟩ := h
  unfold rootRecord
  unfold treeVersion at h1
  unfold entryPath at h3
  by_cases hp : path = []
  · rw [if_pos hp] at h1 h3 ⊢
    cases h1
    rw [M.bind_of_ok (treeFor_at hs auto now h2 h3.record.dtMapped)]
    exact ownPart_at hs auto now h3
  · rw [if_neg hp] at h1 h3 ⊢
    obtain ⟨u, m0, e1, h5⟩ := h4 hp
    subst e1 h1
    simp only
    have hroot : rootPart C auto now tvl us u tv pre w = (.ok (some dt), w) := by
      obtain ⟨vl, y, q1, q2⟩ := h5.entry
      unfold rootPart
      rw [M.bind_of_ok (listFor_at hs auto q1 q2.mapped)]
      simp only
      rw [M.bind_of_ok (treeFor_at hs auto now h2 h5.record.dtMapped)]
      simp only
      rw [M.bind_of_ok (recordFor_at hs auto h5.record u tv)]
      simp only
      rw [M.bind_of_ok (entryFor_at hs q2 now m0)]
      rfl
    rw [M.bind_of_ok hroot]
    exact ownPart_at hs auto now h3

/-! ### When git does not fail -/

/-- The class of what is found is the class of the object. -/
theorem look_class {w : World} (hs : Fine C w) (hf : w.repo.faults = []) {i : ObjId} (hi : i < w.next) (t : Str) :
    ∃ d b, look C w.repo.log w.heap [] t (.mem i) = .found t d b ∧ d.kind = (w.heap i).kind := by
  obtain ⟨b, w1, h1, _⟩ := hs.loads hf i
  obtain ⟨hl, hm⟩ := hs.loaded hi h1
  rw [hl.content i hi, look_nil t (view_mapped hm)]
  exact ⟨_, _, rfl, by rw [Body.map_data]; exact hl.kind i hi⟩

theorem listFor_total {w : World} (hs : Fine C w) (hf : w.repo.faults = []) (auto : Option Bool) {us : ObjId}
    (hu : us < w.next) (u : Uuid) : ∃ o w', listFor C auto us u w = (.ok o, w') ∧ w'.repo = w.repo := by
  obtain ⟨b, w1, h1, hr⟩ := hs.loads hf us
  obtain ⟨hl, hm⟩ := hs.loaded hu h1
  have hl1 : ∃ l, uuids C us w = (.ok l, w1) := by
    unfold uuids
    rw [M.bind_of_ok h1, M.bind_of_ok (getObj_run us w1)]
    exact ⟨_, rfl⟩
  obtain ⟨l, hl1⟩ := hl1
  unfold listFor
  rw [M.bind_of_ok hl1]
  by_cases hin : u ∈ l
  · rw [if_pos hin]
    have hne := ((C34_list hs hu hl1).2.1 u).mp hin
    rw [hl.content us hu] at hne
    obtain ⟨y, hy⟩ := (look_entry hl.fine hm (by simp)).mp hne
    have hd := dget_of_mem (hl.fine.formed us hm).keys hy
    obtain ⟨w2, h2, hr2⟩ := hl.fine.readTotal (by rw [hr]; exact hf) y.2
    have hg : getVersionList C us u w1 = (.ok y.2, w2) := by
      unfold getVersionList
      rw [M.bind_of_ok (ensureMapped_mapped hm), M.bind_of_ok (getObj_run us w1), hd]
      simp only
      rw [M.bind_of_ok h2]
      rfl
    rw [M.bind_of_ok hg]
    exact ⟨_, _, rfl, hr2.trans hr⟩
  · rw [if_neg hin]
    by_cases hc : noCreate auto = true
    · rw [if_pos hc]; exact ⟨_, _, rfl, hr⟩
    · rw [if_neg hc, M.bind_of_ok (alloc_run _ w1), M.bind_of_ok (setVersionList_run ..)]
      exact ⟨_, _, rfl, hr⟩

theorem treeFor_total {w : World} (hs : Fine C w) (hf : w.repo.faults = []) (auto : Option Bool) (now : Str)
    {tvl : ObjId} (hu : tvl < w.next) (v : Str) (p : PPath) :
    ∃ o w', treeFor C auto now tvl v p w = (.ok o, w') ∧ w'.repo = w.repo := by
  obtain ⟨b, w1, h1, hr⟩ := hs.loads hf tvl
  obtain ⟨hl, hm⟩ := hs.loaded hu h1
  have hl1 : ∃ l, versionsAndPaths C tvl w = (.ok l, w1) := by
    unfold versionsAndPaths
    rw [M.bind_of_ok h1, M.bind_of_ok (getObj_run tvl w1)]
    exact ⟨_, rfl⟩
  obtain ⟨l, hl1⟩ := hl1
  unfold treeFor
  rw [M.bind_of_ok hl1]
  by_cases hin : (v, p) ∈ l
  · rw [if_pos hin]
    have hne := ((C32_list hs hu hl1).2.1 v p).mp hin
    rw [hl.content tvl hu] at hne
    obtain ⟨y, hy⟩ := (look_entry hl.fine hm (by simp)).mp hne
    have hd := dget_of_mem (hl.fine.formed tvl hm).keys hy
    obtain ⟨w2, h2, hr2⟩ := hl.fine.readTotal (by rw [hr]; exact hf) y.2
    have hg : getVersioned C tvl v p w1 = (.ok (y.1, p, y.2), w2) := by
      unfold getVersioned
      rw [M.bind_of_ok (ensureMapped_mapped hm), M.bind_of_ok (getObj_run tvl w1), hd]
      simp only
      rw [M.bind_of_ok h2]
      rfl
    rw [M.bind_of_ok hg]
    exact ⟨_, _, rfl, hr2.trans hr⟩
  · rw [if_neg hin]
    by_cases hc : noCreate auto = true
    · rw [if_pos hc]; exact ⟨_, _, rfl, hr⟩
    · rw [if_neg hc, M.bind_of_ok (alloc_run _ w1)]
      have hne : tvl ≠ w1.next := by have := Nat.lt_of_lt_of_le hu hl.next; oomega
      have h5 : (MM.create (Obj.new (Body.empty (.mtree .mrr))) w1).heap tvl = w1.heap tvl := create_ne _ _ hne
      have hset : ∃ w3, setVersioned C tvl v now p w1.next (MM.create (Obj.new (Body.empty (.mtree .mrr))) w1) =
          (.ok (), w3) ∧ w3.repo = w1.repo := by
        unfold setVersioned
        rw [M.bind_of_ok (ensureMapped_mapped (by rw [h5]; exact hm)), M.bind_of_ok (getObj_run tvl _), change_run]
        exact ⟨_, rfl, rfl⟩
      obtain ⟨w3, hset, hr3⟩ := hset
      rw [M.bind_of_ok hset]
      exact ⟨_, _, rfl, hr3.trans hr⟩

theorem entryFor_total {w : World} (hs : Fine C w) (hf : w.repo.faults = []) {vl : ObjId} (hu : vl < w.next)
    (v now : Str) (p : PPath) (x : ObjId) : ∃ w', entryFor C vl v now p x w = (.ok (), w') ∧ w'.repo = w.repo := by
  obtain ⟨b, w1, h1, hr⟩ := hs.loads hf vl
  obtain ⟨hl, hm⟩ := hs.loaded hu h1
  have hl1 : ∃ l, versionsAndPaths C vl w = (.ok l, w1) := by
    unfold versionsAndPaths
    rw [M.bind_of_ok h1, M.bind_of_ok (getObj_run vl w1)]
    exact ⟨_, rfl⟩
  obtain ⟨l, hl1⟩ := hl1
  unfold entryFor
  rw [M.bind_of_ok hl1]
  by_cases hin : (v, p) ∈ l
  · rw [if_pos hin]; exact ⟨_, rfl, hr⟩
  · rw [if_neg hin]
    unfold setVersioned
    rw [M.bind_of_ok (ensureMapped_mapped hm), M.bind_of_ok (getObj_run vl w1), change_run]
    exact ⟨_, rfl, hr⟩

theorem recordFor_total {w : World} (hs : Fine C w) (hf : w.repo.faults = []) {auto : Option Bool}
    (hn : noCreate auto = true) {dt : ObjId} (hd : dt < w.next) {path : List Str} (id : Uuid) (v : Str)
    (hk : (w.heap dt).kind.isMtree = true)
    (hc : ∀ s d b, look C w.repo.log w.heap (names (path ++ [rootRecordName])) [] (.mem dt) = .found s d b →
      d.kind = .mrr) :
    ∃ o w', recordFor C auto dt path id v w = (.ok o, w') ∧ w'.repo = w.repo := by
  obtain ⟨o, w1, h1, hr⟩ := getObjectAt_total (C := C) (path ++ [rootRecordName]) hs hf hd
  have hst := getObjectAt_any (C := C) (path ++ [rootRecordName]) hs hd
  rw [h1] at hst
  have hh : hasDataset C dt path w = (.ok o.isSome, w1) := by
    unfold hasDataset
    rw [M.bind_of_ok h1]; rfl
  unfold recordFor
  rw [M.bind_of_ok (getObj_run dt w), if_neg (by simp [hk]), M.bind_of_ok hh]
  cases o with
  | none => rw [if_neg (by simp), if_pos hn]; exact ⟨_, _, rfl, hr⟩
  | some m =>
    rw [if_pos (show (some m).isSome = true from rfl)]
    obtain ⟨hlead, hm⟩ := getObjectAt_some _ hs hd h1
    have hg : getObjectAt C (path ++ [rootRecordName]) dt w1 = (.ok (some m), w1) :=
      getObjectAt_leads hst.fine.plain hlead
    have hf1 : w1.repo.faults = [] := by rw [hr]; exact hf
    obtain ⟨d, b, h2, h3⟩ := look_class hst.fine hf1 hm []
    have h4 := hlead.look (C := C) (L := w1.repo.log) hst.fine.plain []
    rw [List.append_nil, ← hst.content dt hd, h2] at h4
    have hmk : (w1.heap m).kind = .mrr := by rw [← h3]; exact hc _ _ _ h4
    unfold getRootRecord
    rw [M.bind_of_ok hg]
    simp only
    rw [M.bind_of_ok (getObj_run m w1), decide_eq_true hmk, M.bind_of_ok (M.assert_true w1)]
    obtain ⟨b2, w2, h5, hr2⟩ := hst.fine.loads hf1 m
    rw [M.bind_of_ok h5]
    exact ⟨_, _, rfl, hr2.trans hr⟩

theorem ownPart_total {w : World} (hs : Sound C w) (hf : w.repo.faults = []) {auto : Option Bool}
    (hn : noCreate auto = true) (now : Str) {us dt : ObjId} (hu : us < w.next) (huk : (w.heap us).kind = .uuidset)
    (hd : dt < w.next) {path : List Str} (hp : ∀ n ∈ path, CompOk n) (id : Uuid) (v : Str) (p : PPath)
    (hk : (w.heap dt).kind = .mtree .mrr)
    (hc : ∀ s d b, look C w.repo.log w.heap (names (path ++ [rootRecordName])) [] (.mem dt) = .found s d b →
      d.kind = .mrr) :
    ∃ o w', ownPart C auto now us dt id v p path w = (.ok o, w') ∧ w'.repo = w.repo := by
  unfold ownPart
  obtain ⟨o, w1, h1, hr1⟩ := listFor_total hs.fine hf auto hu id
  obtain ⟨s1, g1, l1, a1, _⟩ := listFor_run hs auto hu huk id h1
  rw [M.bind_of_ok h1]
  cases o with
  | none => exact ⟨_, _, rfl, hr1⟩
  | some vl =>
    simp only
    have hl := l1 hn
    have hf1 : w1.repo.faults = [] := by rw [hr1]; exact hf
    have hd1 := Nat.lt_of_lt_of_le hd hl.next
    have hk1 : (w1.heap dt).kind = .mtree .mrr := (hl.kind dt hd).trans hk
    obtain ⟨o, w2, h2, hr2⟩ := recordFor_total s1.fine hf1 hn hd1 (path := path) id v (by rw [hk1]; rfl)
      (by rw [← hl.content dt hd]; exact hc)
    obtain ⟨s2, g2, _, a2, _⟩ := recordFor_run s1 auto hd1 (fun _ => hk1) hp id v h2
    rw [M.bind_of_ok h2]
    cases o with
    | none => exact ⟨_, _, rfl, hr2.trans hr1⟩
    | some m =>
      simp only
      obtain ⟨w3, h3, hr3⟩ := entryFor_total s2.fine (by rw [hr2]; exact hf1)
        (((a1 vl rfl).grown g2.grown).vl_lt s2.fine) v now p m
      rw [M.bind_of_ok h3]
      exact ⟨_, _, rfl, (hr3.trans hr2).trans hr1⟩

/-- With sound classes, and when git does not fail, a call without auto-create does not fail. -/
theorem rootRecord_total {w : World} (hs : Sound C w) (hf : w.repo.faults = []) {auto : Option Bool}
    (hn : noCreate auto = true) (now : Str) {tvl us : ObjId}
    (ht : tvl < w.next) (htk : (w.heap tvl).kind = .tvl) (hu : us < w.next)
    (huk : (w.heap us).kind = .uuidset) (id : Uuid) (v : Str) (pre : PPath) {path : List Str}
    (hp : ∀ n ∈ path, CompOk n) {root : Option Uuid} {rv : Option Str}
    (hroot : path ≠ [] → root ≠ none ∧ rv ≠ none)
    (htree : ∀ tv, treeVersion path v rv = some tv → ∀ s d b,
      look C w.repo.log w.heap [.ver tv pre] [] (.mem tvl) = .found s d b → d.kind = .mtree .mrr)
    (hrec : ∀ tv, treeVersion path v rv = some tv → ∀ q, q = path ∨ q = [] → ∀ s d b,
      look C w.repo.log w.heap (.ver tv pre :: names (q ++ [rootRecordName])) [] (.mem tvl) = .found s d b →
      d.kind = .mrr) :
    ∃ o w', rootRecord C auto now tvl us id v pre path root rv w = (.ok o, w') := by
  have hdt : ∀ {w1 : World} {tv : Str} {dt : ObjId}, treeVersion path v rv = some tv →
      SameContent C w.repo.log w.heap (.mem tvl) w1.repo.log w1.heap (.mem tvl) → Fine C w1 → w1.repo.faults = [] →
      VerAt w1 tvl tv pre dt → (w1.heap dt).kind = .mtree .mrr ∧
      ∀ q, q = path ∨ q = [] → ∀ s d b, look C w1.repo.log w1.heap (names (q ++ [rootRecordName])) [] (.mem dt) =
        .found s d b → d.kind = .mrr := by
    intro w1 tv dt htv hc hf1 hfl hva
    have hd1 := hva.el_lt hf1
    refine ⟨?_, ?_⟩
    · obtain ⟨t, hpart⟩ := hva.part
      obtain ⟨d, b, h2, h3⟩ := look_class hf1 hfl hd1 t
      rw [← h3]
      refine htree tv htv t d b ?_
      rw [hc, look_part hva.mapped hpart (by simp)]
      exact h2
    · intro q hq s d b h4
      refine hrec tv htv q hq s d b ?_
      rw [hc]
      obtain ⟨n, ns, e⟩ := names_ne q
      rw [e] at h4 ⊢
      rw [hva.look hf1]
      exact h4
  unfold rootRecord
  by_cases hpe : path = []
  · have htv : treeVersion path v rv = some v := by unfold treeVersion; rw [if_pos hpe]
    rw [if_pos hpe]
    obtain ⟨o, w1, h1, hr1⟩ := treeFor_total hs.fine hf auto now ht v pre
    obtain ⟨s1, g1, l1, a1, _⟩ := treeFor_run hs auto now ht htk v pre h1
    rw [M.bind_of_ok h1]
    cases o with
    | none => exact ⟨_, _, rfl⟩
    | some dt =>
      simp only
      have hl := l1 hn
      have hva := a1 dt rfl
      have hf1 : w1.repo.faults = [] := by rw [hr1]; exact hf
      obtain ⟨hk, hc⟩ := hdt htv (hl.content tvl ht) s1.fine hf1 hva
      obtain ⟨o, w2, h2, _⟩ := ownPart_total s1 hf1 hn now (Nat.lt_of_lt_of_le hu hl.next)
        ((hl.kind us hu).trans huk) (hva.el_lt s1.fine) hp id v pre hk (hc path (Or.inl rfl))
      exact ⟨o, w2, h2⟩
  · rw [if_neg hpe]
    obtain ⟨h1, h2⟩ := hroot hpe
    cases root with
    | none => exact absurd rfl h1
    | some u =>
      cases rv with
      | none => exact absurd rfl h2
      | some rv =>
        simp only
        have htv : treeVersion path v (some rv) = some rv := by unfold treeVersion; rw [if_neg hpe]
        have key : ∃ o w', rootPart C auto now tvl us u rv pre w = (.ok o, w') ∧ w'.repo = w.repo := by
          unfold rootPart
          obtain ⟨o, w1, h1, hr1⟩ := listFor_total hs.fine hf auto hu u
          obtain ⟨s1, g1, l1, a1, _⟩ := listFor_run hs auto hu huk u h1
          rw [M.bind_of_ok h1]
          cases o with
          | none => exact ⟨_, _, rfl, hr1⟩
          | some vl =>
            simp only
            have hl := l1 hn
            have hf1 : w1.repo.faults = [] := by rw [hr1]; exact hf
            have ht1 := Nat.lt_of_lt_of_le ht hl.next
            have htk1 := (hl.kind tvl ht).trans htk
            obtain ⟨o, w2, h2, hr2⟩ := treeFor_total s1.fine hf1 auto now ht1 rv pre
            obtain ⟨s2, g2, l2, a2, _⟩ := treeFor_run s1 auto now ht1 htk1 rv pre h2
            rw [M.bind_of_ok h2]
            cases o with
            | none => exact ⟨_, _, rfl, hr2.trans hr1⟩
            | some dt =>
              simp only
              have hl2 := hl.trans (l2 hn)
              have hva := a2 dt rfl
              have hd2 := hva.el_lt s2.fine
              have hf2 : w2.repo.faults = [] := by rw [hr2]; exact hf1
              obtain ⟨hk, hc⟩ := hdt htv (hl2.content tvl ht) s2.fine hf2 hva
              obtain ⟨o, w3, h3, hr3⟩ := recordFor_total s2.fine hf2 hn hd2 (path := []) u rv (by rw [hk]; rfl)
                (hc [] (Or.inr rfl))
              obtain ⟨s3, g3, _⟩ := recordFor_run s2 auto hd2 (fun _ => hk) (by simp) u rv h3
              rw [M.bind_of_ok h3]
              cases o with
              | none => exact ⟨_, _, rfl, (hr3.trans hr2).trans hr1⟩
              | some m =>
                simp only
                obtain ⟨w4, h4, hr4⟩ := entryFor_total s3.fine (by rw [hr3]; exact hf2)
                  (((a1 vl rfl).grown (g2.grown.trans g3.grown)).vl_lt s3.fine) rv now pre m
                rw [M.bind_of_ok h4]
                exact ⟨_, _, rfl, ((hr4.trans hr3).trans hr2).trans hr1⟩
        obtain ⟨o, w1, h1, hr1⟩ := key
        obtain ⟨p1, a1, _⟩ := rootPart_run hs auto now ht htk hu huk u rv pre h1
        rw [M.bind_of_ok h1]
        cases o with
        | none => exact ⟨_, _, rfl⟩
        | some dt =>
          simp only
          obtain ⟨hva, _⟩ := a1 dt rfl
          have hf1 : w1.repo.faults = [] := by rw [hr1]; exact hf
          obtain ⟨hk, hc⟩ := hdt htv (p1.same hn tvl ht (by rw [htk]; simp) (by rw [htk]; simp)) p1.sound.fine hf1 hva
          obtain ⟨o, w2, h2, _⟩ := ownPart_total p1.sound hf1 hn now (Nat.lt_of_lt_of_le hu p1.gained.grown.next)
            ((p1.gained.grown.kind us hu).trans huk) (hva.el_lt p1.sound.fine) hp id v (metadataPath [[]]) hk
            (hc path (Or.inl rfl))
          exact ⟨o, w2, h2⟩

end MM
