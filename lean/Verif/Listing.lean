/-
Listing the elements of a tree (`get_paths_recursive`).
-/
import Verif.Visit

namespace MM

variable {C : Cfg}

/-! ### What is done on the way -/

theorem forEach_visits {α β : Type} {f : α → W β} (l : List α) : ∀ {w : World}, Fine C w →
    (∀ a ∈ l, ∀ w1, Tour C w w1 → Tour C w1 (f a w1).2) → Tour C w (M.forEach f l w).2 := by
  induction l with
  | nil => intro w hs _; exact Tour.refl hs
  | cons a l ih =>
    intro w hs hf
    rw [M.forEach_cons]
    have h1 := hf a (List.mem_cons_self ..) w (Tour.refl hs)
    cases hp : f a w with
    | mk r w1 =>
      rw [hp] at h1
      cases r with
      | error e => rw [M.bind_of_error hp]; exact h1
      | ok b =>
        rw [M.bind_of_ok hp]
        have h2 := ih h1.loads.fine (fun x hx w2 hv => hf x (List.mem_cons_of_mem _ hx) w2 (h1.trans hv))
        cases hq : M.forEach f l w1 with
        | mk r2 w2 =>
          rw [hq] at h2
          cases r2 with
          | error e => rw [M.bind_of_error hq]; exact h1.trans h2
          | ok bs => rw [M.bind_of_ok hq]; exact h1.trans h2

theorem withMapped_visits {α : Type} {x : W α} {n : Nat} {i : ObjId} {w : World} (hs : Fine C w)
    (hi : i < w.next)
    (hx : ∀ w1, Tour C w w1 → (w1.heap i).mapped = true → Tour C w1 (x w1).2) :
    Tour C w (withMapped C n i x w).2 := by
  unfold withMapped
  have hstep := hs.visitsStep hi
  rcases hs.ensure hi with ⟨hm, h⟩ | ⟨e, w', h, h1, h2, h3, h4⟩ | ⟨w1, h, ho⟩
  · rw [M.bind_of_ok h]
    exact hx w (Tour.refl hs) hm
  · rw [M.bind_of_error h]; rw [h] at hstep; exact hstep
  · rw [h] at hstep
    rw [M.bind_of_ok h]
    have h2 := hx w1 hstep ho.mapped
    simp only [if_true]
    unfold M.finally_
    cases hxx : x w1 with
    | mk r w2 =>
      rw [hxx] at h2
      have hv := hstep.trans h2
      have h3 := (hv.purge n i w2 (Nat.lt_of_lt_of_le hi hv.loads.next) (Or.inr ho.was)).1
      simp only
      cases hp : MM.purge n i w2 with
      | mk r3 w3 =>
        rw [hp] at h3
        cases r3 <;> exact h3.visits

theorem kidPaths_visits {rec : ObjId → W (List (PPath × ObjId))} {w : World} (hs : Fine C w)
    {e : Key × (Str × ObjId)}
    (hrec : (w.heap e.2.2).kind.isMtree = true → Tour C w (rec e.2.2 w).2) :
    Tour C w (kidPaths rec e w).2 := by
  unfold kidPaths
  rw [M.bind_of_ok (getObj_run _ w)]
  by_cases hk : (w.heap e.2.2).kind.isMtree = true
  · rw [if_pos hk]
    have h3 := hrec hk
    cases hp : rec e.2.2 w with
    | mk r w3 =>
      rw [hp] at h3
      cases r with
      | error e => rw [M.bind_of_error hp]; exact h3
      | ok b => rw [M.bind_of_ok hp]; exact h3
  · rw [if_neg hk]; exact Tour.refl hs

theorem listKids_visits {rec : ObjId → W (List (PPath × ObjId))} {w : World} (hs : Fine C w)
    {i : ObjId} (hm : (w.heap i).mapped = true)
    (hrec : ∀ j w1, Tour C w w1 → j < w1.next → Tour C w1 (rec j w1).2) :
    Tour C w (listKids rec i w).2 := by
  unfold listKids
  rw [M.bind_of_ok (getObj_run i w)]
  have := forEach_visits (C := C) (f := kidPaths rec) (w.heap i).body.kids hs (by
    intro e he w1 hv
    have hlt : e.2.2 < w1.next := Nat.lt_of_lt_of_le
      (hs.kids i hm e.2.2 (List.mem_map_of_mem he)) hv.loads.next
    exact kidPaths_visits hv.loads.fine fun _ => hrec _ w1 hv hlt)
  cases hp : M.forEach (kidPaths rec) (w.heap i).body.kids w with
  | mk r w3 =>
    rw [hp] at this
    cases r with
    | error e => rw [M.bind_of_error hp]; exact this
    | ok b => rw [M.bind_of_ok hp]; exact this

theorem getPaths_visits (sn : Bool) (n : Nat) : ∀ {w : World}, Fine C w → ∀ {i : ObjId}, i < w.next →
    Tour C w (getPaths C sn n i w).2 := by
  induction n with
  | zero => intro w hs i _; exact Tour.refl hs
  | succ n ih =>
    intro w hs i hi
    have hv := withMapped_visits (C := C) (n := n) (x := listKids (getPaths C sn n) i) hs hi
      (fun w1 hv1 hm1 => listKids_visits hv1.loads.fine hm1 (fun j w2 hv2 hj => ih hv2.loads.fine hj))
    unfold getPaths
    cases hp : withMapped C n i (listKids (getPaths C sn n) i) w with
    | mk r w3 =>
      rw [hp] at hv
      cases r with
      | error e => rw [M.bind_of_error hp]; exact hv
      | ok b => rw [M.bind_of_ok hp]; exact hv

/-! ### What stays loaded -/

/-- Nothing stays loaded that was not loaded before. -/
def Restored (w w' : World) : Prop :=
  ∀ j, j < w'.next → (w'.heap j).mapped = true → j < w.next ∧ (w.heap j).mapped = true

theorem Restored.refl (w : World) : Restored w w := fun _ h1 h2 => ⟨h1, h2⟩

theorem Restored.trans {a b c : World} (h : Restored a b) (h' : Restored b c) : Restored a c :=
  fun j h1 h2 => let ⟨g1, g2⟩ := h' j h1 h2; h j g1 g2

theorem forEach_restored {α β : Type} {f : α → W β} (l : List α) : ∀ {w w' : World} {bs : List β}, Fine C w →
    (∀ a ∈ l, ∀ w1 b w2, Tour C w w1 → f a w1 = (.ok b, w2) → Tour C w1 w2 ∧ Restored w1 w2) →
    M.forEach f l w = (.ok bs, w') → Restored w w' := by
  induction l with
  | nil => intro w w' bs hs _ h; cases h; exact Restored.refl _
  | cons a l ih =>
    intro w w' bs hs hf h
    rw [M.forEach_cons] at h
    obtain ⟨b, w1, h1, h⟩ := M.bind_ok h
    obtain ⟨cs, w2, h2, h⟩ := M.bind_ok h
    cases h
    obtain ⟨g1, g2⟩ := hf a (List.mem_cons_self ..) w b w1 (Tour.refl hs) h1
    refine g2.trans (ih g1.loads.fine ?_ h2)
    intro x hx w3 b3 w4 hv
    exact hf x (List.mem_cons_of_mem _ hx) w3 b3 w4 (g1.trans hv)

theorem finally_ok {α : Type} {x : W α} {y : W Unit} {w w' : World} {a : α}
    (h : M.finally_ x y w = (.ok a, w')) : ∃ w1, x w = (.ok a, w1) ∧ y w1 = (.ok (), w') := by
  unfold M.finally_ at h
  cases hx : x w with
  | mk r w1 =>
    rw [hx] at h
    simp only at h
    cases hy : y w1 with
    | mk r2 w2 =>
      rw [hy] at h
      cases r2 with
      | error e => cases h
      | ok u => cases h; exact ⟨w1, rfl, hy⟩

/-- How `with ensure_mapped(...)` ends if it succeeds. -/
theorem withMapped_ok {α : Type} {x : W α} {n : Nat} {i : ObjId} {w w' : World} (hs : Fine C w)
    (hi : i < w.next) {a : α} (h : withMapped C n i x w = (.ok a, w'))
    (hx : ∀ w1 w2, Tour C w w1 → (w1.heap i).mapped = true → x w1 = (.ok a, w2) →
      Tour C w1 w2 ∧ Restored w1 w2) :
    ∃ w1 w2, Tour C w w1 ∧ (w1.heap i).mapped = true ∧ x w1 = (.ok a, w2) ∧ Tour C w1 w2 ∧
      Leaves C w w2 w' ∧ Restored w w' := by
  unfold withMapped at h
  have hstep := hs.visitsStep hi
  rcases hs.ensure hi with ⟨hm, h'⟩ | ⟨e, w1, h', h1, h2, h3, h4⟩ | ⟨w1, h', ho⟩
  · rw [M.bind_of_ok h'] at h
    simp only [Bool.false_eq_true, if_false] at h
    obtain ⟨g1, g2⟩ := hx w w' (Tour.refl hs) hm h
    exact ⟨w, w', Tour.refl hs, hm, h, g1, Leaves.refl g1, g2⟩
  · rw [M.bind_of_error h'] at h; cases h
  · rw [h'] at hstep
    rw [M.bind_of_ok h'] at h
    simp only [if_true] at h
    obtain ⟨w2, h1, h2⟩ := finally_ok h
    obtain ⟨g1, g2⟩ := hx w1 w2 hstep ho.mapped h1
    have hv := hstep.trans g1
    obtain ⟨g3, g4⟩ := hv.purge n i w2 (Nat.lt_of_lt_of_le hi hv.loads.next) (Or.inr ho.was)
    rw [h2] at g3 g4
    refine ⟨w1, w2, hstep, ho.mapped, h1, g1, g3, ?_⟩
    intro j hj hmj
    rw [g3.unloads.next] at hj
    obtain ⟨e1, e2⟩ := g2 j hj (g3.unloads.mapped j hmj).1
    by_cases hji : j = i
    · subst hji; rw [g4 rfl] at hmj; cases hmj
    · by_cases hlt : j < w.next
      · rw [ho.old j hji hlt] at e2; exact ⟨hlt, e2⟩
      · rw [ho.fresh j (Nat.not_lt.mp hlt) e1] at e2; cases e2

/-! ### What is listed -/

/-- A list of the elements of a tree. -/
structure Listed (C : Cfg) (sn : Bool) (w : World) (i : ObjId) (w' : World)
    (l : List (PPath × ObjId)) : Prop where
  paths : ∀ e ∈ l, e.1.root = [] ∧ ∀ n ∈ e.1.comps, CompOk n
  nodup : (l.map Prod.fst).Nodup
  sound : ∀ e ∈ l, e.2 < w'.next ∧ (sn = true ∨ (w'.heap e.2).kind.isMtree = false) ∧
    ∀ ks, look C w.repo.log w.heap (names e.1.comps ++ ks) [] (.mem i) =
      look C w'.repo.log w'.heap ks [] (.mem e.2)
  complete : ∀ q d b, look C w.repo.log w.heap (names q) [] (.mem i) = .found [] d b →
    sn = true ∨ d.kind.isMtree = false → ⟨[], q⟩ ∈ l.map Prod.fst

/-- All names in a tree are ordinary. -/
def GoodNames (C : Cfg) (w : World) (i : ObjId) : Prop :=
  ∀ q d b, look C w.repo.log w.heap (names q) [] (.mem i) = .found [] d b → ∀ n ∈ q, CompOk n

theorem Listed.mono {sn : Bool} {w w1 w2 w3 : World} {i : ObjId} {l : List (PPath × ObjId)}
    (h : Listed C sn w1 i w2 l) (h1 : SameContent C w.repo.log w.heap (.mem i) w1.repo.log w1.heap (.mem i))
    (hn : w2.next ≤ w3.next) (hk : ∀ j, j < w2.next → (w3.heap j).kind = (w2.heap j).kind)
    (h3 : ∀ j, j < w2.next → SameContent C w2.repo.log w2.heap (.mem j) w3.repo.log w3.heap (.mem j)) :
    Listed C sn w i w3 l := by
  refine ⟨h.paths, h.nodup, ?_, ?_⟩
  · intro e he
    obtain ⟨g1, g2, g3⟩ := h.sound e he
    refine ⟨Nat.lt_of_lt_of_le g1 hn, ?_, fun ks => ?_⟩
    · rw [hk _ g1]; exact g2
    · rw [h1 _ _, g3 ks, h3 _ g1 _ _]
  · intro q d b hq
    exact h.complete q d b (by rw [← h1 _ _]; exact hq)

theorem metadataPath_one {n : Str} (hn : CompOk n) : metadataPath [n] = ⟨[], [n]⟩ := by
  have h1 : parseParts [n] = ⟨[], [n]⟩ :=
    parseParts_joinWith (ps := [n]) (fun c hc => by rw [List.mem_singleton.mp hc]; exact hn)
  unfold metadataPath
  rw [h1]
  exact h1

/-- A leaf is its only element. -/
theorem Listed.leaf {sn : Bool} {w : World} (hs : Fine C w) {j : ObjId} (hj : j < w.next)
    (hk : (w.heap j).kind.isMtree = false) : Listed C sn w j w [(⟨[], []⟩, j)] := by
  refine ⟨?_, by simp, ?_, ?_⟩
  · intro e he; rw [List.mem_singleton.mp he]; exact ⟨rfl, fun n hn => by cases hn⟩
  · intro e he; rw [List.mem_singleton.mp he]; exact ⟨hj, Or.inr hk, fun ks => rfl⟩
  · intro q d b hq _
    cases q with
    | nil => simp
    | cons n q =>
      rw [show names (n :: q) = .name n :: names q from rfl, look_not_tree hs.plain (hs.all j) hk] at hq
      cases hq

/-- What is listed for one child -/
def KidListed (C : Cfg) (sn : Bool) (w : World) (w' : World) (e : Key × (Str × ObjId))
    (l : List (PPath × ObjId)) : Prop :=
  ∃ l0, l = l0.map (fun x => ((⟨[], e.1.entryName :: x.1.comps⟩ : PPath), x.2)) ∧
    Listed C sn w e.2.2 w' l0

/-- Listing below a child -/
def RecOk (C : Cfg) (sn : Bool) (rec : ObjId → W (List (PPath × ObjId))) : Prop :=
  ∀ {w : World}, Fine C w → ∀ {i : ObjId}, i < w.next → (w.heap i).kind.isMtree = true →
    GoodNames C w i → ∀ {l w'}, rec i w = (.ok l, w') → Tour C w w' ∧ Restored w w' ∧ Listed C sn w i w' l

theorem kidPaths_listed {sn : Bool} {rec : ObjId → W (List (PPath × ObjId))} (hrec : RecOk C sn rec)
    {w w' : World} (hs : Fine C w) {e : Key × (Str × ObjId)} (he : e.2.2 < w.next)
    (hn : CompOk e.1.entryName) (hg : GoodNames C w e.2.2) {l : List (PPath × ObjId)}
    (h : kidPaths rec e w = (.ok l, w')) : Tour C w w' ∧ Restored w w' ∧ KidListed C sn w w' e l := by
  unfold kidPaths at h
  rw [M.bind_of_ok (getObj_run _ w), metadataPath_one hn] at h
  by_cases hk : (w.heap e.2.2).kind.isMtree = true
  · rw [if_pos hk] at h
    obtain ⟨l0, w1, h1, h2⟩ := M.bind_ok h
    cases h2
    obtain ⟨g1, g2, g3⟩ := hrec hs he hk hg h1
    refine ⟨g1, g2, l0, ?_, g3⟩
    refine List.map_congr_left fun x hx => ?_
    unfold PPath.join
    rw [if_pos (g3.paths x hx).1]
    rfl
  · rw [if_neg hk] at h
    cases h
    exact ⟨Tour.refl hs, Restored.refl w, [(⟨[], []⟩, e.2.2)], rfl, Listed.leaf hs he (by simpa using hk)⟩

theorem loop_listed {sn : Bool} {rec : ObjId → W (List (PPath × ObjId))} (hrec : RecOk C sn rec)
    (K : List (Key × (Str × ObjId))) : ∀ {w w' : World}, Fine C w →
    (∀ e ∈ K, e.2.2 < w.next ∧ CompOk e.1.entryName ∧ GoodNames C w e.2.2) →
    ∀ {ls : List (List (PPath × ObjId))}, M.forEach (kidPaths rec) K w = (.ok ls, w') →
    Tour C w w' ∧ Restored w w' ∧ All2 (KidListed C sn w w') K ls := by
  induction K with
  | nil => intro w w' hs _ ls h; cases h; exact ⟨Tour.refl hs, Restored.refl w, All2.nil⟩
  | cons e K ih =>
    intro w w' hs hK ls h
    rw [M.forEach_cons] at h
    obtain ⟨b, w1, h1, h2⟩ := M.bind_ok h
    obtain ⟨cs, w2, h3, h4⟩ := M.bind_ok h2
    cases h4
    obtain ⟨k1, k2, k3⟩ := hK e (List.mem_cons_self ..)
    obtain ⟨g1, g2, l0, g3, g4⟩ := kidPaths_listed hrec hs k1 k2 k3 h1
    obtain ⟨f1, f2, f3⟩ := ih g1.loads.fine (fun x hx => by
      obtain ⟨x1, x2, x3⟩ := hK x (List.mem_cons_of_mem _ hx)
      refine ⟨Nat.lt_of_lt_of_le x1 g1.loads.next, x2, fun q d b hq => x3 q d b ?_⟩
      rw [g1.loads.content _ x1 _ _]; exact hq) h3
    refine ⟨g1.trans f1, g2.trans f2, All2.cons ⟨l0, g3, ?_⟩ ?_⟩
    · exact g4.mono (SameContent.refl _ _ _ _) f1.loads.next f1.loads.kind f1.loads.content
    · have : ∀ x ∈ K, ∀ l, KidListed C sn w1 w' x l → KidListed C sn w w' x l := by
        rintro x hx l ⟨l1, e1, e2⟩
        exact ⟨l1, e1, e2.mono (g1.loads.content _ (hK x (List.mem_cons_of_mem _ hx)).1)
          (Nat.le_refl _) (fun _ _ => rfl) (fun _ _ => SameContent.refl _ _ _ _)⟩
      exact all2_imp this f3

theorem flatten_nodup {sn : Bool} {w w' : World} {K : List (Key × (Str × ObjId))}
    {ls : List (List (PPath × ObjId))} (h : All2 (KidListed C sn w w') K ls)
    (hn : (K.map fun e => e.1.entryName).Nodup) : (ls.flatten.map Prod.fst).Nodup := by
  induction h with
  | nil => simp
  | @cons e l K ls h1 h2 ih =>
    rw [List.map_cons, List.nodup_cons] at hn
    rw [List.flatten_cons, List.map_append, List.nodup_append]
    obtain ⟨l0, e1, e2⟩ := h1
    refine ⟨?_, ih hn.2, ?_⟩
    · rw [e1, List.map_map]
      have := e2.nodup
      rw [List.Nodup, List.pairwise_map] at this ⊢
      refine List.Pairwise.imp_of_mem ?_ this
      intro a b ha hb hne heq
      simp only [Function.comp, PPath.mk.injEq, List.cons.injEq, true_and] at heq
      refine hne ?_
      have ra := (e2.paths a ha).1
      have rb := (e2.paths b hb).1
      cases ea : a.1 with
      | mk r c => cases eb : b.1 with
        | mk r' c' => rw [ea, eb] at heq; rw [ea] at ra; rw [eb] at rb; simp_all
    · intro a ha b hb hab
      subst hab
      obtain ⟨x, hx, rfl⟩ := List.mem_map.mp ha
      obtain ⟨y, hy, hxy⟩ := List.mem_map.mp hb
      obtain ⟨l', hl', hy⟩ := List.mem_flatten.mp hy
      obtain ⟨e', he', l1, g1, g2⟩ := all2_right h2 hl'
      rw [e1] at hx
      rw [g1] at hy
      obtain ⟨x0, _, rfl⟩ := List.mem_map.mp hx
      obtain ⟨y0, _, rfl⟩ := List.mem_map.mp hy
      simp only [PPath.mk.injEq, List.cons.injEq, true_and] at hxy
      exact hn.1 (by rw [← hxy.1]; exact List.mem_map_of_mem he')

/-- The elements of a loaded tree are those of its children. -/
theorem Listed.kids {sn : Bool} {w w' : World} (hs : Fine C w) {i : ObjId} (hi : i < w.next)
    (hm : (w.heap i).mapped = true) (hk : (w.heap i).kind.isMtree = true) (hg : GoodNames C w i)
    (hv : Tour C w w') {ls : List (List (PPath × ObjId))}
    (h : All2 (KidListed C sn w w') (w.heap i).body.kids ls) :
    Listed C sn w i w' (if sn then (metadataPath [[]], i) :: ls.flatten else ls.flatten) := by
  have hf := hs.formed i hm
  have hname : ∀ e ∈ (w.heap i).body.kids, ∃ n, e.1 = .name n := fun e he => by
    have := hf.fits e he
    exact fits_tree hk this
  have hdget : ∀ e ∈ (w.heap i).body.kids, dget (w.heap i).body.kids (.name e.1.entryName) = some e.2 := by
    intro e he
    obtain ⟨n, hn⟩ := hname e he
    have : dget (w.heap i).body.kids e.1 = some e.2 := dget_of_mem hf.keys he
    rw [hn] at this ⊢
    exact this
  have hlook : ∀ e ∈ (w.heap i).body.kids, ∀ ks, look C w.repo.log w.heap (.name e.1.entryName :: ks) [] (.mem i)
      = look C w.repo.log w.heap ks [] (.mem e.2.2) := fun e he ks =>
    look_name (t := e.2.1) (c := e.2.2) hs.plain hm (hdget e he) ks []
  have hroot : metadataPath [[]] = ⟨[], []⟩ := rfl
  have hnod : ((w.heap i).body.kids.map fun e => e.1.entryName).Nodup := by
    have := hf.keys
    unfold dkeys at this
    rw [List.Nodup, List.pairwise_map] at this ⊢
    refine List.Pairwise.imp_of_mem ?_ this
    intro a b ha hb hne heq
    obtain ⟨n, hn⟩ := hname a ha
    obtain ⟨m, hm'⟩ := hname b hb
    rw [hn, hm'] at heq hne
    exact hne (by rw [show n = m from heq])
  have hcomp : ∀ e ∈ (w.heap i).body.kids, CompOk e.1.entryName := by
    intro e he
    have h1 := hlook e he []
    have h2 := hs.all e.2.2 [] []
    obtain ⟨b, hb⟩ := view_ok_of_look h2
    rw [look_nil [] hb] at h1
    exact hg [e.1.entryName] _ _ h1 _ (List.mem_singleton.mpr rfl)
  -- the elements below the children
  have hpaths : ∀ x ∈ ls.flatten, x.1.root = [] ∧ (x.1.comps ≠ [] ∧ ∀ n ∈ x.1.comps, CompOk n) ∧
      x.2 < w'.next ∧ (sn = true ∨ (w'.heap x.2).kind.isMtree = false) ∧
      ∀ ks, look C w.repo.log w.heap (names x.1.comps ++ ks) [] (.mem i) =
        look C w'.repo.log w'.heap ks [] (.mem x.2) := by
    intro x hx
    obtain ⟨l, hl, hx⟩ := List.mem_flatten.mp hx
    obtain ⟨e, he, l0, g1, g2⟩ := all2_right h hl
    rw [g1] at hx
    obtain ⟨x0, hx0, rfl⟩ := List.mem_map.mp hx
    obtain ⟨p1, p2⟩ := g2.paths x0 hx0
    obtain ⟨s1, s2, s3⟩ := g2.sound x0 hx0
    refine ⟨rfl, ⟨by simp, ?_⟩, s1, s2, fun ks => ?_⟩
    · intro n hn
      rcases List.mem_cons.mp hn with rfl | hn
      · exact hcomp e he
      · exact p2 n hn
    · rw [← s3 ks, ← hlook e he]
      rfl
  have hcompl : ∀ n q d b, look C w.repo.log w.heap (names (n :: q)) [] (.mem i) = .found [] d b →
      sn = true ∨ d.kind.isMtree = false → ⟨[], n :: q⟩ ∈ ls.flatten.map Prod.fst := by
    intro n q d b hq hc
    rw [show names (n :: q) = .name n :: names q from rfl] at hq
    cases hd : dget (w.heap i).body.kids (.name n) with
    | none => rw [look_name_none hm hd] at hq; cases hq
    | some e =>
      rw [look_name (t := e.1) (c := e.2) hs.plain hm hd] at hq
      obtain ⟨l, hl, l0, g1, g2⟩ := all2_left h (mem_of_dget hd)
      obtain ⟨x, hx, hxq⟩ := List.mem_map.mp (g2.complete q d b hq hc)
      refine List.mem_map.mpr ⟨(⟨[], n :: x.1.comps⟩, x.2), List.mem_flatten.mpr ⟨l, hl, ?_⟩, ?_⟩
      · rw [g1]; exact List.mem_map.mpr ⟨x, hx, rfl⟩
      · rw [hxq]
  have hnod' := flatten_nodup h hnod
  cases sn with
  | false =>
    simp only [Bool.false_eq_true, if_false]
    refine ⟨fun e he => ⟨(hpaths e he).1, (hpaths e he).2.1.2⟩, hnod', fun e he => (hpaths e he).2.2, ?_⟩
    intro q d b hq hc
    cases q with
    | nil =>
      rw [show names [] = [] from rfl, look_self hm] at hq
      cases hq
      rw [show (w.heap i).body.data.kind = (w.heap i).kind from rfl, hk] at hc
      simp at hc
    | cons n q => exact hcompl n q d b hq hc
  | true =>
    simp only [if_true]
    rw [hroot]
    refine ⟨?_, ?_, ?_, ?_⟩
    · intro e he
      rcases List.mem_cons.mp he with rfl | he
      · exact ⟨rfl, fun n hn => by cases hn⟩
      · exact ⟨(hpaths e he).1, (hpaths e he).2.1.2⟩
    · rw [List.map_cons, List.nodup_cons]
      refine ⟨?_, hnod'⟩
      intro hin
      obtain ⟨x, hx, he⟩ := List.mem_map.mp hin
      exact (hpaths x hx).2.1.1 (by rw [he])
    · intro e he
      rcases List.mem_cons.mp he with rfl | he
      · exact ⟨Nat.lt_of_lt_of_le hi hv.loads.next, Or.inl rfl, fun ks => hv.loads.content i hi ks []⟩
      · exact (hpaths e he).2.2
    · intro q d b hq hc
      rw [List.map_cons]
      cases q with
      | nil => exact List.mem_cons_self ..
      | cons n q => exact List.mem_cons_of_mem _ (hcompl n q d b hq hc)

theorem getPaths_listed (sn : Bool) (n : Nat) : RecOk C sn (getPaths C sn n) := by
  induction n with
  | zero => intro w _ i _ _ _ l w' h; cases h
  | succ n ih =>
    intro w hs i hi hk hg l w' h
    unfold getPaths at h
    obtain ⟨l1, w3, h1, h2⟩ := M.bind_ok h
    cases h2
    have hgood : ∀ w1, Tour C w w1 → GoodNames C w1 i := fun w1 hv q d b hq =>
      hg q d b (by rw [hv.loads.content i hi _ _]; exact hq)
    have hkids : ∀ w1 w2 l1, Tour C w w1 → (w1.heap i).mapped = true →
        listKids (getPaths C sn n) i w1 = (.ok l1, w2) → Tour C w1 w2 ∧ Restored w1 w2 ∧
        Listed C sn w1 i w2 (if sn then (metadataPath [[]], i) :: l1 else l1) := by
      intro w1 w2 l1 hv1 hm1 hx
      have hk1 : (w1.heap i).kind.isMtree = true := by rw [hv1.loads.kind i hi]; exact hk
      have hi1 := Nat.lt_of_lt_of_le hi hv1.loads.next
      have hs1 := hv1.loads.fine
      unfold listKids at hx
      rw [M.bind_of_ok (getObj_run i w1)] at hx
      obtain ⟨ls, w4, h3, h4⟩ := M.bind_ok hx
      cases h4
      have hK : ∀ e ∈ (w1.heap i).body.kids, e.2.2 < w1.next ∧ CompOk e.1.entryName ∧ GoodNames C w1 e.2.2 := by
        intro e he
        have hf := hs1.formed i hm1
        obtain ⟨nm, hnm⟩ := fits_tree hk1 (hf.fits e he)
        have hd : dget (w1.heap i).body.kids (.name nm) = some e.2 := by
          rw [← hnm]; exact dget_of_mem hf.keys he
        have hlk := fun ks => look_name (C := C) (L := w1.repo.log) (t := e.2.1) (c := e.2.2) hs1.plain hm1 hd ks []
        refine ⟨hs1.kids i hm1 _ (List.mem_map_of_mem he), ?_, ?_⟩
        · rw [hnm]
          have h1 := hlk []
          obtain ⟨b, hb⟩ := view_ok_of_look (hs1.all e.2.2 [] [])
          rw [look_nil [] hb] at h1
          exact hgood w1 hv1 [nm] _ _ h1 _ (List.mem_singleton.mpr rfl)
        · intro q d b hq m hmq
          exact hgood w1 hv1 (nm :: q) d b (by rw [← hq, ← hlk]; rfl) m (List.mem_cons_of_mem _ hmq)
      obtain ⟨g1, g2, g3⟩ := loop_listed ih _ hs1 hK h3
      exact ⟨g1, g2, Listed.kids hs1 hi1 hm1 hk1 (hgood w1 hv1) g1 g3⟩
    obtain ⟨w1, w2, g1, g2, g3, g4, g5, g6⟩ := withMapped_ok hs hi h1
      (fun w1 w2 hv hm hx => let ⟨a, b, _⟩ := hkids w1 w2 l1 hv hm hx; ⟨a, b⟩)
    obtain ⟨_, _, f3⟩ := hkids w1 w2 l1 g1 g2 g3
    refine ⟨g5.visits, g6, f3.mono (g1.loads.content i hi) (Nat.le_of_eq g5.unloads.next.symm)
      (fun j _ => g5.unloads.kind j) (fun j _ => ?_)⟩
    rw [g5.unloads.repo]
    exact g5.look j

/-! ### When listing succeeds -/

/-- A tree without empty nodes, in which every path has less than `n` names -/
def Solid (C : Cfg) (w : World) (i : ObjId) (n : Nat) : Prop :=
  ∀ q d b, look C w.repo.log w.heap (names q) [] (.mem i) = .found [] d b → b = false ∧ q.length < n

theorem none_blank {L : Log} {h : Heap} {r : Realm} {k : Kind} {ref : Ref} (hn : ref.isNone = true)
    (hk : k.isMtree = true) {t : Str} (hl : look C L h [] t (.sto r ⟨k, ref⟩) ≠ .missing) :
    ∃ d, look C L h [] t (.sto r ⟨k, ref⟩) = .found t d true := by
  obtain ⟨b, hb⟩ := view_ok_of_look hl
  rw [look_nil t hb]
  refine ⟨b.data, ?_⟩
  rw [view_sto'] at hb
  cases hf : strictFetch C L r k ref with
  | error e => rw [hf] at hb; cases hb
  | ok a =>
    rw [hf] at hb
    cases hb
    obtain ⟨hfe, _⟩ := strictFetch_ok hf
    unfold fetch at hfe
    rw [if_pos hn] at hfe
    split at hfe
    · split at hfe
      · cases hfe
      · cases hfe
        simp [Body.blank, Body.map, Body.empty, Data.kind_empty, hk]
    · cases hfe

/-- Purging a node whose parts are not loaded -/
theorem purge_leaf {n : Nat} {i : ObjId} {w : World} (hm : (w.heap i).mapped = true)
    (hsv : (w.heap i).savedOn ≠ []) (hk : (w.heap i).kind ≠ .mrr)
    (hsub : ∀ k ∈ (w.heap i).body.subs, (w.heap k).mapped = false) :
    ∃ w', purge (n + 2) i w = (.ok (), w') := by
  unfold purge
  rw [M.bind_of_ok (getObj_run i w), if_pos hm, if_neg hsv, if_neg (fun h => hk h.1)]
  have : ∀ l : List ObjId, (∀ k ∈ l, (w.heap k).mapped = false) →
      ∃ us, M.forEach (purge (n + 1)) l w = (.ok us, w) := by
    intro l
    induction l with
    | nil => intro _; exact ⟨[], rfl⟩
    | cons a l ih =>
      intro hl
      obtain ⟨us, hus⟩ := ih fun k hk => hl k (List.mem_cons_of_mem _ hk)
      have ha : purge (n + 1) a w = (.ok (), w) := by
        unfold purge
        rw [M.bind_of_ok (getObj_run a w), if_neg (by simp [hl a (List.mem_cons_self ..)])]
        rfl
      rw [M.forEach_cons, M.bind_of_ok ha, M.bind_of_ok hus]
      exact ⟨_, rfl⟩
  obtain ⟨us, hus⟩ := this _ hsub
  rw [M.bind_of_ok hus, updObj_run]
  exact ⟨_, rfl⟩

theorem ensureMapped_repo {w w' : World} (hs : Fine C w) (hf : w.repo.faults = []) {i : ObjId} {b : Bool}
    (h : ensureMapped C i w = (.ok b, w')) : w'.repo = w.repo := by
  obtain ⟨b', w1, h1, h2⟩ := hs.loads hf i
  rw [h] at h1
  cases h1
  exact h2

theorem getPaths_total (sn : Bool) (n : Nat) : ∀ {w : World}, Fine C w → w.repo.faults = [] →
    ∀ {i : ObjId}, i < w.next → (w.heap i).kind.isMtree = true → GoodNames C w i → Solid C w i n →
    ∃ l w', getPaths C sn (n + 2) i w = (.ok l, w') ∧ w'.repo = w.repo := by
  induction n with
  | zero =>
    intro w hs _ i _ _ _ hd
    obtain ⟨b, hb⟩ := view_ok_of_look (hs.all i [] [])
    have := (hd [] _ _ (look_nil [] hb)).2
    exact absurd this (Nat.not_lt_zero _)
  | succ n ih =>
    intro w hs hf i hi hk hg hd
    -- the loop
    have hloop : ∀ w1, Tour C w w1 → w1.repo = w.repo → (w1.heap i).mapped = true →
        ∃ l w2, listKids (getPaths C sn (n + 2)) i w1 = (.ok l, w2) ∧ w2.repo = w1.repo ∧
          Tour C w1 w2 ∧ Restored w1 w2 := by
      intro w1 hv1 hr1 hm1
      have hs1 := hv1.loads.fine
      have hk1 : (w1.heap i).kind.isMtree = true := by rw [hv1.loads.kind i hi]; exact hk
      have hK : ∀ e ∈ (w1.heap i).body.kids, e.2.2 < w1.next ∧ CompOk e.1.entryName ∧
          GoodNames C w1 e.2.2 ∧ Solid C w1 e.2.2 n := by
        intro e he
        have hfm := hs1.formed i hm1
        obtain ⟨nm, hnm⟩ := fits_tree hk1 (hfm.fits e he)
        have hdg : dget (w1.heap i).body.kids (.name nm) = some e.2 := by
          rw [← hnm]; exact dget_of_mem hfm.keys he
        have hlk : ∀ q, look C w.repo.log w.heap (names (nm :: q)) [] (.mem i) =
            look C w1.repo.log w1.heap (names q) [] (.mem e.2.2) := fun q => by
          rw [hv1.loads.content i hi _ _]
          exact look_name (t := e.2.1) (c := e.2.2) hs1.plain hm1 hdg (names q) []
        refine ⟨hs1.kids i hm1 _ (List.mem_map_of_mem he), ?_, ?_, ?_⟩
        · rw [hnm]
          have h1 := hlk []
          obtain ⟨b, hb⟩ := view_ok_of_look (hs1.all e.2.2 [] [])
          rw [show names [] = [] from rfl, look_nil [] hb] at h1
          exact hg [nm] _ _ h1 _ (List.mem_singleton.mpr rfl)
        · intro q d b hq m hmq
          exact hg (nm :: q) d b (by rw [← hq, ← hlk]) m (List.mem_cons_of_mem _ hmq)
        · intro q d b hq
          obtain ⟨g1, g2⟩ := hd (nm :: q) d b (by rw [← hq, ← hlk])
          exact ⟨g1, by simpa using g2⟩
      have hall : ∀ (K : List (Key × (Str × ObjId))) (w3 : World), Tour C w1 w3 → w3.repo = w1.repo →
          (∀ e ∈ K, e.2.2 < w1.next ∧ CompOk e.1.entryName ∧ GoodNames C w1 e.2.2 ∧ Solid C w1 e.2.2 n) →
          ∃ ls w2, M.forEach (kidPaths (getPaths C sn (n + 2))) K w3 = (.ok ls, w2) ∧ w2.repo = w1.repo := by
        intro K
        induction K with
        | nil => intro w3 _ hr3 _; exact ⟨[], w3, rfl, hr3⟩
        | cons e K ihK =>
          intro w3 hv3 hr3 hK3
          obtain ⟨k1, k2, k3, k4⟩ := hK3 e (List.mem_cons_self ..)
          have hlt := Nat.lt_of_lt_of_le k1 hv3.loads.next
          have hg3 : GoodNames C w3 e.2.2 := fun q d b hq => k3 q d b (by
            rw [hv3.loads.content _ k1 _ _]; exact hq)
          have hd3 : Solid C w3 e.2.2 n := fun q d b hq => k4 q d b (by
            rw [hv3.loads.content _ k1 _ _]; exact hq)
          have hkid : ∃ l w4, kidPaths (getPaths C sn (n + 2)) e w3 = (.ok l, w4) ∧ w4.repo = w3.repo := by
            unfold kidPaths
            rw [M.bind_of_ok (getObj_run _ w3)]
            by_cases hke : (w3.heap e.2.2).kind.isMtree = true
            · rw [if_pos hke]
              obtain ⟨l, w4, h4, h5⟩ := ih hv3.loads.fine (by rw [hr3, hr1]; exact hf) hlt hke hg3 hd3
              rw [M.bind_of_ok h4]
              exact ⟨_, w4, rfl, h5⟩
            · rw [if_neg hke]; exact ⟨_, w3, rfl, rfl⟩
          obtain ⟨l, w4, h4, h5⟩ := hkid
          obtain ⟨f1, _, _⟩ := kidPaths_listed (getPaths_listed sn (n + 2)) hv3.loads.fine hlt k2 hg3 h4
          obtain ⟨ls, w5, h6, h7⟩ := ihK w4 (hv3.trans f1) (h5.trans hr3)
            (fun x hx => hK3 x (List.mem_cons_of_mem _ hx))
          rw [M.forEach_cons, M.bind_of_ok h4, M.bind_of_ok h6]
          exact ⟨_, w5, rfl, h7⟩
      obtain ⟨ls, w2, h1, h2⟩ := hall _ w1 (Tour.refl hs1) rfl hK
      obtain ⟨f1, f2, _⟩ := loop_listed (getPaths_listed sn (n + 2)) _ hs1
        (fun e he => ⟨(hK e he).1, (hK e he).2.1, (hK e he).2.2.1⟩) h1
      refine ⟨ls.flatten, w2, ?_, h2, f1, f2⟩
      unfold listKids
      rw [M.bind_of_ok (getObj_run i w1), M.bind_of_ok h1]
      rfl
    unfold getPaths
    have hwm : ∃ l w', withMapped C (n + 2) i (listKids (getPaths C sn (n + 2)) i) w = (.ok l, w') ∧
        w'.repo = w.repo := by
      unfold withMapped
      have hstep := hs.visitsStep hi
      rcases hs.ensure hi with ⟨hm, h⟩ | ⟨e, w1, h, _⟩ | ⟨w1, h, ho⟩
      · rw [M.bind_of_ok h]
        obtain ⟨l, w2, h1, h2, _⟩ := hloop w (Tour.refl hs) rfl hm
        exact ⟨l, w2, h1, h2⟩
      · obtain ⟨b, w2, h1, _⟩ := hs.loads hf i
        rw [h] at h1; cases h1
      · rw [h] at hstep
        have hr1 := ensureMapped_repo hs hf h
        obtain ⟨l, w2, h1, h2, f1, f2⟩ := hloop w1 hstep hr1 ho.mapped
        have hi1 := Nat.lt_of_lt_of_le hi hstep.loads.next
        have e2 := f1.loads.loaded i hi1 ho.mapped
        have hv := hstep.trans f1
        have hk2 : (w2.heap i).kind.isMtree = true := by rw [hv.loads.kind i hi]; exact hk
        have hsv : (w2.heap i).savedOn ≠ [] := by
          obtain ⟨r, ref, p1, p2, p3, p4, p5⟩ := (hv.fresh i (Nat.lt_of_lt_of_le hi hv.loads.next)
            (by rw [e2]; exact ho.mapped) (Or.inr ho.was)).1
          rcases p4 with p4 | p4
          · exfalso
            obtain ⟨d, hd'⟩ := none_blank (C := C) (L := w2.repo.log) (h := w2.heap) (r := r) (t := []) p4 hk2 (by
              rw [← p5 [] []]; exact hv.loads.fine.all i [] [])
            rw [← p5 [] [], ← hv.loads.content i hi [] []] at hd'
            exact absurd (hd [] d true hd').1 (by simp)
          · exact List.ne_nil_of_mem p4
        obtain ⟨w3, h3⟩ := purge_leaf (n := n) (w := w2) (i := i) (by rw [e2]; exact ho.mapped) hsv
          (by intro e; rw [e] at hk2; cases hk2) (by
            intro k hk'
            rw [e2] at hk'
            obtain ⟨n1, n2⟩ := ho.new k hk'
            cases hmk : (w2.heap k).mapped with
            | false => rfl
            | true =>
              obtain ⟨_, c2⟩ := f2 k (Nat.lt_of_lt_of_le n2 f1.loads.next) hmk
              rw [ho.fresh k n1 n2] at c2; cases c2)
        refine ⟨l, w3, ?_, ?_⟩
        · rw [M.bind_of_ok h]
          simp only [if_true]
          unfold M.finally_
          rw [h1]
          simp only
          rw [h3]
        · have h4 := (hv.purge (n + 2) i w2 (Nat.lt_of_lt_of_le hi hv.loads.next) (Or.inr ho.was)).1.unloads.repo
          rw [h3] at h4
          rw [h4, h2, hr1]
    obtain ⟨l, w', h1, h2⟩ := hwm
    rw [M.bind_of_ok h1]
    exact ⟨_, w', rfl, h2⟩

/-! ### Trees in memory -/

theorem solid_leaf {w : World} (hs : Fine C w) {i : ObjId} (hk : (w.heap i).kind.isMtree = false) :
    Solid C w i 1 ∧ GoodNames C w i := by
  have key : ∀ q d b, look C w.repo.log w.heap (names q) [] (.mem i) = .found [] d b → q = [] ∧ b = false := by
    intro q d b hq
    cases q with
    | nil =>
      obtain ⟨b', hb⟩ := view_ok_of_look (hs.all i [] [])
      rw [show names [] = [] from rfl, look_nil [] hb] at hq
      cases hq
      refine ⟨rfl, ?_⟩
      unfold Body.blank
      rw [view_class hb, hk]
      rfl
    | cons n q =>
      rw [show names (n :: q) = .name n :: names q from rfl, look_not_tree hs.plain (hs.all i) hk] at hq
      cases hq
  refine ⟨fun q d b hq => ?_, fun q d b hq n hn => ?_⟩
  · obtain ⟨rfl, rfl⟩ := key q d b hq; exact ⟨rfl, by simp⟩
  · obtain ⟨rfl, _⟩ := key q d b hq; cases hn

theorem solid_node {w : World} (hs : Fine C w) {i : ObjId} (hm : (w.heap i).mapped = true)
    (hne : (w.heap i).body.kids ≠ []) {n : Nat}
    (hK : ∀ e ∈ (w.heap i).body.kids, CompOk e.1.entryName ∧ Solid C w e.2.2 n ∧ GoodNames C w e.2.2) :
    Solid C w i (n + 1) ∧ GoodNames C w i := by
  have key : ∀ m q d b, look C w.repo.log w.heap (names (m :: q)) [] (.mem i) = .found [] d b →
      CompOk m ∧ (b = false ∧ q.length < n) ∧ ∀ x ∈ q, CompOk x := by
    intro m q d b hq
    rw [show names (m :: q) = .name m :: names q from rfl] at hq
    cases hd : dget (w.heap i).body.kids (.name m) with
    | none => rw [look_name_none hm hd] at hq; cases hq
    | some e =>
      rw [look_name (t := e.1) (c := e.2) hs.plain hm hd] at hq
      obtain ⟨g1, g2, g3⟩ := hK _ (mem_of_dget hd)
      exact ⟨g1, g2 q d b hq, g3 q d b hq⟩
  refine ⟨fun q d b hq => ?_, fun q d b hq x hx => ?_⟩
  · cases q with
    | nil =>
      rw [show names [] = [] from rfl, look_self hm] at hq
      cases hq
      refine ⟨?_, by simp⟩
      unfold Body.blank
      cases hb : (w.heap i).body.kids with
      | nil => exact absurd hb hne
      | cons a l => simp
    | cons m q =>
      obtain ⟨_, ⟨g1, g2⟩, _⟩ := key m q d b hq
      exact ⟨g1, by simpa using g2⟩
  · cases q with
    | nil => cases hx
    | cons m q =>
      obtain ⟨g0, _, g3⟩ := key m q d b hq
      rcases List.mem_cons.mp hx with rfl | hx
      · exact g0
      · exact g3 x hx

end MM
