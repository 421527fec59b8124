/-
C67: sessions that overlap.
-/
import Verif.Props.Sessions

namespace MM

variable {C : Cfg} {r : Realm}

/-! ### C67 -/

/-- C67, for the session that saves last: others may save while it works; what it has asked for is
found later with all that it had. -/
theorem C67_last_partial (hr : r ≠ []) {s : Repo} {g t u : ObjId} {w0 w1 w2 w w' : World} (ho : Opens C r s g t u w0)
    (h1 : Meanwhile C r g t u w0 w1) {auto : Option Bool} {now : Str} {ds : Uuid} {dv : Str} {pre : PPath} {path : List Str}
    {root : Option Uuid} {rv : Option Str} {m : ObjId} (hc : Canonical pre) (hp : ∀ n ∈ path, CompOk n ∧ NameOk n)
    (hask : rootRecord C auto now t u ds dv pre path root rv w1 = (.ok (some m), w2))
    (h2 : Meanwhile C r g t u w2 w) (hsave : SavesBoth C r t u w w')
    {s' : Repo} (ha : After C r w'.repo.log s'.log) (hf : s'.faults = []) {i : World} (hi : Idle s' i)
    (auto' : Option Bool) (now' : Str) {id : Uuid} {v : Str} {sub : Option (Uuid × Str)}
    (hsub : sub = some (ds, dv) ∨ (sub = none ∧ path = [] ∧ ds = id ∧ dv = v))
    (hroot : path ≠ [] → root = some id ∧ rv = some v) :
    ∃ t' u' m' w3, topRecord C auto' now' r id v pre path sub i = (.ok (some (t', u'), some m'), w3) ∧
      ∀ ks, look C w3.repo.log w3.heap ks [] (.mem m') = look C w.repo.log w.heap ks [] (.mem m) :=
  C64_saved hr ho h1 hc hp hask h2 hsave ha hf hi auto' now' hsub hroot

/-- C67 is false whenever sessions overlap: whatever others saved while a session worked, after it has
saved its own changes, all records of dataset versions that its tree version list does not have are
not found any more. -/
theorem C67_lost (hr : r ≠ []) {s : Repo} {g t u : ObjId} {w0 w w' : World} (ho : Opens C r s g t u w0)
    (h1 : Meanwhile C r g t u w0 w) (hsave : SavesBoth C r t u w w')
    {s' : Repo} (ha : After C r w'.repo.log s'.log) (hf : s'.faults = []) {id : Uuid} {v : Str} {pre : PPath}
    (hab : look C w.repo.log w.heap [.ver v pre] [] (.mem t) = .absent) (now : Str) :
    ∃ t' u' w3, topRecord C (some false) now r id v pre [] none (start s') = (.ok (some (t', u'), none), w3) := by
  obtain ⟨v0, b0⟩ := ho.bench hr
  obtain ⟨v', b, _⟩ := b0.meanwhile hr h1
  obtain ⟨s1, s2⟩ := b.saved hr hsave ha
  rw [b.look b.gt] at hab
  obtain ⟨w1, ht, q1, hrep, hlt, hk1, hk2, c1, c2, _⟩ := topLevel_total (start_sound (C := C) s') hf hr
    (s1.full (start s').heap) (s2.full (start s').heap)
  have hab1 : look C w1.repo.log w1.heap [.ver v pre] [] (.mem (start s').next) = .absent :=
    (c1 [.ver v pre] []).symm.trans ((s1.same (start s').heap [.ver v pre] []).symm.trans hab)
  have hall := fun ks => look_prefix q1.fine (k := .ver v pre) (by simp) ks hab1
  obtain ⟨_, h3⟩ := C35_missing q1 (some false) now (Nat.lt_of_succ_lt hlt) hk1 hlt hk2 id v pre (path := [])
    (fun n hn => by cases hn) none none (by rw [hrep]; exact hf) rfl (fun q => absurd rfl q)
    (fun tv e s d b hx => by cases e; rw [hab1] at hx; cases hx)
    (fun tv e q _ s d b hx => by cases e; rw [hall] at hx; cases hx)
  obtain ⟨w3, h4⟩ := h3 (by rintro ⟨tv, e, h5, _⟩; cases e; exact h5 (hall _))
  refine ⟨(start s').next, (start s').next + 1, w3, ?_⟩
  unfold topRecord
  rw [M.bind_of_ok ht]
  simp only
  rw [M.bind_of_ok (show (pure (some ((start s').next, (start s').next + 1)) : W (Option (ObjId × ObjId))) w1 = (.ok _, w1) from rfl)]
  simp only
  rw [M.bind_of_ok h4]
  rfl

/-! ### A concrete case -/

/-- Two processes open the repository (objects 0 and 1, see `againOpen`).  The first creates a record
for version v2 of the dataset and saves. -/
def lapFirst : Except PyErr (Option ObjId) × World :=
  rootRecord sampleCfg (some true) c!"0.2" 0 1 sampleUuid c!"v2" ⟨[], []⟩ [] none none againOpen.2

def lapSaved : Except PyErr Ref × World := writeOut sampleCfg 20 (some sampleRealm) false 0 lapFirst.2

def lapBoth : Except PyErr Ref × World := writeOut sampleCfg 20 (some sampleRealm) false 1 lapSaved.2

/-- The second has created a record for version v3 by then, and saves after the first. -/
def lapSecond : Except PyErr (Option ObjId) × World :=
  rootRecord sampleCfg (some true) c!"0.2" 0 1 sampleUuid c!"v3" ⟨[], []⟩ [] none none againOpen.2

def lapThen : World := outside lapBoth.2.repo.log [] lapSecond.2

def lapOwn : Except PyErr Ref × World := writeOut sampleCfg 20 (some sampleRealm) false 0 lapThen

def lapEnd : Except PyErr Ref × World := writeOut sampleCfg 20 (some sampleRealm) false 1 lapOwn.2

/-- C67 does not hold: all calls of both processes succeed; the record of the first is found after it
has saved, and is not found after the second has saved. -/
theorem C67_false : okVal lapFirst = some (some 8) ∧ isOk lapSaved = true ∧ isOk lapBoth = true ∧
    okVal lapSecond = some (some 8) ∧ isOk lapOwn = true ∧ isOk lapEnd = true ∧
    (∃ m w, topRecord sampleCfg (some false) c!"0.3" sampleRealm sampleUuid c!"v2" ⟨[], []⟩ [] none
      (start ⟨lapBoth.2.repo.log, []⟩) = (.ok (some (0, 1), some m), w)) ∧
    ∃ w, topRecord sampleCfg (some false) c!"0.3" sampleRealm sampleUuid c!"v2" ⟨[], []⟩ [] none
      (start ⟨lapEnd.2.repo.log, []⟩) = (.ok (some (0, 1), none), w) :=
  ⟨by decide +kernel, by decide +kernel, by decide +kernel, by decide +kernel, by decide +kernel, by decide +kernel,
    ⟨5, _, of_okVal (by decide +kernel)⟩, ⟨_, of_okVal (by decide +kernel)⟩⟩

theorem Busy.trans {g t u : ObjId} {a b c : World} (h : Busy C g t u a b) (h' : Busy C g t u b c) : Busy C g t u a c := by
  induction h' with
  | refl => exact h
  | loaded _ i _ h1 h2 ih => exact .loaded _ i ih h1 h2
  | read _ i _ h1 h2 ih => exact .read _ i ih h1 h2
  | looked _ i p _ h1 h2 ih => exact .looked _ i p ih h1 h2
  | listed _ i id _ h1 h2 ih => exact .listed _ i id ih h1 h2
  | element _ i v p _ h1 h2 ih => exact .element _ i v p ih h1 h2
  | asked _ auto now id v pre path root rv _ h1 h2 ih => exact .asked _ auto now id v pre path root rv ih h1 h2
  | new _ b _ h1 h2 ih => exact .new _ b ih h1 h2
  | ran _ i ext run _ h1 h2 h3 ih => exact .ran _ i ext run ih h1 h2 h3
  | filed _ leaf i x p _ h1 h2 h3 h4 h5 h6 h7 h8 ih => exact .filed _ leaf i x p ih h1 h2 h3 h4 h5 h6 h7 h8
  | part _ k i x _ h1 h2 h3 h4 h5 h6 h7 h8 h9 ih => exact .part _ k i x ih h1 h2 h3 h4 h5 h6 h7 h8 h9

/-- The check whether an object is saved says no. -/
def saysNo : Except PyErr Bool → Bool
  | .ok false => true
  | _ => false

theorem of_saysNo {x : Except PyErr Bool} (h : saysNo x = true) : x = .ok false := by
  match x, h with
  | .ok false, _ => rfl

theorem lapOthers {a : World} (ha : Meanwhile sampleCfg sampleRealm 0 0 1 a lapSecond.2) :
    Meanwhile sampleCfg sampleRealm 0 0 1 a lapThen := by
  have hlog : lapBoth.2.repo.log = lapBoth.2.repo.log.take 9 ++ lapSecond.2.repo.log := by
    have : lapBoth.2.repo.log.drop 9 = lapSecond.2.repo.log := by decide +kernel
    rw [← this, List.take_append_drop]
  have hc : CollisionFree sampleCfg lapBoth.2.repo.log := collisionFree_of_check (by decide +kernel)
  have ht : isSavedOn 20 lapSecond.2.heap sampleRealm 0 = .ok false := of_saysNo (by decide +kernel)
  have hu : isSavedOn 20 lapSecond.2.heap sampleRealm 1 = .ok false := of_saysNo (by decide +kernel)
  unfold lapThen
  generalize lapBoth.2.repo.log = L at *
  generalize lapSecond.2 = w at *
  refine .others w L [] ha (Or.inr ⟨20, ht⟩) (Or.inr ⟨20, hu⟩) (fun x o h => ?_) hc
  unfold Stored at h ⊢
  rw [hlog]
  exact List.mem_append_right _ h

theorem lapMeanwhile : Meanwhile sampleCfg sampleRealm 0 0 1 againOpen.2 lapThen :=
  lapOthers (.works _ _ .refl (.asked _ (some true) _ _ _ _ [] _ _ .refl ⟨rfl, fun c hc => by cases hc⟩ (fun n hn => by cases hn)))

theorem lapEnds : SavesBoth sampleCfg sampleRealm 0 1 lapThen lapEnd.2 :=
  SavesBoth.direct (of_isOk (x := lapOwn) (by decide +kernel)) (of_isOk (x := lapEnd) (by decide +kernel))

theorem lapStocked : Stocked sampleCfg sampleRealm wholeSecond.2.repo.log := by
  have hc : CollisionFree sampleCfg wholeSecond.2.repo.log := collisionFree_of_check (by decide +kernel)
  have ha : Busy sampleCfg 2 2 3 wholeOpen wholeAsked.2 :=
    .asked _ (some true) _ _ _ _ [] _ _ .refl ⟨rfl, fun c hc => by cases hc⟩ (fun n hn => by cases hn)
  have hb := wholeBusy
  have ho := wholeOpens
  have hs := wholeSaved
  generalize wholeSecond.2 = ws at *
  generalize wholeFiled = wf at *
  generalize wholeAsked.2 = wa at *
  generalize wholeOpen = wo at *
  exact C64_stocked (by decide) ho (ha.trans hb).meanwhile hs ⟨Grows.refl _, fun _ _ => rfl, hc⟩

/-- The case meets the hypotheses of `C67_lost`. -/
example (now : Str) : ∃ t' u' w3, topRecord sampleCfg (some false) now sampleRealm sampleUuid c!"v2" ⟨[], []⟩ [] none
    (start ⟨lapEnd.2.repo.log, []⟩) = (.ok (some (t', u'), none), w3) := by
  have hst := lapStocked
  have hab : look sampleCfg lapThen.repo.log lapThen.heap [.ver c!"v2" ⟨[], []⟩] [] (.mem 0) = .absent := by
    have h : (match look sampleCfg lapThen.repo.log lapThen.heap [.ver c!"v2" ⟨[], []⟩] [] (.mem 0) with
      | .absent => true | _ => false) = true := by decide +kernel
    generalize look sampleCfg lapThen.repo.log lapThen.heap [.ver c!"v2" ⟨[], []⟩] [] (.mem 0) = x at h
    match x, h with
    | .absent, _ => rfl
  have hc : CollisionFree sampleCfg lapEnd.2.repo.log := collisionFree_of_check (by decide +kernel)
  have h1 := lapMeanwhile
  have h2 := lapEnds
  have h3 := againOpened
  generalize lapEnd.2 = we at *
  generalize lapThen = wt at *
  generalize againOpen.2 = wo at *
  generalize wholeSecond.2.repo.log = L at *
  exact C67_lost (C := sampleCfg) (s := ⟨L, []⟩) (by decide) (.found _ 0 1 wo (idle_start _) hst h3) h1 h2 (s' := ⟨we.repo.log, []⟩)
    ⟨Grows.refl _, fun _ _ => rfl, hc⟩ rfl hab now

/-- The case meets the hypotheses of `C67_last_partial`: the record of the second is found. -/
example (auto : Option Bool) (now : Str) : ∃ t' u' m' w3, topRecord sampleCfg auto now sampleRealm sampleUuid c!"v3" ⟨[], []⟩ [] none
    (start ⟨lapEnd.2.repo.log, []⟩) = (.ok (some (t', u'), some m'), w3) ∧
    ∀ ks, look sampleCfg w3.repo.log w3.heap ks [] (.mem m') = look sampleCfg lapThen.repo.log lapThen.heap ks [] (.mem 8) := by
  have hst := lapStocked
  have hc : CollisionFree sampleCfg lapEnd.2.repo.log := collisionFree_of_check (by decide +kernel)
  have ha : rootRecord sampleCfg (some true) c!"0.2" 0 1 sampleUuid c!"v3" ⟨[], []⟩ [] none none againOpen.2 =
      (.ok (some 8), lapSecond.2) := of_okVal (x := lapSecond) (by decide +kernel)
  have h1 := lapOthers .refl
  have h2 := lapEnds
  have h3 := againOpened
  generalize lapEnd.2 = we at *
  generalize lapThen = wt at *
  generalize lapSecond.2 = ws at *
  generalize againOpen.2 = wo at *
  generalize wholeSecond.2.repo.log = L at *
  exact C67_last_partial (C := sampleCfg) (s := ⟨L, []⟩) (by decide) (.found _ 0 1 wo (idle_start _) hst h3) .refl (path := [])
    ⟨rfl, fun c hc => by cases hc⟩ (fun n hn => by cases hn) ha h1 h2 (s' := ⟨we.repo.log, []⟩)
    ⟨Grows.refl _, fun _ _ => rfl, hc⟩ rfl (idle_start _) auto now (id := sampleUuid) (v := c!"v3") (sub := none)
    (Or.inr ⟨rfl, rfl, rfl, rfl⟩) (fun q => absurd rfl q)

end MM
