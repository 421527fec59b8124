/-
JSON values as Python holds them, and Python's `==` on them.
-/
import Verif.Basic

namespace MM

/-- A finite Python `float` (IEEE double): `± mant * 2 ^ (e - 1074)`.  The two
zeros are different floats.  Infinities and NaN are not modelled. -/
structure Flt where
  neg : Bool
  mant : Nat
  e : Nat
  ok : mant < 2 ^ 53 ∧ e ≤ 2045 ∧ (2 ^ 52 ≤ mant ∨ e = 0)
  deriving DecidableEq

/-- The value of a float, multiplied by `2 ^ 1074`, which makes it an integer. -/
def Flt.scaled (f : Flt) : Int :=
  if f.neg then - (f.mant * 2 ^ f.e : Nat) else (f.mant * 2 ^ f.e : Nat)

/-- The scale of `Flt.scaled`. -/
def Flt.unit : Int := 2 ^ 1074

/-- `JSONObject` of `__init__.py` 8-12.  Objects are Python dictionaries in
insertion order. -/
inductive Json
  | null
  | bool (b : Bool)
  | int (i : Int)
  | flt (f : Flt)
  | str (s : Str)
  | arr (l : List Json)
  | obj (l : List (Str × Json))

namespace Json

/-- Numbers compare by value in Python, and `True == 1`, `False == 0`. -/
def num? : Json → Option Int
  | .bool b => some (if b then Flt.unit else 0)
  | .int i => some (i * Flt.unit)
  | .flt f => some f.scaled
  | _ => none

mutual
/-- Python's `a == b` for JSON values. -/
def pyEq : Json → Json → Bool
  | .null, .null => true
  | .str s, .str t => s == t
  | .arr l, .arr m => pyEqArr l m
  | .obj l, .obj m => l.length == m.length && pyEqObj l m
  | .bool a, b => num? b == num? (.bool a)
  | .int a, b => num? b == num? (.int a)
  | .flt a, b => num? b == num? (.flt a)
  | _, _ => false
/-- Lists compare element by element. -/
def pyEqArr : List Json → List Json → Bool
  | [], [] => true
  | a :: l, b :: m => pyEq a b && pyEqArr l m
  | _, _ => false
/-- Every item of the first dictionary has an equal one in the second. -/
def pyEqObj : List (Str × Json) → List (Str × Json) → Bool
  | [], _ => true
  | (k, a) :: l, m =>
    (match dget m k with
     | none => false
     | some b => pyEq a b) && pyEqObj l m
end

mutual
/-- Dictionaries have distinct keys, at every depth. -/
def WF : Json → Prop
  | .arr l => WFArr l
  | .obj l => (dkeys l).Nodup ∧ WFObj l
  | _ => True
def WFArr : List Json → Prop
  | [] => True
  | a :: l => WF a ∧ WFArr l
def WFObj : List (Str × Json) → Prop
  | [] => True
  | (_, a) :: l => WF a ∧ WFObj l
end

theorem wfArr_iff {l : List Json} : WFArr l ↔ ∀ a ∈ l, WF a := by
  induction l with
  | nil => simp [WFArr]
  | cons a l ih => simp [WFArr, ih]

theorem wfObj_iff {l : List (Str × Json)} : WFObj l ↔ ∀ p ∈ l, WF p.2 := by
  induction l with
  | nil => simp [WFObj]
  | cons p l ih => obtain ⟨k, a⟩ := p; simp only [WFObj, ih, List.mem_cons, forall_eq_or_imp]

mutual
/-- Nesting depth plus size; bounds the recursion of the parser. -/
def size : Json → Nat
  | .arr l => sizeArr l + 1
  | .obj l => sizeObj l + 1
  | _ => 1
def sizeArr : List Json → Nat
  | [] => 1
  | a :: l => size a + sizeArr l + 1
def sizeObj : List (Str × Json) → Nat
  | [] => 1
  | (_, a) :: l => size a + sizeObj l + 1
end

theorem pyEqObj_iff {l m : List (Str × Json)} :
    pyEqObj l m = true ↔ ∀ k a, (k, a) ∈ l → ∃ b, dget m k = some b ∧ pyEq a b = true := by
  induction l with
  | nil => simp [pyEqObj]
  | cons p l ih =>
    obtain ⟨k, a⟩ := p
    simp only [pyEqObj, Bool.and_eq_true, ih, List.mem_cons, Prod.mk.injEq]
    constructor
    · rintro ⟨h1, h2⟩ k' a' (⟨rfl, rfl⟩ | h)
      · cases hd : dget m k' with
        | none => simp [hd] at h1
        | some b => simp [hd] at h1; exact ⟨b, rfl, h1⟩
      · exact h2 k' a' h
    · intro h
      refine ⟨?_, fun k' a' h' => h k' a' (Or.inr h')⟩
      obtain ⟨b, hb, he⟩ := h k a (Or.inl ⟨rfl, rfl⟩)
      simp [hb, he]

mutual
theorem pyEq_refl : ∀ a : Json, WF a → pyEq a a = true
  | .null, _ => by simp [pyEq]
  | .bool _, _ => by simp [pyEq]
  | .int _, _ => by simp [pyEq]
  | .flt _, _ => by simp [pyEq]
  | .str _, _ => by simp [pyEq]
  | .arr l, h => by
    simp only [pyEq]
    exact pyEqArr_refl l (by simpa [WF] using h)
  | .obj l, h => by
    simp only [WF] at h
    simp only [pyEq, beq_self_eq_true, Bool.true_and]
    exact pyEqObj_refl l l h.2 (fun k a hm => dget_of_mem h.1 hm)
theorem pyEqArr_refl : ∀ l : List Json, WFArr l → pyEqArr l l = true
  | [], _ => by simp [pyEqArr]
  | a :: l, h => by
    simp only [WFArr] at h
    simp [pyEqArr, pyEq_refl a h.1, pyEqArr_refl l h.2]
theorem pyEqObj_refl : ∀ l m : List (Str × Json), WFObj l →
    (∀ k a, (k, a) ∈ l → dget m k = some a) → pyEqObj l m = true
  | [], _, _, _ => by simp [pyEqObj]
  | (k, a) :: l, m, h, hm => by
    simp only [WFObj] at h
    simp only [pyEqObj, hm k a (by simp), pyEq_refl a h.1, Bool.true_and]
    exact pyEqObj_refl l m h.2 (fun k' a' hk => hm k' a' (by simp [hk]))
end

theorem length_le_of_keys {α β γ : Type} [DecidableEq α] {l : List (α × β)} {m : List (α × γ)}
    (hn : (dkeys l).Nodup) (h : ∀ k, k ∈ dkeys l → k ∈ dkeys m) : l.length ≤ m.length := by
  have := List.Nodup.length_le_of_subset hn (l₂ := dkeys m) h
  simpa [dkeys] using this

/-- With distinct keys and equal lengths, inclusion of keys is equality of key sets. -/
theorem keys_eq_of_length {α β γ : Type} [DecidableEq α] {l : List (α × β)}
    {m : List (α × γ)} (hl : (dkeys l).Nodup)
    (hlen : l.length = m.length) (h : ∀ k, k ∈ dkeys l → k ∈ dkeys m) :
    ∀ k, k ∈ dkeys m → k ∈ dkeys l := by
  intro k hk
  by_cases hc : k ∈ dkeys l
  · exact hc
  · exfalso
    have h1 : (k :: dkeys l).Nodup := List.nodup_cons.mpr ⟨hc, hl⟩
    have h2 : (k :: dkeys l) ⊆ dkeys m := by
      intro x hx
      rcases List.mem_cons.mp hx with e | e
      · subst e; exact hk
      · exact h x e
    have := List.Nodup.length_le_of_subset h1 h2
    simp [dkeys] at this
    omega

theorem num?_eq_of_pyEq {a b : Json} (h : pyEq a b = true) : num? a = num? b := by
  cases a <;> cases b <;> simp_all [pyEq, num?]

theorem pyEq_of_num? {a b : Json} {x : Int} (ha : num? a = some x) (hb : num? b = some x) :
    pyEq a b = true := by
  cases a <;> cases b <;> simp_all [pyEq, num?]

mutual
theorem pyEq_symm : ∀ a b : Json, WF a → WF b → pyEq a b = true → pyEq b a = true
  | .null, b, _, _, h => by cases b <;> simp_all [pyEq]
  | .str _, b, _, _, h => by cases b <;> simp_all [pyEq]
  | .bool x, b, _, _, h =>
    pyEq_of_num? (x := if x then Flt.unit else 0) (by rw [← num?_eq_of_pyEq h]; rfl) rfl
  | .int x, b, _, _, h =>
    pyEq_of_num? (x := x * Flt.unit) (by rw [← num?_eq_of_pyEq h]; rfl) rfl
  | .flt x, b, _, _, h =>
    pyEq_of_num? (x := x.scaled) (by rw [← num?_eq_of_pyEq h]; rfl) rfl
  | .arr l, b, ha, hb, h => by
    cases b with
    | arr m =>
      simp only [pyEq] at h ⊢
      exact pyEqArr_symm l m (by simpa [WF] using ha) (by simpa [WF] using hb) h
    | _ => simp [pyEq] at h
  | .obj l, b, ha, hb, h => by
    cases b with
    | obj m =>
      simp only [pyEq, Bool.and_eq_true, beq_iff_eq] at h ⊢
      simp only [WF] at ha hb
      refine ⟨h.1.symm, ?_⟩
      have h2 := pyEqObj_iff.mp h.2
      have hkeys : ∀ k, k ∈ dkeys l → k ∈ dkeys m := by
        intro k hk
        obtain ⟨p, hp, rfl⟩ := List.mem_map.mp hk
        obtain ⟨b, hb, _⟩ := h2 p.1 p.2 hp
        exact dget_isSome.mp (by simp [hb])
      have hback := keys_eq_of_length ha.1 h.1 hkeys
      have hsym := pyEqObj_symm l m ha.2 hb.2
      rw [pyEqObj_iff]
      intro k b hkb
      have hk : k ∈ dkeys l := hback k (List.mem_map.mpr ⟨(k, b), hkb, rfl⟩)
      obtain ⟨p, hp, hpk⟩ := List.mem_map.mp hk
      obtain ⟨k', a⟩ := p
      simp only at hpk
      subst hpk
      refine ⟨a, dget_of_mem ha.1 hp, ?_⟩
      obtain ⟨b', hb', he⟩ := h2 k' a hp
      have : b' = b := by
        have := dget_of_mem hb.1 hkb
        rw [hb'] at this
        exact Option.some.inj this
      subst this
      exact hsym k' a b' hp hb' he
    | _ => simp [pyEq] at h
theorem pyEqArr_symm : ∀ l m : List Json, WFArr l → WFArr m →
    pyEqArr l m = true → pyEqArr m l = true
  | [], m, _, _, h => by cases m <;> simp_all [pyEqArr]
  | a :: l, m, hl, hm, h => by
    cases m with
    | nil => simp [pyEqArr] at h
    | cons b m =>
      simp only [pyEqArr, Bool.and_eq_true, WFArr] at h hl hm ⊢
      exact ⟨pyEq_symm a b hl.1 hm.1 h.1, pyEqArr_symm l m hl.2 hm.2 h.2⟩
theorem pyEqObj_symm : ∀ l m : List (Str × Json), WFObj l → WFObj m →
    ∀ k a b, (k, a) ∈ l → dget m k = some b → pyEq a b = true → pyEq b a = true
  | [], _, _, _ => by simp
  | (k', a') :: l, m, hl, hm => by
    simp only [WFObj] at hl
    intro k a b hmem hb he
    have wb : WF b := wfObj_iff.mp hm _ (mem_of_dget hb)
    have h1 := pyEq_symm a' b hl.1 wb
    have h2 := pyEqObj_symm l m hl.2 hm k a b
    rcases List.mem_cons.mp hmem with e | e
    · cases e; exact h1 he
    · exact h2 e hb he
end

mutual
theorem pyEq_trans : ∀ a b c : Json, WF a → WF b → WF c →
    pyEq a b = true → pyEq b c = true → pyEq a c = true
  | .null, b, c, _, _, _, h1, h2 => by
    cases b with
    | null => exact h2
    | _ => simp [pyEq] at h1
  | .str s, b, c, _, _, _, h1, h2 => by
    cases b with
    | str t =>
      have e : s = t := by simpa [pyEq] using h1
      rw [e]; exact h2
    | _ => simp [pyEq] at h1
  | .bool x, b, c, _, _, _, h1, h2 =>
    pyEq_of_num? rfl (x := if x then Flt.unit else 0)
      (by rw [← num?_eq_of_pyEq h2, ← num?_eq_of_pyEq h1]; rfl)
  | .int x, b, c, _, _, _, h1, h2 =>
    pyEq_of_num? rfl (x := x * Flt.unit)
      (by rw [← num?_eq_of_pyEq h2, ← num?_eq_of_pyEq h1]; rfl)
  | .flt x, b, c, _, _, _, h1, h2 =>
    pyEq_of_num? rfl (x := x.scaled)
      (by rw [← num?_eq_of_pyEq h2, ← num?_eq_of_pyEq h1]; rfl)
  | .arr l, b, c, ha, hb, hc, h1, h2 => by
    cases b with
    | arr m =>
      cases c with
      | arr n =>
        simp only [pyEq, WF] at *
        exact pyEqArr_trans l m n ha hb hc h1 h2
      | _ => simp [pyEq] at h2
    | _ => simp [pyEq] at h1
  | .obj l, b, c, ha, hb, hc, h1, h2 => by
    cases b with
    | obj m =>
      cases c with
      | obj n =>
        simp only [pyEq, WF, Bool.and_eq_true, beq_iff_eq] at *
        refine ⟨h1.1.trans h2.1, ?_⟩
        exact pyEqObj_trans l m n ha.2 hb.2 hc.2 h1.2 (pyEqObj_iff.mp h2.2)
      | _ => simp [pyEq] at h2
    | _ => simp [pyEq] at h1
theorem pyEqArr_trans : ∀ l m n : List Json, WFArr l → WFArr m → WFArr n →
    pyEqArr l m = true → pyEqArr m n = true → pyEqArr l n = true
  | [], m, n, _, _, _, h1, h2 => by
    cases m with
    | nil => exact h2
    | cons b m => simp [pyEqArr] at h1
  | a :: l, m, n, hl, hm, hn, h1, h2 => by
    cases m with
    | nil => simp [pyEqArr] at h1
    | cons b m =>
      cases n with
      | nil => simp [pyEqArr] at h2
      | cons c n =>
        simp only [pyEqArr, Bool.and_eq_true, WFArr] at *
        exact ⟨pyEq_trans a b c hl.1 hm.1 hn.1 h1.1 h2.1,
          pyEqArr_trans l m n hl.2 hm.2 hn.2 h1.2 h2.2⟩
theorem pyEqObj_trans : ∀ l m n : List (Str × Json), WFObj l → WFObj m → WFObj n →
    pyEqObj l m = true →
    (∀ k b, (k, b) ∈ m → ∃ c, dget n k = some c ∧ pyEq b c = true) → pyEqObj l n = true
  | [], _, _, _, _, _, _, _ => by simp [pyEqObj]
  | (k, a) :: l, m, n, hl, hm, hn, h1, h2 => by
    simp only [WFObj] at hl
    simp only [pyEqObj, Bool.and_eq_true] at h1 ⊢
    refine ⟨?_, pyEqObj_trans l m n hl.2 hm hn h1.2 h2⟩
    cases hd : dget m k with
    | none => simp [hd] at h1
    | some b =>
      simp only [hd] at h1
      obtain ⟨c, hc, he⟩ := h2 k b (mem_of_dget hd)
      simp only [hc]
      exact pyEq_trans a b c hl.1 (wfObj_iff.mp hm _ (mem_of_dget hd))
        (wfObj_iff.mp hn _ (mem_of_dget hc)) h1.1 he
end

end Json
end MM
