/-
Python code as functions on a state.  A raised exception is a value, and the
state reached before it is kept, as in Python.
-/
import Verif.Basic

namespace MM

/-- Code that reads and changes a state `σ`, and returns a value or raises. -/
def M (σ α : Type) : Type := σ → Except PyErr α × σ

namespace M
variable {σ α β γ : Type}

/-- Code that returns a value and does nothing else. -/
def pure (a : α) : M σ α := fun s => (.ok a, s)

/-- One piece of code after another; an exception ends it. -/
def bind (x : M σ α) (f : α → M σ β) : M σ β := fun s =>
  match x s with
  | (.ok a, s') => f a s'
  | (.error e, s') => (.error e, s')

instance : Monad (M σ) where
  pure := M.pure
  bind := M.bind

/-- `raise e` -/
def raise (e : PyErr) : M σ α := fun s => (.error e, s)

/-- `assert b` -/
def assert (b : Bool) : M σ Unit := if b then pure () else raise .assertion

/-- Use the result of a function that only computes. -/
def ofExcept : Except PyErr α → M σ α
  | .ok a => pure a
  | .error e => raise e

/-- The current state -/
def get : M σ σ := fun s => (.ok s, s)

/-- Change the state -/
def modify (f : σ → σ) : M σ Unit := fun s => (.ok (), f s)

/-- `for a in l: f(a)`, collecting the results. -/
def forEach (f : α → M σ β) : List α → M σ (List β)
  | [] => pure []
  | a :: l => bind (f a) fun b => bind (forEach f l) fun bs => pure (b :: bs)

/-- `try: x  except RuntimeError: y` -/
def catchRuntime (x : M σ α) (y : M σ α) : M σ α := fun s =>
  match x s with
  | (.error .runtime, s') => y s'
  | r => r

/-- `try: x  finally: y` -/
def finally_ (x : M σ α) (y : M σ Unit) : M σ α := fun s =>
  match x s with
  | (r, s') => match y s' with
    | (.ok _, s'') => (r, s'')
    | (.error e, s'') => (.error e, s'')

@[simp] theorem pure_run (a : α) (s : σ) : (Pure.pure a : M σ α) s = (.ok a, s) := rfl
@[simp] theorem pure_run' (a : α) (s : σ) : (M.pure a : M σ α) s = (.ok a, s) := rfl
@[simp] theorem raise_run (e : PyErr) (s : σ) : (raise e : M σ α) s = (.error e, s) := rfl
@[simp] theorem get_run (s : σ) : (get : M σ σ) s = (.ok s, s) := rfl
@[simp] theorem modify_run (f : σ → σ) (s : σ) : (modify f) s = (.ok (), f s) := rfl

theorem bind_run (x : M σ α) (f : α → M σ β) (s : σ) :
    (x >>= f) s = match x s with
      | (.ok a, s') => f a s'
      | (.error e, s') => (.error e, s') := rfl

theorem bind_ok {x : M σ α} {f : α → M σ β} {s s' : σ} {b : β} (h : (x >>= f) s = (.ok b, s')) :
    ∃ a s1, x s = (.ok a, s1) ∧ f a s1 = (.ok b, s') := by
  rw [bind_run] at h
  split at h
  · rename_i a s1 e; exact ⟨a, s1, e, h⟩
  · cases h

theorem bind_of_ok {x : M σ α} {f : α → M σ β} {s s' : σ} {a : α} (h : x s = (.ok a, s')) :
    (x >>= f) s = f a s' := by rw [bind_run, h]

theorem bind_of_error {x : M σ α} {f : α → M σ β} {s s' : σ} {e : PyErr}
    (h : x s = (.error e, s')) : (x >>= f) s = (.error e, s') := by rw [bind_run, h]

theorem bind_error {x : M σ α} {f : α → M σ β} {s s' : σ} {e : PyErr}
    (h : (x >>= f) s = (.error e, s')) :
    x s = (.error e, s') ∨ ∃ a s1, x s = (.ok a, s1) ∧ f a s1 = (.error e, s') := by
  rw [bind_run] at h
  split at h
  · rename_i a s1 e'; exact Or.inr ⟨a, s1, e', h⟩
  · rename_i e0 s1 e'; cases h; exact Or.inl e'

@[simp] theorem assert_true (s : σ) : (assert true : M σ Unit) s = (.ok (), s) := rfl
@[simp] theorem assert_false (s : σ) : (assert false : M σ Unit) s = (.error .assertion, s) := rfl

theorem assert_ok {b : Bool} {s s' : σ} (h : (assert b : M σ Unit) s = (.ok (), s')) :
    b = true ∧ s' = s := by
  cases b
  · simp at h
  · simp at h; exact ⟨rfl, h.symm⟩

@[simp] theorem ofExcept_ok (a : α) (s : σ) : (ofExcept (.ok a) : M σ α) s = (.ok a, s) := rfl
@[simp] theorem ofExcept_error (e : PyErr) (s : σ) :
    (ofExcept (.error e) : M σ α) s = (.error e, s) := rfl

theorem ofExcept_eq_ok {x : Except PyErr α} {s s' : σ} {a : α}
    (h : (ofExcept x : M σ α) s = (.ok a, s')) : x = .ok a ∧ s' = s := by
  cases x
  · simp at h
  · simp at h; exact ⟨by rw [h.1], h.2.symm⟩

theorem forEach_nil (f : α → M σ β) (s : σ) : forEach f [] s = (.ok [], s) := rfl

theorem forEach_cons (f : α → M σ β) (a : α) (l : List α) :
    forEach f (a :: l) = (f a >>= fun b => forEach f l >>= fun bs => Pure.pure (b :: bs)) := rfl

/-- A relation between the states before and after, whatever the outcome. -/
def Keeps (x : M σ α) (R : σ → σ → Prop) : Prop := ∀ s, R s (x s).2

theorem Keeps.pure {R : σ → σ → Prop} (hr : ∀ s, R s s) (a : α) : Keeps (Pure.pure a : M σ α) R :=
  fun s => hr s

theorem Keeps.raise {R : σ → σ → Prop} (hr : ∀ s, R s s) (e : PyErr) :
    Keeps (M.raise e : M σ α) R := fun s => hr s

theorem Keeps.assert {R : σ → σ → Prop} (hr : ∀ s, R s s) (b : Bool) :
    Keeps (M.assert b : M σ Unit) R := fun s => by cases b <;> exact hr s

theorem Keeps.ofExcept {R : σ → σ → Prop} (hr : ∀ s, R s s) (x : Except PyErr α) :
    Keeps (M.ofExcept x : M σ α) R := fun s => by cases x <;> exact hr s

theorem Keeps.get {R : σ → σ → Prop} (hr : ∀ s, R s s) : Keeps (M.get : M σ σ) R := fun s => hr s

theorem Keeps.bind {R : σ → σ → Prop} (ht : ∀ a b c, R a b → R b c → R a c) {x : M σ α}
    {f : α → M σ β} (hx : Keeps x R) (hf : ∀ a, Keeps (f a) R) : Keeps (x >>= f) R := by
  intro s
  rw [bind_run]
  have := hx s
  split
  · rename_i a s' e; rw [e] at this; exact ht _ _ _ this (hf a s')
  · rename_i e' s' e; rw [e] at this; exact this

theorem Keeps.forEach {R : σ → σ → Prop} (hr : ∀ s, R s s) (ht : ∀ a b c, R a b → R b c → R a c)
    {f : α → M σ β} {l : List α} (hf : ∀ a ∈ l, Keeps (f a) R) : Keeps (M.forEach f l) R := by
  induction l with
  | nil => exact fun s => hr s
  | cons a l ih =>
    rw [forEach_cons]
    refine Keeps.bind ht (hf a (List.mem_cons_self ..)) fun b => ?_
    exact Keeps.bind ht (ih fun x hx => hf x (List.mem_cons_of_mem _ hx)) fun bs => Keeps.pure hr _

end M

end MM
