import Mathlib.Data.List.Basic
import Mathlib.Data.Int.Notation
import Mathlib.Data.Int.Init

/-!
# Python exceptions as values

Every model function that can raise returns `Py α = Except PyErr α`.
`PyErr.diverges` is not a Python exception: it marks a `while` loop that ran out of the
fuel given to it in the model; the theorems show that it does not occur.
-/

namespace Xmps

/-- The Python exceptions raised by the modelled code. -/
inductive PyErr
  | valueError | indexError | typeError | attributeError | nameError | keyError
  | assertionError | fileNotFound | fileExists | notImplemented | exception | linAlgError | diverges
  deriving DecidableEq, Repr

/-- A Python computation that returns or raises. -/
abbrev Py (α : Type) := Except PyErr α

/-- `l[i]` for a non-negative index: `IndexError` past the end. -/
def pyGet {α : Type} (l : List α) (i : ℕ) : Py α :=
  match l[i]? with
  | some a => .ok a
  | none => .error .indexError

/-- `l[i]` for any integer index, negative indices counting from the end. -/
def pyGetI {α : Type} (l : List α) (i : ℤ) : Py α :=
  if 0 ≤ i then pyGet l i.toNat
  else if 0 ≤ i + l.length then pyGet l (i + l.length).toNat
  else .error .indexError

@[simp] theorem pyGet_ok {α : Type} {l : List α} {i : ℕ} (h : i < l.length) :
    pyGet l i = .ok l[i] := by
  simp [pyGet, h]

@[simp] theorem pyGet_cons_zero {α : Type} (a : α) (l : List α) : pyGet (a :: l) 0 = .ok a := rfl

@[simp] theorem pyGet_cons_succ {α : Type} (a : α) (l : List α) (i : ℕ) :
    pyGet (a :: l) (i + 1) = pyGet l i := by
  simp [pyGet]

theorem pyGet_err {α : Type} {l : List α} {i : ℕ} (h : l.length ≤ i) :
    pyGet l i = .error .indexError := by
  simp [pyGet, h]

@[simp] theorem ok_bind {α β : Type} (a : α) (f : α → Py β) : (Except.ok a >>= f) = f a := rfl

@[simp] theorem err_bind {α β : Type} (e : PyErr) (f : α → Py β) :
    ((Except.error e : Py α) >>= f) = Except.error e := rfl

@[simp] theorem py_pure {α : Type} (a : α) : (pure a : Py α) = Except.ok a := rfl

/-- `raise` when the condition fails. -/
def guardPy (c : Bool) (e : PyErr) : Py Unit := if c then .ok () else .error e

@[simp] theorem guardPy_true (e : PyErr) : guardPy true e = .ok () := rfl
@[simp] theorem guardPy_false (e : PyErr) : guardPy false e = .error e := rfl

theorem bind_eq_ok {α β : Type} {e : Py α} {f : α → Py β} {b : β} (h : (e >>= f) = .ok b) :
    ∃ a, e = .ok a ∧ f a = .ok b := by
  cases e with
  | error e => cases h
  | ok a => exact ⟨a, rfl, h⟩

end Xmps
