import Verif.Model.Tests

/-!
# Model of `==` and `!=` of chains and unit cells (`fMPS.py:192-205`, `iMPS.py:194-207`)

Both classes have the same text, which reads nothing but the lists of tensors.  Arithmetic is exact.
-/

namespace Xmps.EqMps

/-- the dimension two legs broadcast to -/
def bdim (m n : ℕ) : ℕ := if m = 1 then n else m

/-- the entry of an array that broadcasting puts at `idx` -/
def bval (A : ND ℂ) (idx : List ℕ) : ℂ := A.val (List.zipWith (fun n i => if n = 1 then 0 else i) A.shape idx)

open Classical in
/-- `numpy.allclose(a, b)` with the default tolerances and broadcasting, for arrays with the same number of legs (with different numbers of legs, which the
tensors of chains do not have, the model raises) -/
noncomputable def close (a b : ND ℂ) : Py Bool :=
  if a.shape.length = b.shape.length ∧ ∀ p ∈ a.shape.zip b.shape, p.1 = p.2 ∨ p.1 = 1 ∨ p.2 = 1 then
    .ok (decide (∀ idx, InB (List.zipWith bdim a.shape b.shape) idx → ‖bval a idx - bval b idx‖ ≤ 1 / 10 ^ 8 + 1 / 10 ^ 5 * ‖bval b idx‖))
  else .error .valueError

/-- `fMPS.py:192-198`, `iMPS.py:194-200` `x == y` -/
noncomputable def eq (x y : List (ND ℂ)) : Py Bool := do
  let l ← (x.zip y).mapM fun (a, b) => close a b
  .ok (l.all id)

/-- `fMPS.py:200-205`, `iMPS.py:202-207` `x != y` -/
noncomputable def ne (x y : List (ND ℂ)) : Py Bool := do
  let b ← eq x y
  .ok (!b)

end Xmps.EqMps
