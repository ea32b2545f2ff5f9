import Verif.Lemmas.MatBridge
import Mathlib.LinearAlgebra.Matrix.PosDef

/-!
# Contract of `numpy.linalg.cholesky`
-/

namespace Xmps.Spec

open Matrix ComplexOrder

/-- `numpy.linalg.cholesky(M)` for positive definite `M`: the lower triangular `X` with positive diagonal and `X X† = M`. -/
def CholTriLaw (chol : ND ℂ → Py (ND ℂ)) : Prop :=
  ∀ (M : ND ℂ) (n : ℕ), M.shape = [n, n] → (toM n n M).PosDef →
    ∃ X, chol M = .ok X ∧ X.shape = [n, n] ∧ (∀ i < n, ∀ j < n, i < j → X.val [i, j] = 0) ∧ (∀ i < n, 0 < X.val [i, i]) ∧
      toM n n X * (toM n n X)ᴴ = toM n n M

end Xmps.Spec
