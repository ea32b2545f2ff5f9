import Verif.Lemmas.MatBridge
import Verif.Spec.Mps
import Mathlib.LinearAlgebra.Matrix.PosDef

/-!
# Infinite matrix product states: fixed points and expectation values

The ket index of a fixed point comes first.
-/

namespace Xmps.Spec

open Finset Matrix ComplexOrder

/-- `l` and `r` are positive definite leading left and right fixed points of the transfer matrix of `A`:
`Σ_s A_s r A_s† = η r` and `Σ_s A_sᵀ l conj(A_s) = η l`. -/
structure FixedPoints (d D : ℕ) (A l r : ND ℂ) (eta : ℝ) : Prop where
  shape : A.shape = [d, D, D]
  shape_l : l.shape = [D, D]
  shape_r : r.shape = [D, D]
  eta_pos : 0 < eta
  right : ∑ s ∈ range d, toM3 D D A s * toM D D r * (toM3 D D A s)ᴴ = (eta : ℂ) • toM D D r
  left : ∑ s ∈ range d, (toM3 D D A s)ᵀ * toM D D l * (toM3 D D A s).map star = (eta : ℂ) • toM D D l
  pos_l : (toM D D l).PosDef
  pos_r : (toM D D r).PosDef

/-- The tensors are related by a change of basis of the bond and a factor. -/
def GaugeEquiv (d D : ℕ) (A B : ND ℂ) (c : ℝ) : Prop :=
  ∃ g gi : Matrix (Fin D) (Fin D) ℂ, g * gi = 1 ∧ ∀ s < d, toM3 D D B s = (c : ℂ) • (g * toM3 D D A s * gi)

/-- The expectation value of the one-site operator `op` in the infinite chain, from fixed points of the transfer matrix. -/
noncomputable def infExpect (d D : ℕ) (A l r : ND ℂ) (eta : ℝ) (op : ℕ → ℕ → ℂ) : ℂ :=
  (∑ s ∈ range d, ∑ t ∈ range d, op t s * ((toM D D l)ᵀ * toM3 D D A s * toM D D r * (toM3 D D A t)ᴴ).trace) /
    (eta * ((toM D D l)ᵀ * toM D D r).trace)

/-- The expectation value of the two-site operator `h` on neighbouring sites; `h s1 s2 t1 t2` is the entry with row `(s1, s2)`. -/
noncomputable def infExpect2 (d D : ℕ) (A l r : ND ℂ) (eta : ℝ) (h : ℕ → ℕ → ℕ → ℕ → ℂ) : ℂ :=
  (∑ s1 ∈ range d, ∑ s2 ∈ range d, ∑ t1 ∈ range d, ∑ t2 ∈ range d, h s1 s2 t1 t2 *
      ((toM D D l)ᵀ * (toM3 D D A t1 * toM3 D D A t2) * toM D D r * (toM3 D D A s1 * toM3 D D A s2)ᴴ).trace) /
    (eta ^ 2 * ((toM D D l)ᵀ * toM D D r).trace)

/-- Contract of `scipy.linalg.cholesky(M, lower=True)` for positive definite `M`; that the factor is triangular is not needed. -/
def CholLaw (chol : ND ℂ → Py (ND ℂ)) : Prop :=
  ∀ (M : ND ℂ) (n : ℕ), M.shape = [n, n] → (toM n n M).PosDef →
    ∃ X, chol M = .ok X ∧ X.shape = [n, n] ∧ toM n n X * (toM n n X)ᴴ = toM n n M

end Xmps.Spec
