import Verif.Spec.Imps
import Verif.Spec.ImpsOverlap

/-!
# Contract of the eigensolver of `r_eigenmatrix` and `l_eigenmatrix`
-/

namespace Xmps.Spec

open Finset Matrix ComplexOrder

/-- The eigenvalue `eta` of the transfer matrix of `A`, acting from the left on right environments, is not degenerate. -/
def SimpleRight (d D : ℕ) (A : ND ℂ) (eta : ℝ) : Prop :=
  ∀ M N : Matrix (Fin D) (Fin D) ℂ, ∑ s ∈ range d, toM3 D D A s * M * (toM3 D D A s)ᴴ = (eta : ℂ) • M →
    ∑ s ∈ range d, toM3 D D A s * N * (toM3 D D A s)ᴴ = (eta : ℂ) • N → N ≠ 0 → ∃ c : ℂ, M = c • N

/-- `M` is the transfer matrix of `B` as a matrix, row `(a, a')` and column `(b, b')` -/
def IsTransfer (d D : ℕ) (B M : ND ℂ) : Prop :=
  M.shape = [D ^ 2, D ^ 2] ∧ ∀ a < D, ∀ a' < D, ∀ b < D, ∀ b' < D,
    M.val [a * D + a', b * D + b'] = ∑ s ∈ range d, B.val [s, a, b] * star (B.val [s, a', b'])

/-- Contract of `scipy.sparse.linalg.eigs(M, k=1, which='LM')` for transfer matrices with positive definite fixed points of a simple eigenvalue: this
eigenvalue, which is the largest one, and a multiple of its eigenvector are found.  The phase is taken not to be purely imaginary. -/
def ArnLaw (arn : ND ℂ → Py (ℝ × ND ℂ)) : Prop :=
  ∀ (d D : ℕ) (B M l r : ND ℂ) (eta : ℝ), 0 < D → IsTransfer d D B M → FixedPoints d D B l r eta → SimpleRight d D B eta →
    ∃ v z, arn M = .ok (eta, v) ∧ v.shape = [D * D, 1] ∧ z.re ≠ 0 ∧ ∀ a < D, ∀ b < D, v.val [a * D + b, 0] = z * r.val [a, b]

end Xmps.Spec
