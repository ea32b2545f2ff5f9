import Verif.Base.NpMore
import Mathlib.Analysis.Complex.Basic

/-!
# Contracts of the LAPACK calls

The factorisations are parameters of the model.  These are the properties the theorems assume of
them; `Props/LapackExists.lean` shows that over `ℂ` functions with these properties exist.
-/

namespace Xmps.Spec

open Finset

variable {K : Type} [CommSemiring K] [StarRing K]

/-- The columns of a matrix are orthonormal. -/
def ColsOrtho (Q : ND K) : Prop :=
  ∀ k < Q.dim 1, ∀ k' < Q.dim 1,
    ∑ i ∈ range (Q.dim 0), star (Q.val [i, k]) * Q.val [i, k'] = if k = k' then 1 else 0

/-- The rows of a matrix are orthonormal. -/
def RowsOrtho (Q : ND K) : Prop :=
  ∀ k < Q.dim 0, ∀ k' < Q.dim 0,
    ∑ j ∈ range (Q.dim 1), Q.val [k, j] * star (Q.val [k', j]) = if k = k' then 1 else 0

/-- `scipy.linalg.qr(A, mode='economic')`: `A = Q R`, orthonormal columns, inner dimension
`min m n`, `R` upper triangular. -/
def QRLaw (qr : ND K → Py (ND K × ND K)) : Prop :=
  ∀ (A : ND K) (m n : ℕ), A.shape = [m, n] → 0 < m → 0 < n →
    ∃ Q R, qr A = .ok (Q, R) ∧ Q.shape = [m, min m n] ∧ R.shape = [min m n, n] ∧ ColsOrtho Q ∧
      (∀ i < m, ∀ j < n, A.val [i, j] = ∑ k ∈ range (min m n), Q.val [i, k] * R.val [k, j]) ∧
      ∀ k < min m n, ∀ j < k, R.val [k, j] = 0

/-- `scipy.linalg.rq(A, mode='economic')`: `A = R Q`, orthonormal rows, inner dimension `min m n`. -/
def RQLaw (rq : ND K → Py (ND K × ND K)) : Prop :=
  ∀ (A : ND K) (m n : ℕ), A.shape = [m, n] → 0 < m → 0 < n →
    ∃ R Q, rq A = .ok (R, Q) ∧ R.shape = [m, min m n] ∧ Q.shape = [min m n, n] ∧ RowsOrtho Q ∧
      ∀ i < m, ∀ j < n, A.val [i, j] = ∑ k ∈ range (min m n), R.val [i, k] * Q.val [k, j]

/-- `scipy.linalg.svd(A, full_matrices=False)`: `A = U diag(S) V`, orthonormal columns of `U` and rows
of `V`, inner dimension `min m n`, singular values non-negative and in decreasing order. -/
def SVDLaw (svd : ND ℂ → Py (ND ℂ × List ℝ × ND ℂ)) : Prop :=
  ∀ (A : ND ℂ) (m n : ℕ), A.shape = [m, n] → 0 < m → 0 < n →
    ∃ U S V, svd A = .ok (U, S, V) ∧ U.shape = [m, min m n] ∧ S.length = min m n ∧ V.shape = [min m n, n] ∧
      ColsOrtho U ∧ RowsOrtho V ∧ (∀ x ∈ S, 0 ≤ x) ∧ S.Pairwise (· ≥ ·) ∧
      ∀ i < m, ∀ j < n, A.val [i, j] = ∑ k ∈ range (min m n), U.val [i, k] * (S.getD k 0 : ℝ) * V.val [k, j]

/-- A square matrix is Hermitian and positive semidefinite. -/
def PosSemi (n : ℕ) (M : ℕ → ℕ → ℂ) : Prop :=
  (∀ i < n, ∀ j < n, M j i = star (M i j)) ∧
    ∀ v : ℕ → ℂ, 0 ≤ (∑ i ∈ range n, ∑ j ∈ range n, star (v i) * M i j * v j).re

/-- What `numpy.linalg.eig` documents for a diagonalisable matrix: the columns of `V` are linearly
independent unit eigenvectors; nothing about their order or orthogonality. -/
def EigLaw (eig : ND ℂ → Py (List ℂ × ND ℂ)) : Prop :=
  ∀ (M : ND ℂ) (n : ℕ), M.shape = [n, n] → 0 < n → PosSemi n (fun i j => M.val [i, j]) →
    ∃ w V, eig M = .ok (w, V) ∧ w.length = n ∧ V.shape = [n, n] ∧
      (∀ k < n, ∑ i ∈ range n, star (V.val [i, k]) * V.val [i, k] = 1) ∧
      (∀ c : ℕ → ℂ, (∀ i < n, ∑ k ∈ range n, V.val [i, k] * c k = 0) → ∀ k < n, c k = 0) ∧
      ∀ i < n, ∀ k < n, ∑ j ∈ range n, M.val [i, j] * V.val [j, k] = V.val [i, k] * w.getD k 0

/-- What the sweeps of `left_canonicalise` need in addition, for positive semidefinite matrices:
orthonormal eigenvectors, with the null vectors last. -/
def EigOrthoLaw (eig : ND ℂ → Py (List ℂ × ND ℂ)) : Prop :=
  ∀ (M : ND ℂ) (n : ℕ), M.shape = [n, n] → 0 < n → PosSemi n (fun i j => M.val [i, j]) →
    ∃ w V, eig M = .ok (w, V) ∧ w.length = n ∧ V.shape = [n, n] ∧ ColsOrtho V ∧
      (∀ i < n, ∀ k < n, ∑ j ∈ range n, M.val [i, j] * V.val [j, k] = V.val [i, k] * w.getD k 0) ∧
      ∀ i j, i < j → w.getD i 0 = 0 → w.getD j 0 = 0

/-- `scipy.linalg.null_space(A)`: the columns are an orthonormal basis of the kernel (exact arithmetic, no rank tolerance). -/
def NullLaw (null : ND ℂ → Py (ND ℂ)) : Prop :=
  ∀ (A : ND ℂ) (m n : ℕ), A.shape = [m, n] → 0 < m → 0 < n →
    ∃ N k, null A = .ok N ∧ N.shape = [n, k] ∧ ColsOrtho N ∧
      (∀ i < m, ∀ c < k, ∑ j ∈ range n, A.val [i, j] * N.val [j, c] = 0) ∧
      ∀ v : ℕ → ℂ, (∀ i < m, ∑ j ∈ range n, A.val [i, j] * v j = 0) →
        ∀ j < n, v j = ∑ c ∈ range k, N.val [j, c] * ∑ j' ∈ range n, star (N.val [j', c]) * v j'

end Xmps.Spec
