import Verif.Spec.Imps
import Mathlib.LinearAlgebra.Matrix.ToLin

/-!
# When two tensors generate the same infinite state, and the contract of the iterative eigensolver
-/

namespace Xmps.Spec

open Finset Matrix

/-- The tensors generate the same infinite state: they differ by a change of basis of the bond and a factor. -/
def SameInf (d D : ℕ) (A B : ND ℂ) : Prop :=
  ∃ (g gi : Matrix (Fin D) (Fin D) ℂ) (c : ℂ), g * gi = 1 ∧ c ≠ 0 ∧ ∀ s < d, toM3 D D B s = c • (g * toM3 D D A s * gi)

/-- The eigenvalue `eta` of the transfer matrix of `A` is not degenerate. -/
def SimpleLeft (d D : ℕ) (A : ND ℂ) (eta : ℝ) : Prop :=
  ∀ M N : Matrix (Fin D) (Fin D) ℂ, ∑ s ∈ range d, (toM3 D D A s)ᴴ * M * toM3 D D A s = (eta : ℂ) • M →
    ∑ s ∈ range d, (toM3 D D A s)ᴴ * N * toM3 D D A s = (eta : ℂ) • N → N ≠ 0 → ∃ c : ℂ, M = c • N

/-- `f` multiplies vectors with `n` entries by `M`. -/
def ActsAs (f : ND ℂ → Py (ND ℂ)) (n : ℕ) (M : Matrix (Fin n) (Fin n) ℂ) : Prop :=
  ∀ v : ND ℂ, v.shape = [n] → ∃ w, f v = .ok w ∧ w.shape = [n] ∧ ∀ x : Fin n, w.val [(x : ℕ)] = ∑ y : Fin n, M x y * v.val [(y : ℕ)]

/-- Contract of `scipy.sparse.linalg.eigs(f, k=1)` for an operator with more than two rows (it refuses smaller ones): an eigenvalue of
largest modulus with a unit eigenvector. -/
def LeadingLaw (arn : (ND ℂ → Py (ND ℂ)) → ℕ → Py (ℂ × ND ℂ)) : Prop :=
  ∀ (n : ℕ) (f : ND ℂ → Py (ND ℂ)) (M : Matrix (Fin n) (Fin n) ℂ), 2 < n → ActsAs f n M →
    ∃ η l, arn f n = .ok (η, l) ∧ l.shape = [n, 1] ∧ ∑ x : Fin n, ‖l.val [(x : ℕ), 0]‖ ^ 2 = 1 ∧
      (M *ᵥ fun x => l.val [(x : ℕ), 0]) = η • (fun x : Fin n => l.val [(x : ℕ), 0]) ∧
      ∀ (μ : ℂ) (v : Fin n → ℂ), v ≠ 0 → M *ᵥ v = μ • v → ‖μ‖ ≤ ‖η‖

end Xmps.Spec
