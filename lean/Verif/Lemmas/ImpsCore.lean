import Mathlib.LinearAlgebra.Matrix.PosDef
import Mathlib.LinearAlgebra.Matrix.NonsingularInverse
import Mathlib.Analysis.Complex.Basic
import Mathlib.Analysis.SpecialFunctions.Sqrt

/-! # Matrix identities behind the canonical form of an infinite MPS -/

namespace Xmps.ImpsCore

open Matrix Finset

/-- what the calls in `canonicalise` provide -/
structure Data {D : ℕ} (d : ℕ) (a : ℕ → Matrix (Fin D) (Fin D) ℂ) (eta : ℝ) (l r X Y U V Xi Wi : Matrix (Fin D) (Fin D) ℂ)
    (S : Fin D → ℝ) : Prop where
  eta_pos : 0 < eta
  right : ∑ s ∈ range d, a s * r * (a s)ᴴ = (eta : ℂ) • r
  left : ∑ s ∈ range d, (a s)ᴴ * lᵀ * a s = (eta : ℂ) • lᵀ
  hX : X * Xᴴ = r
  hY : Y * Yᴴ = l
  hU : Uᴴ * U = 1
  hV : V * Vᴴ = 1
  nonneg : ∀ i, 0 ≤ S i
  svd : U * diagonal (fun i => (S i : ℂ)) * V = Yᵀ * X
  hXi : Xi * X = 1
  hWi : Wi * Yᵀ = 1

variable {D d : ℕ} {a : ℕ → Matrix (Fin D) (Fin D) ℂ} {eta : ℝ} {l r X Y U V Xi Wi : Matrix (Fin D) (Fin D) ℂ} {S : Fin D → ℝ}

/-- `Γ` up to its factor -/
def G0 (a : ℕ → Matrix (Fin D) (Fin D) ℂ) (U V Xi Wi : Matrix (Fin D) (Fin D) ℂ) (s : ℕ) : Matrix (Fin D) (Fin D) ℂ :=
  V * Xi * a s * (Wi * U)

def dS (S : Fin D → ℝ) : Matrix (Fin D) (Fin D) ℂ := diagonal fun i => (S i : ℂ)

theorem dS_herm (S : Fin D → ℝ) : (dS S)ᴴ = dS S := by
  rw [dS, diagonal_conjTranspose]
  congr 1
  funext i
  simp

namespace Data

variable (h : Data d a eta l r X Y U V Xi Wi S)

include h

theorem XXi : X * Xi = 1 := mul_eq_one_comm.1 h.hXi

theorem WWi : Yᵀ * Wi = 1 := mul_eq_one_comm.1 h.hWi

theorem UU : U * Uᴴ = 1 := mul_eq_one_comm.1 h.hU

theorem VV : Vᴴ * V = 1 := mul_eq_one_comm.1 h.hV

theorem WW : Yᵀᴴ * Yᵀ = lᵀ := by
  rw [← h.hY, transpose_mul]
  congr 1

/-- `Y⁻ᵀ U S = X V†` -/
theorem rightSide : Wi * U * dS S = X * Vᴴ := by
  have h1 : U * dS S = Yᵀ * X * Vᴴ := by
    rw [← h.svd, Matrix.mul_assoc _ V, h.hV, Matrix.mul_one]
    rfl
  rw [Matrix.mul_assoc, h1, ← Matrix.mul_assoc, ← Matrix.mul_assoc, h.hWi, Matrix.one_mul]

/-- `S V X⁻¹ = U† Yᵀ` -/
theorem leftSide : dS S * (V * Xi) = Uᴴ * Yᵀ := by
  have h1 : dS S * V = Uᴴ * (Yᵀ * X) := by
    rw [← h.svd, Matrix.mul_assoc U, ← Matrix.mul_assoc, h.hU, Matrix.one_mul]
    rfl
  rw [← Matrix.mul_assoc, h1, Matrix.mul_assoc, Matrix.mul_assoc, h.XXi, Matrix.mul_one]

/-- `Γ S` is a gauge transform of `A` -/
theorem G0_right (s : ℕ) : G0 a U V Xi Wi s * dS S = V * Xi * a s * (X * Vᴴ) := by
  rw [G0, Matrix.mul_assoc, h.rightSide]

/-- `S Γ` is a gauge transform of `A` -/
theorem G0_left (s : ℕ) : dS S * G0 a U V Xi Wi s = Uᴴ * Yᵀ * a s * (Wi * U) := by
  rw [← h.leftSide, G0]
  simp only [Matrix.mul_assoc]

theorem gauge_right : V * Xi * (X * Vᴴ) = 1 := by
  rw [Matrix.mul_assoc, ← Matrix.mul_assoc Xi, h.hXi, Matrix.one_mul, h.hV]

theorem gauge_left : Uᴴ * Yᵀ * (Wi * U) = 1 := by
  rw [Matrix.mul_assoc, ← Matrix.mul_assoc Yᵀ, h.WWi, Matrix.one_mul, h.hU]

/-- `Σ_s Γ_s S² Γ_s† = η` -/
theorem right_canonical : ∑ s ∈ range d, (G0 a U V Xi Wi s * dS S) * (G0 a U V Xi Wi s * dS S)ᴴ = (eta : ℂ) • 1 := by
  have h1 : ∀ s, (G0 a U V Xi Wi s * dS S) * (G0 a U V Xi Wi s * dS S)ᴴ = V * Xi * (a s * r * (a s)ᴴ) * (V * Xi)ᴴ := by
    intro s
    have h2 : (X * Vᴴ) * (X * Vᴴ)ᴴ = r := by
      rw [conjTranspose_mul, conjTranspose_conjTranspose, Matrix.mul_assoc, ← Matrix.mul_assoc Vᴴ, h.VV, Matrix.one_mul, h.hX]
    rw [h.G0_right, conjTranspose_mul, conjTranspose_mul _ (a s), ← h2]
    simp only [Matrix.mul_assoc]
  rw [sum_congr rfl fun s _ => h1 s, ← Finset.sum_mul, ← Finset.mul_sum, h.right, Matrix.mul_smul, Matrix.smul_mul]
  congr 1
  have : V * Xi * r * (V * Xi)ᴴ = (V * (Xi * X)) * (V * (Xi * X))ᴴ := by
    rw [← h.hX]
    simp only [conjTranspose_mul, Matrix.mul_assoc]
  rw [this, h.hXi, Matrix.mul_one, h.hV]

/-- `Σ_s Γ_s† S² Γ_s = η` -/
theorem left_canonical : ∑ s ∈ range d, (dS S * G0 a U V Xi Wi s)ᴴ * (dS S * G0 a U V Xi Wi s) = (eta : ℂ) • 1 := by
  have h1 : ∀ s, (dS S * G0 a U V Xi Wi s)ᴴ * (dS S * G0 a U V Xi Wi s) = (Wi * U)ᴴ * ((a s)ᴴ * lᵀ * a s) * (Wi * U) := by
    intro s
    have h2 : (Uᴴ * Yᵀ)ᴴ * (Uᴴ * Yᵀ) = lᵀ := by
      rw [conjTranspose_mul, conjTranspose_conjTranspose, Matrix.mul_assoc, ← Matrix.mul_assoc U, h.UU, Matrix.one_mul, h.WW]
    rw [h.G0_left, conjTranspose_mul, conjTranspose_mul _ (a s), ← h2]
    simp only [Matrix.mul_assoc]
  rw [sum_congr rfl fun s _ => h1 s, ← Finset.sum_mul, ← Finset.mul_sum, h.left, Matrix.mul_smul, Matrix.smul_mul]
  congr 1
  have : (Wi * U)ᴴ * lᵀ * (Wi * U) = ((Yᵀ * Wi) * U)ᴴ * ((Yᵀ * Wi) * U) := by
    rw [← h.WW]
    simp only [conjTranspose_mul, Matrix.mul_assoc]
  rw [this, h.WWi, Matrix.one_mul, h.hU]

/-- the singular values are positive -/
theorem S_pos (i : Fin D) : 0 < S i := by
  have h3 : dS S * (V * Xi * (Wi * U)) = 1 := by
    rw [← Matrix.mul_assoc, h.leftSide, h.gauge_left]
  have h4 := congrFun (congrFun h3 i) i
  rw [dS, diagonal_mul, one_apply_eq] at h4
  refine lt_of_le_of_ne (h.nonneg i) fun e => ?_
  rw [← e] at h4
  simp at h4

/-- the sum of the squared singular values -/
theorem sum_sq : (((∑ i, S i * S i : ℝ)) : ℂ) = (lᵀ * r).trace := by
  have h1 : (lᵀ * r).trace = ((Yᵀ * X)ᴴ * (Yᵀ * X)).trace := by
    rw [← h.WW, ← h.hX, Matrix.trace_mul_comm, conjTranspose_mul]
    conv_lhs => rw [Matrix.mul_assoc, Matrix.trace_mul_comm]
    simp only [Matrix.mul_assoc]
  rw [h1, ← h.svd]
  have h2 : (U * dS S * V)ᴴ * (U * dS S * V) = Vᴴ * (dS S * dS S) * V := by
    simp only [conjTranspose_mul, dS_herm]
    rw [show Vᴴ * (dS S * Uᴴ) * (U * dS S * V) = Vᴴ * (dS S * ((Uᴴ * U) * dS S)) * V by simp only [Matrix.mul_assoc], h.hU, Matrix.one_mul]
  change _ = ((U * dS S * V)ᴴ * (U * dS S * V)).trace
  rw [h2, Matrix.trace_mul_comm, ← Matrix.mul_assoc, h.hV, Matrix.one_mul, dS, diagonal_mul_diagonal, trace_diagonal]
  push_cast
  rfl

theorem sum_pos (hD : 0 < D) : 0 < ∑ i, S i * S i :=
  Finset.sum_pos (fun i _ => mul_pos (h.S_pos i) (h.S_pos i)) ⟨⟨0, hD⟩, mem_univ _⟩

end Data

end Xmps.ImpsCore
