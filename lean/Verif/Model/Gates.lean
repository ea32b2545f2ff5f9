import Mathlib.LinearAlgebra.Matrix.Notation
import Mathlib.Analysis.InnerProductSpace.PiL2
import Mathlib.Analysis.SpecialFunctions.Trigonometric.Basic

/-!
# Model of two-qubit gates (`xmps/spin.py`) and of `embed`/`deembed` (`xmps/tensor.py`)

Square arrays of a fixed size are Mathlib matrices here.
-/

namespace Xmps.Gates

open Matrix

variable {K : Type}

/-- `spin.py:77-81` `swap`. -/
def swap [Zero K] [One K] : Matrix (Fin 4) (Fin 4) K :=
  !![1, 0, 0, 0; 0, 0, 1, 0; 0, 1, 0, 0; 0, 0, 0, 1]

/-- `spin.py:71-72` `swap_symmetrise`. -/
def swapSymmetrise [Field K] (U : Matrix (Fin 4) (Fin 4) K) : Matrix (Fin 4) (Fin 4) K := (2 : K)⁻¹ • (U + swap * U * swap)

/-- `spin.py:74-75` `swap_antisymmetrise`: the code has a plus sign here. -/
def swapAntisymmetrise [Field K] (U : Matrix (Fin 4) (Fin 4) K) : Matrix (Fin 4) (Fin 4) K := (2 : K)⁻¹ • (U + swap * U * swap)

/-- `spin.py:68-69` `is_swap_symmetric`; `allclose(., 0)` is equality with 0. -/
def isSwapSymmetric [Field K] (U : Matrix (Fin 4) (Fin 4) K) : Prop := U - swapAntisymmetrise U = 0

/-- `spin.py:83-84` `CZ`. -/
def CZ [Zero K] [One K] [Neg K] : Matrix (Fin 4) (Fin 4) K :=
  !![1, 0, 0, 0; 0, 1, 0, 0; 0, 0, 1, 0; 0, 0, 0, -1]

/-- `spin.py:86-87` `CNOT`. -/
def CNOT [Zero K] [One K] : Matrix (Fin 4) (Fin 4) K :=
  !![1, 0, 0, 0; 0, 1, 0, 0; 0, 0, 0, 1; 0, 0, 1, 0]

/-- `spin.py:89-90` `CRy`. -/
noncomputable def CRy (θ : ℝ) : Matrix (Fin 4) (Fin 4) ℝ :=
  !![1, 0, 0, 0; 0, 1, 0, 0; 0, 0, Real.cos (θ / 2), Real.sin (θ / 2); 0, 0, Real.sin (-θ / 2), Real.cos (θ / 2)]

/-- `np.kron` of two-component vectors. -/
def kron2 [Mul K] (u v : Fin 2 → K) : Fin 4 → K := ![u 0 * v 0, u 0 * v 1, u 1 * v 0, u 1 * v 1]

/-! ### `embed` -/

/-- `norm(v)` of a vector. -/
noncomputable def norm2 {n : ℕ} (v : Fin n → ℂ) : ℝ := Real.sqrt (∑ k, ‖v k‖ ^ 2)

/-- The contract of `scipy.linalg.null_space` for a single row of norm 1: the `n` columns are orthonormal
and are annihilated by the row. -/
structure NullRow {n : ℕ} (v : Fin (n + 1) → ℂ) (N : Matrix (Fin (n + 1)) (Fin n) ℂ) : Prop where
  orth : Nᴴ * N = 1
  null : ∀ j, ∑ k, v k * N k j = 0

/-- `tensor.py:36-47` `embed` for a block with entries `v` in C order; `null_space` is a parameter. -/
noncomputable def embed {n : ℕ} (nullSpace : (Fin (n + 1) → ℂ) → Matrix (Fin (n + 1)) (Fin n) ℂ) (v : Fin (n + 1) → ℂ) :
    Matrix (Fin (n + 1)) (Fin (n + 1)) ℂ :=
  let v : Fin (n + 1) → ℂ := fun k => v k / norm2 v
  let vs := (nullSpace v)ᴴ
  (Matrix.of (Fin.cons v fun j => vs j))ᵀ

/-- `tensor.py:49-58` `deembed`: `u @ [1, 0, 0, 0]` in C order. -/
def deembed (u : Matrix (Fin 4) (Fin 4) ℂ) : Fin 4 → ℂ := u *ᵥ ![1, 0, 0, 0]

end Xmps.Gates
