import Verif.Lemmas.Chain
import Mathlib.Data.Complex.Basic

/-!
# Specification of environments and transfer operators

For a chain of tensors `As` with local dimensions `ds`: `leftEnv` is `Σ_s conj(v_s) v_sᵀ` with `v_s` the row vector
`As[0][s_0] ⋯ As[n-1][s_{n-1}]` starting from bond value 0, `rightEnv` is `Σ_s w_s w_s†` with `w_s` the column vector
ending in bond value 0.  `pullBack` is the map `X ↦ Σ_s M_s X M_s†`, `M_s` the product of the matrices, and `pushOn` the map
`X ↦ Σ_s M_sᵀ X conj(M_s)`.
-/

namespace Xmps.Spec

open Finset

variable {K : Type} [CommSemiring K] [StarRing K]

/-- left environment: the bra index first -/
def leftEnv (ds : List ℕ) (As : List (ND K)) (a b : ℕ) : K := sumIdx ds fun s => star (amp As s 0 a) * amp As s 0 b

/-- right environment: the ket index first -/
def rightEnv (ds : List ℕ) (As : List (ND K)) (a b : ℕ) : K := sumIdx ds fun s => amp As s a 0 * star (amp As s b 0)

/-- `Σ_s M_s X M_s†` for a matrix `X` of size `r` -/
def pullBack (ds : List ℕ) (As : List (ND K)) (r : ℕ) (X : ℕ → ℕ → K) (a b : ℕ) : K :=
  sumIdx ds fun s => ∑ c ∈ range r, ∑ c' ∈ range r, amp As s a c * X c c' * star (amp As s b c')

/-- `Σ_s M_sᵀ X conj(M_s)` for a matrix `X` of size `l`: the ket index first -/
def pushOn (ds : List ℕ) (As : List (ND K)) (l : ℕ) (X : ℕ → ℕ → K) (c c' : ℕ) : K :=
  sumIdx ds fun s => ∑ a ∈ range l, ∑ b ∈ range l, amp As s a c * X a b * star (amp As s b c')

/-- the function is diagonal with real entries below `n` -/
def RealDiag (n : ℕ) (f : ℕ → ℕ → ℂ) : Prop :=
  ∀ a < n, ∀ b < n, (a ≠ b → f a b = 0) ∧ (f a a).im = 0

end Xmps.Spec
