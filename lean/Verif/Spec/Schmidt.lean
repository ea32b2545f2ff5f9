import Verif.Base.ND
import Mathlib.Analysis.Complex.Basic

/-! # Specification of a Schmidt decomposition -/

namespace Xmps.Spec

open Finset

/-- `lam` are the squared Schmidt coefficients of `ψ` across the cut of the sites into `ds1` and `ds2`:
`ψ(s1 s2) = Σ_a u_a(s1) √lam_a v_a(s2)` with orthonormal `u_a`, orthonormal `v_a` and `lam_a > 0`. -/
def SchmidtAt (ds1 ds2 : List ℕ) (ψ : List ℕ → ℂ) (lam : List ℝ) : Prop :=
  (∀ x ∈ lam, 0 < x) ∧ ∃ u v : ℕ → List ℕ → ℂ,
    (∀ s1, InB ds1 s1 → ∀ s2, InB ds2 s2 →
      ψ (s1 ++ s2) = ∑ a ∈ range lam.length, u a s1 * (Real.sqrt (lam.getD a 0) : ℂ) * v a s2) ∧
    (∀ a < lam.length, ∀ b < lam.length, sumIdx ds1 (fun s => star (u a s) * u b s) = if a = b then 1 else 0) ∧
    ∀ a < lam.length, ∀ b < lam.length, sumIdx ds2 (fun s => star (v a s) * v b s) = if a = b then 1 else 0

/-- `L` is the diagonal matrix with the real numbers `lam` on its diagonal. -/
def DiagReal (L : ND ℂ) (lam : List ℝ) : Prop :=
  L.shape = [lam.length, lam.length] ∧
    ∀ i < lam.length, ∀ j < lam.length, L.val [i, j] = if i = j then ((lam.getD i 0 : ℝ) : ℂ) else 0

end Xmps.Spec
