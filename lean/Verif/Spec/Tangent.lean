import Verif.Spec.Env
import Verif.Spec.Gate

/-!
# Specification: tangent vectors of a matrix product state and the Hamiltonian of a chain

A list `Bs` of tensors at the chain `As` stands for the vector `Σ_i |As[0] .. Bs[i] .. As[L-1]⟩`.
-/

namespace Xmps.Spec

open Finset

/-- the chain with the tensor `i` replaced -/
def swapIn {K : Type} (As : List (ND K)) (i : ℕ) (B : ND K) : List (ND K) := As.set i B

/-- the tangent vector `Σ_i |As[0] .. Bs[i] .. As[L-1]⟩` -/
def tangentPsi {K : Type} [CommSemiring K] (As Bs : List (ND K)) (s : List ℕ) : K :=
  ∑ i ∈ range As.length, psi (swapIn As i (Bs.getD i ⟨[], fun _ => 0⟩)) s

/-- `Σ_s A_s† l B_s = 0` for tensors with bond dimensions `p`, `n` and a matrix `l` -/
def LeftGauge {K : Type} [CommSemiring K] [StarRing K] (d p n : ℕ) (l : ℕ → ℕ → K) (A B : ND K) : Prop :=
  ∀ c < n, ∀ c' < n, ∑ s ∈ range d, ∑ a ∈ range p, ∑ a' ∈ range p, star (A.val [s, a, c]) * l a a' * B.val [s, a', c'] = 0

/-- `(Σ_m h_m) f`, the matrix `h_m` acting on the sites `m`, `m+1` -/
def hamAct (d : ℕ) (H : List (ND ℂ)) (f : List ℕ → ℂ) (s : List ℕ) : ℂ :=
  ∑ m ∈ range H.length, gateAct d (H.getD m ⟨[], fun _ => 0⟩) m (m + 1) f s

/-- `⟨f|g⟩` over the basis states of the local dimensions `ds` -/
def pairing (ds : List ℕ) (f g : List ℕ → ℂ) : ℂ := sumIdx ds fun s => star (f s) * g s

/-- every environment of the chain is diagonal with positive entries -/
def FullEnvs (ds : List ℕ) (As : List (ND ℂ)) : Prop :=
  ∀ k ≤ ds.length, ∀ p, MpsChain (ds.take k) (As.take k) 1 p → ∃ lam rho : ℕ → ℝ, (∀ a < p, 0 < lam a ∧ 0 < rho a) ∧
    ∀ a < p, ∀ b < p, leftEnv (ds.take k) (As.take k) a b = (if a = b then (lam a : ℂ) else 0) ∧
      rightEnv (ds.drop k) (As.drop k) a b = if a = b then (rho a : ℂ) else 0

/-- the number of coordinates of the tangent vectors in the left gauge -/
def tangentDim {K : Type} (d : ℕ) (As : List (ND K)) : ℕ := (As.map fun A => (d * A.dim 1 - A.dim 2) * A.dim 2).sum

end Xmps.Spec
