import Verif.Spec.Tangent
import Verif.Props.Tfd

/-!
# Specification: a Hamiltonian on both copies of a doubled chain, and a matrix on one site
-/

namespace Xmps.Spec

open Finset

/-- `Σ_m h_m` on the first copies plus `Σ_m h_m` on the second copies; `s`, `t` are the basis states of the two copies -/
def copiesAct (d : ℕ) (ds : List ℕ) (H : List (ND ℂ)) (f : List ℕ → ℂ) (s t : List ℕ) : ℂ :=
  hamAct d H (fun s' => f (pairIdx ds s' t)) s + hamAct d H (fun t' => f (pairIdx ds s t')) t

/-- the matrix `h` of size `n` on the site `i` -/
def siteAct (n : ℕ) (h : ND ℂ) (i : ℕ) (f : List ℕ → ℂ) (s : List ℕ) : ℂ := ∑ p ∈ range n, h.val [s.getD i 0, p] * f (s.set i p)

/-- `h_m` on the site `m` plus `h_m` on the site `m + 1`, for all `m` -/
def sitesAct (n : ℕ) (H : List (ND ℂ)) (f : List ℕ → ℂ) (s : List ℕ) : ℂ :=
  ∑ m ∈ range H.length, (siteAct n (H.getD m ⟨[], fun _ => 0⟩) m f s + siteAct n (H.getD m ⟨[], fun _ => 0⟩) (m + 1) f s)

end Xmps.Spec
