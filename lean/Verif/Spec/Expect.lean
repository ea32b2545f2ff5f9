import Verif.Spec.Mps

/-!
# Specification of expectation values

`opExpect ds As i k G` is `⟨ψ|G|ψ⟩` for the operator with matrix elements `G s t` on the sites
`i, .., i+k-1`, `ψ` being the state of the chain `As`.
-/

namespace Xmps.Spec

open Finset

variable {K : Type} [CommSemiring K] [StarRing K]

/-- `⟨ψ|G|ψ⟩`, `G` acting on the `k` sites from `i` on -/
def opExpect (ds : List ℕ) (As : List (ND K)) (i k : ℕ) (G : List ℕ → List ℕ → K) : K :=
  sumIdx ds fun s => sumIdx ((ds.drop i).take k) fun t =>
    star (psi As s) * (G ((s.drop i).take k) t * psi As (s.take i ++ (t ++ s.drop (i + k))))

/-- the entry `⟨t|ρ|s⟩` of the reduced density matrix of the `k` sites from `i` on -/
def redDens (ds : List ℕ) (As : List (ND K)) (i k : ℕ) (t s : List ℕ) : K :=
  sumIdx (ds.take i) fun u => sumIdx (ds.drop (i + k)) fun w =>
    psi As (u ++ (t ++ w)) * star (psi As (u ++ (s ++ w)))

/-- left isometries before site `i`, right isometries after it -/
def CenteredAt (As : List (ND K)) (i : ℕ) : Prop :=
  i < As.length ∧ (∀ A ∈ As.take i, LeftIso A) ∧ ∀ A ∈ As.drop (i + 1), RightIso A

/-- a matrix indexed by basis states: entry in row `s`, column `t` (row-major numbering) -/
def matElem (ds : List ℕ) (op : ND K) (s t : List ℕ) : K := op.val [ravel ds s, ravel ds t]

/-- the matrix element of a product of one-site operators -/
def prodOp : List (ND K) → List ℕ → List ℕ → K
  | A :: As, s :: ss, t :: ts => A.val [s, t] * prodOp As ss ts
  | _, _, _ => 1

end Xmps.Spec
