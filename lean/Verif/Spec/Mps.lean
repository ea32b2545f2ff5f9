import Verif.Base.ND

/-!
# Specification of matrix product states

`MpsChain ds As l r`: the arrays `As` have shapes `(ds[k], b_k, b_{k+1})` with `b_0 = l`, `b_L = r`.
`psi As s` is the amplitude of the basis state `s`: the sum over all values of the inner bonds of
the product of the entries.
-/

namespace Xmps.Spec

open Finset

variable {K : Type}

/-- Open chain of rank 3 arrays with local dimensions `ds`, left bond `l`, right bond `r`. -/
def MpsChain : List ℕ → List (ND K) → ℕ → ℕ → Prop
  | [], [], l, r => l = r
  | d :: ds, A :: As, l, r => ∃ m, A.shape = [d, l, m] ∧ MpsChain ds As m r
  | _, _, _, _ => False

/-- The product of the entries along one choice of bond values `b_0, b_1, ...`. -/
def pathProd [MulOneClass K] : List (ND K) → List ℕ → List ℕ → K
  | A :: As, s :: ss, a :: b :: bs => A.val [s, a, b] * pathProd As ss (b :: bs)
  | _, _, _ => 1

/-- The amplitude of basis state `s` (outer bond values 0). -/
def psi [CommSemiring K] (As : List (ND K)) (s : List ℕ) : K :=
  sumIdx ((As.map (·.dim 2)).dropLast) fun bs => pathProd As s (0 :: bs ++ [0])

/-- `⟨As|Bs⟩ = Σ_s conj(psi As s) psi Bs s`. -/
def braket [CommSemiring K] [StarRing K] (ds : List ℕ) (As Bs : List (ND K)) : K :=
  sumIdx ds fun s => star (psi As s) * psi Bs s

/-- `A[s]` as left isometry: `Σ_{s,a} conj A[s,a,c] A[s,a,c'] = δ_{cc'}`. -/
def LeftIso [CommSemiring K] [StarRing K] (A : ND K) : Prop :=
  ∀ c < A.dim 2, ∀ c' < A.dim 2,
    ∑ s ∈ range (A.dim 0), ∑ a ∈ range (A.dim 1), star (A.val [s, a, c]) * A.val [s, a, c'] =
      if c = c' then 1 else 0

/-- `A[s]` as right isometry: `Σ_{s,c} A[s,a,c] conj A[s,a',c] = δ_{aa'}`. -/
def RightIso [CommSemiring K] [StarRing K] (A : ND K) : Prop :=
  ∀ a < A.dim 1, ∀ a' < A.dim 1,
    ∑ s ∈ range (A.dim 0), ∑ c ∈ range (A.dim 2), A.val [s, a, c] * star (A.val [s, a', c]) =
      if a = a' then 1 else 0

/-- `Π_k v_k[s_k]` -/
def prodAmp [CommSemiring K] : List (List K) → List ℕ → K
  | v :: vs, s :: ss => v.getD s 0 * prodAmp vs ss
  | _, _ => 1

end Xmps.Spec
