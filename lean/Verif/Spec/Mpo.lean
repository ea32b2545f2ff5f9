import Verif.Base.ND

/-!
# Specification of matrix product operators with legs up, right, down, left

`MpoChain us ds Ws l r`: the arrays have shapes `(us[k], b_{k+1}, ds[k], b_k)` with `b_0 = l`, `b_L = r`.
`opElem Ws u d` is the matrix element between the upper indices `u` and the lower indices `d`:
the sum over all bond values of the product of the entries, the two ends of the chain joined.
-/

namespace Xmps.Spec

open Finset

variable {K : Type}

/-- Chain of rank 4 arrays. -/
def MpoChain : List ℕ → List ℕ → List (ND K) → ℕ → ℕ → Prop
  | [], [], [], l, r => l = r
  | u :: us, d :: ds, W :: Ws, l, r => ∃ m, W.shape = [u, m, d, l] ∧ MpoChain us ds Ws m r
  | _, _, _, _, _ => False

/-- The product of the entries along one choice of bond values `b_0, b_1, ...`. -/
def mpoPath [MulOneClass K] : List (ND K) → List ℕ → List ℕ → List ℕ → K
  | W :: Ws, u :: us, d :: ds, a :: b :: bs => W.val [u, b, d, a] * mpoPath Ws us ds (b :: bs)
  | _, _, _, _ => 1

/-- The matrix element of the operator; `l` is the extent of the bond joining the two ends. -/
def opElem [CommSemiring K] (l : ℕ) (Ws : List (ND K)) (u d : List ℕ) : K :=
  ∑ a ∈ range l, sumIdx ((Ws.map (·.dim 1)).dropLast) fun bs => mpoPath Ws u d (a :: bs ++ [a])

end Xmps.Spec
