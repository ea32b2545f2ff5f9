import Verif.Spec.Expect

/-!
# Specification of an operator acting on some sites of a chain
-/

namespace Xmps.Spec

variable {K : Type}

/-- the matrix element `⟨s| X |t⟩` of an operator `X` on the `k` sites `i, .., i+k-1` (numbered from 0) of a
chain of sites of dimension `d`: identity elsewhere. -/
def blockElem [Zero K] (d : ℕ) (X : ND K) (i k : ℕ) (s t : List ℕ) : K :=
  if s.take i = t.take i ∧ s.drop (i + k) = t.drop (i + k) then
    X.val [ravel (List.replicate k d) ((s.drop i).take k), ravel (List.replicate k d) ((t.drop i).take k)]
  else 0

end Xmps.Spec
