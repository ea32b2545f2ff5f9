import Verif.Base.ND
import Mathlib.Analysis.Complex.Basic

/-!
# Specification of a two-site operator on a state

`f` is the list of amplitudes.  The first index of each pair of legs of `op` belongs to site `i`, the
second to site `j`; there is no assumption that `i < j`.
-/

namespace Xmps.Spec

open Finset

/-- `(op ψ)(s) = Σ_{p q} op[(s_i, s_j), (p, q)] ψ(s with s_i := p, s_j := q)` -/
def gateAct (d : ℕ) (op : ND ℂ) (i j : ℕ) (f : List ℕ → ℂ) (s : List ℕ) : ℂ :=
  ∑ p ∈ range d, ∑ q ∈ range d, op.val [s.getD i 0 * d + s.getD j 0, p * d + q] * f ((s.set i p).set j q)

end Xmps.Spec
