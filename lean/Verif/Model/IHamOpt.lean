import Verif.Model.ImpsTdvp
import Verif.Model.ImpsEnergy

/-!
# Model of `optimise` of `xmps/projects/iHam.py` with `method='euler'`

The relative imports are taken to reach the modules of the package.  `A0` are the random numbers of `iMPS().random(d, D)`, `h` is `H[0]`.
-/

namespace Xmps.ProjHam

open Xmps.Ncon IMPS

variable (chol inv null : ND ℂ → Py (ND ℂ)) (svd : ND ℂ → Py (ND ℂ × List ℝ × ND ℂ)) (O : SetOrder)
  (eigs : ND ℂ → Py (ℝ × ND ℂ × ND ℂ)) (root : (ND ℂ → Py (ND ℂ)) → ℕ → Py (ND ℂ)) (h : ND ℂ)

/-- `iHam.py:37` `A = (A+δt*A.dA_dt(H)).canonicalise('m')` with `δt = -1e-1j` -/
noncomputable def iOptStep (x : IMPS) : Py IMPS := do
  let g ← IMPS.dAdt chol inv null O eigs root x h
  let B ← x.A.zipNd (· + ·) (g.smul (-(1 / 10) * Complex.I))
  canonicalise eigs chol svd inv ⟨B, none, none, none⟩ .m

/-- `iHam.py:36-44`: the loop, with `n` rounds left -/
noncomputable def iOptLoop (tol : ℝ) : ℕ → IMPS → ℝ → Py IMPS
  | 0, x, _ => .ok x
  | n + 1, x, e_ => do
    let y ← iOptStep chol inv null svd O eigs root h x
    let e ← IMPS.energy O eigs y h
    if |e - e_| < tol then .ok y else iOptLoop tol n y e

/-- `iHam.py:31-45` `optimise(H, D, 'euler', max_iters, tol)` -/
noncomputable def iOptimise (A0 : ND ℂ) (maxIters : ℕ) (tol : ℝ) : Py (IMPS × ℝ) := do
  let x ← canonicalise eigs chol svd inv ⟨A0, none, none, none⟩ .m
  let e ← IMPS.energy O eigs x h
  let y ← iOptLoop chol inv null svd O eigs root h tol maxIters x e
  let e ← IMPS.energy O eigs y h
  .ok (y, e)

end Xmps.ProjHam
