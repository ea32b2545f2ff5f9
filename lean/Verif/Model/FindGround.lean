import Verif.Model.ImpsTdvp

/-!
# Model of `find_ground_state` (`iOptimize.py`)

`A0` are the random numbers of `iMPS().random(2, D)`.  The progress bar is left out.
-/

namespace Xmps.IMPS

open Finset Xmps.Ncon

/-- `iMPS.py:660-668`: the attribute `e` that `dA_dt` sets -/
noncomputable def eAttr (O : SetOrder) (eigs : ND ℂ → Py (ℝ × ND ℂ × ND ℂ)) (x : IMPS) (h : ND ℂ) : Py ℂ := do
  let d := x.A.dim 0
  let h4 ← h.reshape [d, d, d, d]
  let (_, l, r) ← eigs x.A
  let C ← hAA O x.A h4
  let K ← leftK O x.A l C
  let Kr ← K.matmul r
  Kr.tr2

/-- `scipy.linalg.norm` of an `iMPS`, which `numpy` turns into the array of its tensors: the square root of the sum of the squared moduli -/
noncomputable def frob (X : ND ℂ) : ℝ := Real.sqrt (sumIdx X.shape fun idx => ‖X.val idx‖ ^ 2)

section
variable (chol inv null : ND ℂ → Py (ND ℂ)) (svd : ND ℂ → Py (ND ℂ × List ℝ × ND ℂ)) (O : SetOrder)
  (eigs : ND ℂ → Py (ℝ × ND ℂ × ND ℂ)) (root : (ND ℂ → Py (ND ℂ)) → ℕ → Py (ND ℂ)) (h : ND ℂ) (eps tol : ℝ)

/-- `iOptimize.py:15`: `(ψ - dA).left_canonicalise()` -/
noncomputable def groundStep (x : IMPS) (dA : ND ℂ) : Py IMPS := do
  let B ← x.A.zipNd (· - ·) dA
  canonicalise eigs chol svd inv ⟨B, none, none, none⟩ .l

/-- `iOptimize.py:10-15`: the loop, with the number of rounds left -/
noncomputable def groundLoop : ℕ → IMPS → List ℂ → Py (IMPS × List ℂ)
  | 0, x, es => .ok (x, es)
  | n + 1, x, es => do
    let g ← dAdt chol inv null O eigs root x h
    let e ← eAttr O eigs x h
    let dA := g.smul (Complex.I * eps)
    if frob dA < tol then .ok (x, es)
    else do
      let y ← groundStep chol inv svd eigs x dA
      groundLoop n y (es ++ [e])

/-- `iOptimize.py:6-16` `find_ground_state(H, D, ϵ, maxiters, tol)` -/
noncomputable def findGround (maxiters : ℕ) (A0 : ND ℂ) : Py (IMPS × List ℂ) := do
  let x ← canonicalise eigs chol svd inv ⟨A0, none, none, none⟩ .l
  groundLoop chol inv null svd O eigs root h eps tol maxiters x []

end

end Xmps.IMPS
