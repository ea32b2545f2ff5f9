import Verif.Model.Tfd
import Verif.Model.ExpectCanon
import Verif.Model.TransferMatrix
import Verif.Model.TensorTools

/-!
# Model of `fTFD.E`, `fTFD.Es` (`fMPS.py:2170-2184`)
-/

namespace Xmps.TFD

variable (svd : Svd) (eig : Eig)

/-- `fMPS.py:2176`, `2181`: the operator on one of the two copies (`lr == 0`: the first) -/
noncomputable def copyMat (op : ND ℂ) (lr : ℕ) : ND ℂ :=
  if lr = 0 then kron op (eyeND (op.dim 0)) else kron (eyeND (op.dim 0)) op

/-- `fMPS.py:2178`, `2183`: `trace(sum(cT(M)@tensordot(op, M, [0, 0]), axis=0))` -/
noncomputable def siteTrace (M op : ND ℂ) : Py ℂ := do
  let t ← op.tensordot M [0] [0]
  let t ← M.hc.matmul t
  let t ← t.sum0
  let t ← t.trace 0 1
  .ok (t.val [])

/-- `fMPS.py:2170-2178` `E(op, site, lr)` -/
noncomputable def E (x : FMPS ℂ) (op : ND ℂ) (site : ℕ) (lr : ℕ := 0) : Py (ℝ × FMPS ℂ) := do
  let op := copyMat op lr
  let y ← x.mixedCanonicalise svd eig site
  let M ← pyGet y.data site
  let v ← siteTrace M op
  .ok (v.re, y)

/-- `fMPS.py:2180-2184` `Es(ops, site, lr)`: here the real part is not taken. -/
noncomputable def Es (x : FMPS ℂ) (ops : List (ND ℂ)) (site : ℕ) (lr : ℕ := 0) : Py (List ℂ × FMPS ℂ) := do
  let ops := ops.map fun op => copyMat op lr
  let y ← x.mixedCanonicalise svd eig site
  let M ← pyGet y.data site
  let vs ← ops.mapM (siteTrace M)
  .ok (vs, y)

end Xmps.TFD
