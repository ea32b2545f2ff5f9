import Verif.Model.Canonicalise
import Verif.Model.Expect
import Mathlib.Analysis.SpecialFunctions.Log.Basic

/-!
# Model of `fMPS.E_`, `fMPS.Es` and `fMPS.entanglement_entropy` (`fMPS.py:702-707`, `928-941`)

The methods canonicalise the receiver; the model returns the value and the changed receiver.
-/

namespace Xmps.FMPS

open Xmps.Ncon

variable (svd : Svd) (eig : Eig) (O : SetOrder)

/-- `fMPS.py:928-936` `E_(op, site)`. -/
noncomputable def ECanon (x : FMPS ℂ) (op : ND ℂ) (site : ℕ) : Py (ℝ × FMPS ℂ) := do
  let y ← x.mixedCanonicalise svd eig site none true
  let M ← pyGet y.data site
  let R ← nc O [M, M.conj, op] [[1, 3, 4], [2, 3, 4], [1, 2]]
  .ok ((R.val []).re, y)

/-- `fMPS.py:940`: `re(tensordot(op, trace(dot(cT(M), M), axis1=1, axis2=3), [[0, 1], [0, 1]]))`.
`numpy.dot` of two arrays of rank 3 contracts the last axis of the first with the second to last axis
of the second. -/
noncomputable def siteValue (M op : ND ℂ) : Py ℝ := do
  let t ← M.hc.tensordot M [2] [1]
  let r ← t.trace 1 3
  let v ← op.tensordot r [0, 1] [0, 1]
  .ok (v.val []).re

/-- `fMPS.py:938-941` `Es(ops, site)`. -/
noncomputable def Es (x : FMPS ℂ) (ops : List (ND ℂ)) (site : ℕ) : Py (List ℝ × FMPS ℂ) := do
  let y ← x.mixedCanonicalise svd eig site none true
  let M ← pyGet y.data site
  let vs ← ops.mapM (siteValue M)
  .ok (vs, y)

open Classical in
/-- `fMPS.py:702-707` `entanglement_entropy(site)`: the parameter `thresh` is ignored by the code, the
bound `1e-8` is written out.  `Real.log` stands for `numpy.log`; all entries that reach it are
positive. -/
noncomputable def entanglementEntropy (x : FMPS ℂ) (site : ℕ) : Py (ℝ × FMPS ℂ) := do
  let (y, Ls) ← x.leftCanonicalise svd eig
  let Ls ← (Ls.elim (.error .attributeError) .ok : Py (List (ND ℂ)))
  let L ← pyGet Ls site
  let LL := ((List.range (min (L.dim 0) (L.dim 1))).map fun i => ‖L.val [i, i]‖).filter fun v => 1e-8 < v
  .ok (-(LL.map fun v => v * Real.log v).sum, y)

end Xmps.FMPS
