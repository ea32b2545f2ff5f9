import Verif.Model.Imps
import Verif.Model.Envs

/-!
# Model of the energy of an infinite MPS (`iMPS.py:483-495`)
-/

namespace Xmps.IMPS

open Xmps.Ncon

/-- `iMPS.py:483-495` `energy(H)` for `H = [h]`; `self.d` is taken to be the first extent of the tensor.  The attribute `e` is left out. -/
noncomputable def energy (O : SetOrder) (eigs : ND ℂ → Py (ℝ × ND ℂ × ND ℂ)) (x : IMPS) (h : ND ℂ) : Py ℝ := do
  let d := x.A.dim 0
  let h ← h.reshape [d, d, d, d]
  let (_, l, r) ← eigs x.A
  let C ← nc O [h, x.A, x.A] [[-1, -2, 1, 2], [1, -3, 3], [2, 3, -4]]
  let lA ← l.matmul x.A.conj
  let K ← nc O [lA, x.A.conj, C] [[1, 3, 4], [2, 4, -2], [1, 2, 3, -1]]
  let Kr ← K.matmul r
  let e ← Kr.tr2
  .ok e.re

end Xmps.IMPS
