import Verif.Model.Tfd
import Verif.Model.DAdt
import Verif.Model.TensorTools

/-!
# Model of `fTFD.dA_dt` (`fMPS.py:2165-2168`)

The null projector that `fTFD` defines for itself (`2146-2163`) has the text of that of `fMPS` and is not modelled a second time.
-/

namespace Xmps

open Xmps.Ncon

namespace TFD

/-- `fMPS.py:2166` `kron(eye(len(h)), h)+kron(h, eye(len(h)))` for a matrix `h` -/
noncomputable def doubled (h : ND ℂ) : Py (ND ℂ) := (kron (eyeND (h.dim 0)) h).zipNd (· + ·) (kron h (eyeND (h.dim 0)))

/-- `fMPS.py:2165-2168` `fTFD.dA_dt(H)` for a list of matrices `H`.  The argument `fullH` is handed on in the place of `store_energy` and so does not
matter for a list `H`; the result is an `fMPS`. -/
noncomputable def dAdt (chol inv null : ND ℂ → Py (ND ℂ)) (O : SetOrder) (x : FMPS ℂ) (H : List (ND ℂ)) : Py (FMPS ℂ) := do
  let H_ ← H.mapM doubled
  FMPS.dAdt chol inv null O x H_

end TFD

end Xmps
