import Verif.Model.Structure
import Verif.Model.Canonicalise

/-! # Model of `fMPS.expand` (`fMPS.py:1108-1115`) -/

namespace Xmps

namespace FMPS

/-- `fMPS.py:1108-1115` `expand(D_)`: pad with zeros, set `D`, `left_canonicalise(minD=False)` (no sweep back).  When a width is
negative the sites before it have already been padded; the model only reports the exception. -/
noncomputable def expand (svd : Svd) (eig : Eig) (x : FMPS ℂ) (D : ℕ) : Py (FMPS ℂ) := do
  let y ← expandPad x D
  let (z, _) ← y.leftCanonicalise svd eig none true false
  .ok z

end FMPS

end Xmps
