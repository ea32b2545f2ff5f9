import Mathlib.Data.Complex.Basic
import Verif.Model.Tfd
import Verif.Model.TensorTools

/-!
# Model of `fTFD.symm_asymm` (`fMPS.py:2132-2136`)
-/

namespace Xmps.TFD

/-- `bd(eye(a), -eye(b))` -/
noncomputable def signs (a b : ℕ) : ND ℂ := ⟨[a + b, a + b], fun
  | [i, j] => if i = j then (if i < a then 1 else -1) else 0
  | _ => 0⟩

/-- `fMPS.py:2132-2136` `symm_asymm(D)`; `int(sqrt(D))` is the integer square root and `int(n/2)` the integer quotient -/
noncomputable def symmAsymm (D0 : ℕ) : Py (ND ℂ × ND ℂ × ND ℂ) := do
  let D := Nat.sqrt D0
  let M := signs (D * (D + 1) / 2) (D * (D - 1) / 2)
  let p ← (eyeND (D ^ 2)).zipNd (· + ·) M
  let q ← (eyeND (D ^ 2)).zipNd (· - ·) M
  .ok (p.smul (1 / 2), q.smul (1 / 2), M)

end Xmps.TFD
