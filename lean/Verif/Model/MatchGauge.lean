import Verif.Model.Envs

/-!
# Model of `fMPS.match_gauge_to`

`scipy.linalg.polar` is a parameter.
-/

namespace Xmps

/-- `fMPS.py:1260-1265`: the body of the loop for one `i` -/
noncomputable def matchStep (polar : ND ℂ → Py (ND ℂ × ND ℂ)) (mps data : List (ND ℂ)) (i : ℕ) : Py (List (ND ℂ)) := do
  let A ← pyGet data i
  let B ← pyGet mps i
  let t ← A.matmul B.hc
  let S ← t.sum0
  let (U, _) ← polar S
  let A' ← U.hc.matmul A
  let data := data.set i A'
  match i with
  | 0 => .ok data
  | j + 1 => do
    let C ← pyGet data j
    let C' ← C.matmul U
    .ok (data.set j C')

/-- `fMPS.py:1259`: `for i in reversed(range(n))` -/
noncomputable def matchLoop (polar : ND ℂ → Py (ND ℂ × ND ℂ)) (mps : List (ND ℂ)) : ℕ → List (ND ℂ) → Py (List (ND ℂ))
  | 0, data => .ok data
  | i + 1, data => do
    let data ← matchStep polar mps data i
    matchLoop polar mps i data

/-- `fMPS.py:1253-1266` `self.match_gauge_to(mps)` -/
noncomputable def FMPS.matchGaugeTo (polar : ND ℂ → Py (ND ℂ × ND ℂ)) (x y : FMPS ℂ) : Py (FMPS ℂ) := do
  let data ← matchLoop polar y.data x.L x.data
  .ok { x with data := data }

end Xmps
