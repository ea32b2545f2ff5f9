import Verif.Model.EqMps
import Verif.Model.Peps

/-!
# Model of `==` of PEPS (`fPEPS.py:273-299`)
-/

namespace Xmps.FPEPS

open Xmps.EqMps

/-- `np.allclose(m, n)` of two integers -/
def IntClose (m n : ℤ) : Prop := |(m : ℝ) - n| ≤ 1 / 10 ^ 8 + 1 / 10 ^ 5 * |(n : ℝ)|

open Classical in
/-- `fPEPS.py:294-298`: the loop over the pairs of tensors; `np.allclose` of shapes of different lengths raises, of other shapes it ends the call -/
noncomputable def eqLoop : Bool → List (ND ℂ × ND ℂ) → Py Bool
  | e, [] => .ok e
  | e, (A, B) :: l =>
    if A.shape.length ≠ B.shape.length then .error .valueError
    else if ¬ ∀ p ∈ A.shape.zip B.shape, IntClose p.1 p.2 then .ok false
    else if e then do
      let b ← close A B
      eqLoop b l
    else eqLoop false l

open Classical in
/-- `fPEPS.py:273-299` `x == y`; `X` and `d` are there in both -/
noncomputable def eq (x y : FPEPS) : Py Bool :=
  let body (e : Bool) : Py Bool :=
    eqLoop (e && decide (IntClose x.X y.X) && decide (IntClose x.d y.d)) ((x.data.zip y.data).flatMap fun p => p.1.zip p.2)
  match x.oc, y.oc with
  | none, some _ => .ok false
  | none, none => body true
  | some _, none => body false
  | some p, some q => body (decide (IntClose p.1 q.1 ∧ IntClose p.2 q.2))

end Xmps.FPEPS
