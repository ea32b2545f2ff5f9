import Verif.Model.Examples

/-!
# Model of `i_cat` of `xmps/mps_examples.py`
-/

namespace Xmps.Examples

/-- `A[s][a, b] = v` -/
def setAt (A : ND ℂ) (s a b : ℕ) (v : ℂ) : ND ℂ := ⟨A.shape, fun i => if i = [s, a, b] then v else A.val i⟩

/-- `mps_examples.py:120-131` `i_cat(ϵ)`, for a real `ϵ` (the array holds real numbers) -/
noncomputable def iCat (ε : ℝ) : Py Cell :=
  let m : ND ℂ := zerosND [2, 2, 2]
  let m := setAt m 0 0 0 1
  let m := setAt m 0 1 1 ε
  let m := setAt m 0 0 1 ε
  let m := setAt m 0 1 0 ε
  let m := setAt m 1 0 0 ε
  let m := setAt m 1 0 1 ε
  let m := setAt m 1 1 0 ε
  let m := setAt m 1 1 1 1
  Cell.init [m]

end Xmps.Examples
