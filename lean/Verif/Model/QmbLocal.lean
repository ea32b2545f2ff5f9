import Verif.Model.Qmb

/-!
# Model of `local_ising` and `local_XX` of `xmps/qmb.py`, with the conventions of `Model/Qmb.lean`
-/

namespace Xmps.Qmb

open ProjMpo

/-- `sigmay().full()` of qutip -/
noncomputable def syy : ND ℂ := Ham.ofMat !![0, -Complex.I; Complex.I, 0]

/-- `qmb.py:90-92` `local_ising(J, g)` -/
noncomputable def localIsing (J g : ℂ) : Py (ND ℂ) := do
  let z ← zzTerm J
  let x ← add2 (← sNBody sxx 0 2) (← sNBody sxx 1 2)
  let t ← add2 z (scl (g / 2) x)
  .ok (scl (-1) t)

/-- `qmb.py:99-102` `local_XX(J, g)` -/
noncomputable def localXX (J _g : ℂ) : Py (ND ℂ) := do
  let z ← sNBody szz 0 2
  let x ← (scl (1 / 2) (← sNBody sxx 0 2)).matmul (← sNBody sxx 1 2)
  let y ← (scl (1 / 2) (← sNBody syy 0 2)).matmul (← sNBody syy 1 2)
  let s ← add2 z x
  let t ← add2 s y
  .ok (scl (-J) t)

end Xmps.Qmb
