import Mathlib.Data.Complex.Basic
import Verif.Model.IsoRandom
import Verif.Model.DAdt
import Verif.Model.Canonicalise
import Verif.Model.Envs

/-!
# Model of `random_with_energy_E` (`fMPS.py`)
-/

namespace Xmps.FMPS

open Xmps.Ncon

variable (svd : Svd) (eig : Eig) (chol inv null : ND ℂ → Py (ND ℂ)) (O : SetOrder) (H : List (ND ℂ))

/-- the operator in `fMPS.py:379` (`up`) and `fMPS.py:390` -/
noncomputable def addOrSub (up : Bool) (x k : FMPS ℂ) : Py (FMPS ℂ) := if up then x.addItem k else x.subItem k

/-- `fMPS.py:379` (`up`) and `fMPS.py:390`: `self.data = (self ± 1j*dt*self.dA_dt(H)).left_canonicalise().data`.  Only `data` is replaced. -/
noncomputable def energyStep (up : Bool) (x : FMPS ℂ) (dt : ℝ) : Py (FMPS ℂ) := do
  let k ← dAdt chol inv null O x H
  let k ← k.mulItem (Complex.I * dt)
  let z ← addOrSub up x k
  let (z, _) ← z.leftCanonicalise svd eig none
  .ok { x with data := z.data }

/-- the condition of the inner loops, `fMPS.py:376` and `fMPS.py:387` -/
noncomputable def goesOn (up : Bool) (g : ℝ) : Bool := if up then decide (g < 0) else decide (0 < g)

/-- `fMPS.py:376-385` (`up`) and `fMPS.py:387-396`: the inner loops.  `energy` does not change the object, so that its value is read once per
state.  `fuel` bounds the number of steps; running out of it is `diverges`. -/
noncomputable def energyWalk (E dt : ℝ) (up : Bool) : ℕ → FMPS ℂ → ℝ → ℝ → Py (FMPS ℂ)
  | 0, _, _, _ => .error .diverges
  | fuel + 1, x, ddE, dE => do
    let e ← x.energy O H
    if goesOn up (e - E) then
      if ddE < 1 / 10 ^ 5 ∧ 1 / 10 ^ 2 < |dE| then .error .exception
      else do
        let y ← energyStep svd eig chol inv null O H up x dt
        let e' ← y.energy O H
        energyWalk E dt up fuel y |e' - E - dE| (e' - E)
    else .ok x

/-- `fMPS.py:368-398`: the outer loop.  `left` is `maxiters + 1 - iters`. -/
noncomputable def energySearch (E tol : ℝ) (fuel : ℕ) : ℕ → FMPS ℂ → ℝ → Py (FMPS ℂ)
  | left, x, dt => do
    let e ← x.energy O H
    if tol < |e - E| then
      match left with
      | 0 => .error .exception
      | left + 1 => do
        let y ← energyWalk svd eig chol inv null O H E dt (decide (e - E < 0)) fuel x 10 (e - E)
        energySearch E tol fuel left y (dt / 3)
    else .ok x

/-- `fMPS.py:356-399` `random_with_energy_E(E, H, L, d, D, tol, maxiters)`, the random numbers as in `random`. -/
noncomputable def randomWithEnergy (ang : ℕ → ℝ × ℝ) (rnd : ℕ → List ℕ → ℝ × ℝ) (fuel : ℕ) (x : FMPS ℂ) (E : ℝ) (L d : ℕ) (D : Option ℕ)
    (tol : ℝ) (maxiters : ℕ) : Py (FMPS ℂ) := do
  let y ← x.random ang rnd L d D
  let (y, _) ← y.leftCanonicalise svd eig none
  energySearch svd eig chol inv null O H E tol fuel (maxiters + 1) y (1 / 10)

end Xmps.FMPS
