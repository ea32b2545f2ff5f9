import Verif.Model.Imps

/-!
# Model of the mixed canonical form of an infinite MPS (`iMPS.py:285-348`)

The loops run until two iterates differ by at most `eta`; `fuel` bounds the number of rounds, and running out of it is `diverges`.
-/

namespace Xmps.IMPS

/-- `norm(L - L_)` -/
noncomputable def dist (L L' : ND ℂ) : Py ℝ := do
  let t ← L.zipNd (· - ·) L'
  .ok t.norm

/-- `iMPS.py:297-299, 308-310`: one round of `_lmixed`, `AL` still as a matrix; `self.d` and `self.D` are taken to be the extents of the tensor -/
noncomputable def lmixedStep (qr : ND ℂ → Py (ND ℂ × ND ℂ)) (A L : ND ℂ) : Py (ND ℂ × ND ℂ × ℝ) := do
  let LA ← L.matmul A
  let M ← LA.reshape [A.dim 0 * A.dim 1, A.dim 1]
  let (AL, L) ← uqr qr M
  .ok (AL, L.smul ((L.norm : ℂ)⁻¹), L.norm)

/-- `iMPS.py:296-311`: the first round and the loop -/
noncomputable def lmixedLoop (qr : ND ℂ → Py (ND ℂ × ND ℂ)) (eta : ℝ) (A : ND ℂ) : ℕ → ND ℂ → Py (ND ℂ × ND ℂ × ℝ)
  | 0, _ => .error .diverges
  | fuel + 1, L_ => do
    let (AL, L, lam) ← lmixedStep qr A L_
    let δ ← dist L L_
    if δ > eta then lmixedLoop qr eta A fuel L else .ok (AL, L, lam)

/-- `iMPS.py:285-313` `_lmixed(eta, L0)`; the start `L0` is an argument also when the code draws it at random -/
noncomputable def lmixed (qr : ND ℂ → Py (ND ℂ × ND ℂ)) (fuel : ℕ) (eta : ℝ) (A L0 : ND ℂ) : Py (ND ℂ × ND ℂ × ℝ) := do
  let (AL, L, lam) ← lmixedLoop qr eta A fuel (L0.smul ((L0.norm : ℂ)⁻¹))
  let AL ← AL.reshape [A.dim 0, A.dim 1, A.dim 1]
  .ok (AL, L, lam)

/-- `iMPS.py:328-330, 336-338`: one round of `_rmixed` -/
noncomputable def rmixedStep (qr rq : ND ℂ → Py (ND ℂ × ND ℂ)) (A R : ND ℂ) : Py (ND ℂ × ND ℂ × ℝ) := do
  let AR ← A.matmul R
  let t ← AR.transpose [1, 0, 2]
  let M ← t.reshape [A.dim 1, A.dim 0 * A.dim 1]
  let (R, AR) ← urq qr rq M
  .ok (AR, R.smul ((R.norm : ℂ)⁻¹), R.norm)

/-- `iMPS.py:327-339`: the first round and the loop -/
noncomputable def rmixedLoop (qr rq : ND ℂ → Py (ND ℂ × ND ℂ)) (eta : ℝ) (A : ND ℂ) : ℕ → ND ℂ → Py (ND ℂ × ND ℂ × ℝ)
  | 0, _ => .error .diverges
  | fuel + 1, R_ => do
    let (AR, R, lam) ← rmixedStep qr rq A R_
    let δ ← dist R R_
    if δ > eta then rmixedLoop qr rq eta A fuel R else .ok (AR, R, lam)

/-- `iMPS.py:315-342` `_rmixed(eta, R0)` -/
noncomputable def rmixed (qr rq : ND ℂ → Py (ND ℂ × ND ℂ)) (fuel : ℕ) (eta : ℝ) (A R0 : ND ℂ) : Py (ND ℂ × ND ℂ × ℝ) := do
  let (AR, R, lam) ← rmixedLoop qr rq eta A fuel (R0.smul ((R0.norm : ℂ)⁻¹))
  let AR ← AR.reshape [A.dim 1, A.dim 0, A.dim 1]
  let AR ← AR.transpose [1, 0, 2]
  .ok (AR, R, lam)

/-- `iMPS.py:344-348` `mixed(eta)`: the tensors `AL`, `AR` and the matrix `C`; the random starts are arguments -/
noncomputable def mixed (qr rq : ND ℂ → Py (ND ℂ × ND ℂ)) (fuel : ℕ) (eta : ℝ) (A L0 R0 : ND ℂ) : Py (ND ℂ × ND ℂ × ND ℂ) := do
  let (AL, _, _) ← lmixed qr fuel eta A L0
  let (AR, C, _) ← rmixed qr rq fuel eta AL R0
  .ok (AL, AR, C)

end Xmps.IMPS
