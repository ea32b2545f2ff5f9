import Verif.Model.Jac
import Verif.Model.MatchGauge

/-!
# Model of `jac` for a state with the attribute `old_vL` (`fMPS.py:1277-1292`)

`scipy.linalg.polar` is a parameter.  `lyapunov` and `ts_int` of `fTDVP.py` put the null vectors of the last step into `old_vL`; `jac` then turns the new
ones towards them.  `self.v`, a list of the entries of the null vectors for plots, is not modelled.
-/

namespace Xmps

open Xmps.Ncon

/-- `fMPS.py:1282-1289`: the body of the loop for one site, for a tensor `A` of the state and the null vectors `v`; `old` is `self.old_vL`. -/
noncomputable def fixNull (polar : ND ℂ → Py (ND ℂ × ND ℂ)) (old : List (ND ℂ)) (A v : ND ℂ) (i : ℕ) : Py (ND ℂ) :=
  if A.dim 0 * A.dim 1 = A.dim 2 then .ok v else do
    let w ← pyGet old i
    let t ← v.hc.matmul w
    let S ← t.sum0
    let (U, _) ← polar S
    v.matmul U

/-- `fMPS.py:1278-1290`: `self.new_vL`; `old` is `none` if the state has no attribute `old_vL`. -/
noncomputable def FMPS.fixNulls (polar : ND ℂ → Py (ND ℂ × ND ℂ)) (x : FMPS ℂ) (vs : List (ND ℂ)) : Option (List (ND ℂ)) → Py (List (ND ℂ))
  | none => .ok vs
  | some old => (List.range x.L).mapM fun i : ℕ => do
    let A ← pyGet x.data i
    let v ← pyGet vs i
    fixNull polar old A v i

/-- `fMPS.py:1268-1362` `jac(H)`: the matrix and `self.new_vL` -/
noncomputable def FMPS.jacFixed (polar : ND ℂ → Py (ND ℂ × ND ℂ)) (chol inv null : ND ℂ → Py (ND ℂ)) (O : SetOrder) (x : FMPS ℂ)
    (old : Option (List (ND ℂ))) (H : List (ND ℂ)) : Py (ND ℂ × List (ND ℂ)) := do
  let (ls, rs) ← x.getEnvs
  let prs ← (List.range x.L).mapM fun n => leftNull chol inv null O x ls n
  let vs ← x.fixNulls polar (prs.map Prod.snd) old
  let (J1, J2, G2) ← jacWith chol inv O x ls rs vs H
  let J ← jacReal J1 J2 G2
  .ok (J, vs)

end Xmps
