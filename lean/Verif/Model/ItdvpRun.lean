import Verif.Model.ImpsTdvp
import Verif.Model.ImpsFile
import Verif.Model.ImpsOverlap
import Mathlib.Analysis.SpecialFunctions.Log.Basic
import Mathlib.Order.WithBot

/-!
# Model of `Trajectory` of `iTDVP.py`: `euler`, `rk4`, `eulerint`, `rk4int`, `loschmidts`

One tensor per unit cell, `H` a list with one two-site term.  The attributes `mps_0` and `run_name`, which nothing reads, and the progress bar are left
out.  What an object holds after an exception is not modelled.
-/

namespace Xmps.ITdvp

open Xmps.Ncon IMPS

/-- the attributes of a `Trajectory` (`iTDVP.py:41-56`): the tensor of `mps`, `Ds`, `mps_history` -/
structure Run where
  A : ND ℂ
  Ds : List ℕ
  history : List (List ℝ)

/-- the attribute `D` of `iMPS([A])`, the last leg of the tensor -/
def bond (A : ND ℂ) : ℕ := A.shape.getLastD 0

/-- `iTDVP.py:41-56` `Trajectory(mps_0, H)` -/
def Run.start (A : ND ℂ) : Run := ⟨A, [bond A], []⟩

/-- `iTDVP.py:60-62` and `67-69`: the part of `euler` and `rk4` that stores the state -/
def Run.store (r : Run) (x : IMPS) : Py Run := do
  let v ← Cell.serializeReal ⟨[x.A], 1, x.A.dim 0, bond x.A⟩
  .ok { r with Ds := r.Ds ++ [bond x.A], history := r.history ++ [v] }

/-- `iMPS().deserialize(v, d, D, real=True)` -/
noncomputable def reload (v : List ℝ) (d D : ℕ) : Py (ND ℂ) := do
  let c ← Cell.deserializeReal v d D 1
  pyGet c.data 0

section
variable (chol inv null : ND ℂ → Py (ND ℂ)) (svd : ND ℂ → Py (ND ℂ × List ℝ × ND ℂ)) (O : SetOrder)
  (eigs : ND ℂ → Py (ℝ × ND ℂ × ND ℂ)) (root : (ND ℂ → Py (ND ℂ)) → ℕ → Py (ND ℂ)) (h : ND ℂ)

/-- `iTDVP.py:63`: what `euler` returns -/
noncomputable def euler (x : IMPS) (dt : ℂ) : Py IMPS := do
  let g ← dAdt chol inv null O eigs root x h
  let B ← x.A.zipNd (· + ·) (g.smul dt)
  canonicalise eigs chol svd inv ⟨B, none, none, none⟩ .l

/-- `(mps + k).dA_dt(H)` -/
noncomputable def slope (x : IMPS) (k : ND ℂ) : Py (ND ℂ) := do
  let B ← x.A.zipNd (· + ·) k
  dAdt chol inv null O eigs root ⟨B, none, none, none⟩ h

/-- `iTDVP.py:70-75`: what `rk4` returns -/
noncomputable def rk4 (x : IMPS) (dt : ℂ) : Py IMPS := do
  let k1 ← dAdt chol inv null O eigs root x h
  let k2 ← slope chol inv null O eigs root h x ((k1.smul (1 / 2)).smul dt)
  let k3 ← slope chol inv null O eigs root h x ((k2.smul (1 / 2)).smul dt)
  let k3 := k3.smul dt
  let k4 ← slope chol inv null O eigs root h x (k3.smul dt)
  let s ← k1.zipNd (· + ·) (k2.smul 2)
  let s ← s.zipNd (· + ·) (k3.smul 2)
  let s ← s.zipNd (· + ·) k4
  let B ← x.A.zipNd (· + ·) ((s.smul dt).smul (1 / 6))
  canonicalise eigs chol svd inv ⟨B, none, none, none⟩ .l

/-- `iTDVP.py:85-86` and `97-98`: the loop, with the number of rounds left; the times only enter through `T[1]-T[0]` -/
noncomputable def intLoop (step : IMPS → ℂ → Py IMPS) (T : List ℂ) : ℕ → IMPS → Run → Py Run
  | 0, _, r => .ok r
  | n + 1, x, r => do
    let t1 ← pyGet T 1
    let t0 ← pyGet T 0
    let r ← r.store x
    let y ← step x (t1 - t0)
    intLoop step T n y r

/-- `iTDVP.py:77-89` and `91-101`: the text common to `eulerint` and `rk4int` -/
noncomputable def integrate (step : IMPS → ℂ → Py IMPS) (r : Run) (T : List ℂ) : Py Run := do
  let x ← canonicalise eigs chol svd inv ⟨r.A, none, none, none⟩ .l
  let r' ← intLoop step T T.length x r
  let v ← pyGetI r'.history (-1)
  let A ← reload v (x.A.dim 0) (bond x.A)
  .ok { r' with A := A }

/-- `iTDVP.py:77-89` `eulerint(T)` -/
noncomputable def eulerint (r : Run) (T : List ℂ) : Py Run :=
  integrate chol inv svd eigs (euler chol inv null svd O eigs root h) r T

/-- `iTDVP.py:91-101` `rk4int(T)` -/
noncomputable def rk4int (r : Run) (T : List ℂ) : Py Run :=
  integrate chol inv svd eigs (rk4 chol inv null svd O eigs root h) r T

/-- `-np.log(np.abs(o))`; numpy's logarithm of 0 is `-inf` -/
noncomputable def rate (o : ℝ) : WithTop ℝ := if o = 0 then ⊤ else ((-Real.log |o| : ℝ) : WithTop ℝ)

/-- `iTDVP.py:108-109`: the loop.  `overlap` changes `mps_0`.  `none` stands for nan. -/
noncomputable def losLoop (arn : (ND ℂ → Py (ND ℂ)) → ℕ → Py (ℂ × ND ℂ)) (d : ℕ) : IMPS → List (ℕ × List ℝ) → Py (List (Option (WithTop ℝ)))
  | _, [] => .ok []
  | m, (D, v) :: l => do
    let A ← reload v d D
    let (_, m, o) ← overlap eigs chol svd inv arn ⟨A, none, none, none⟩ m
    let rs ← losLoop arn d m l
    .ok (o.map rate :: rs)

/-- `iTDVP.py:103-110` `loschmidts()` -/
noncomputable def loschmidts (arn : (ND ℂ → Py (ND ℂ)) → ℕ → Py (ℂ × ND ℂ)) (r : Run) : Py (List (Option (WithTop ℝ))) := do
  guardPy (!r.history.isEmpty) .assertionError
  let v0 ← pyGet r.history 0
  let A0 ← reload v0 (r.A.dim 0) (bond r.A)
  losLoop chol inv svd eigs arn (r.A.dim 0) ⟨A0, none, none, none⟩ (r.Ds.zip r.history)

end

end Xmps.ITdvp
