import Verif.Model.ImpsEnergy
import Verif.Model.DAdt
import Verif.Model.TransferMatrix

/-!
# Model of the tangent vector of an infinite MPS (`iMPS.py:539-682`)

One tensor in the unit cell, `H = [h]`.  `eigs` is `self.eigs()`; `self.d` and `self.D` are the extents of the tensor.
`root f D` is `scipy.optimize.root` for a function of `D × D` complex matrices: the real and imaginary parts, the flattening, the random
starting point, the tolerance and the test mode are left out.
-/

namespace Xmps.IMPS

open Xmps.Ncon

/-- `iMPS.py:551`, `602`, `665` `C`: `h` applied to two tensors. -/
noncomputable def hAA (O : SetOrder) (A h : ND ℂ) : Py (ND ℂ) :=
  nc O [h, A, A] [[-1, -2, 1, 2], [1, -3, 3], [2, 3, -4]]

/-- `iMPS.py:552`, `667` `K`: `C` closed on the left with `l` and on two sites with the conjugated tensors. -/
noncomputable def leftK (O : SetOrder) (A l C : ND ℂ) : Py (ND ℂ) := do
  let lA ← l.matmul A.conj
  nc O [lA, A.conj, C] [[1, 3, 4], [2, 4, -2], [1, 2, 3, -1]]

/-- `iMPS.py:550-554` `RHS()` of `Lh`. -/
noncomputable def lhRhs (O : SetOrder) (A l r h : ND ℂ) : Py (ND ℂ) := do
  let C ← hAA O A h
  let K ← leftK O A l C
  let Kr ← K.matmul r
  let e ← Kr.tr2
  K.zipNd (· - ·) (l.smul e)

/-- `iMPS.py:567-570`: `LHS(K) - RHS` of `Lh`. -/
noncomputable def lhEq (A l r rhs K : ND ℂ) : Py (ND ℂ) := do
  let t ← A.hc.matmul K
  let t ← t.matmul A
  let t ← t.sum0
  let Kr ← K.matmul r
  let e ← Kr.tr2
  let u ← K.zipNd (· - ·) t
  let u ← u.zipNd (· + ·) (l.smul e)
  u.zipNd (· - ·) rhs

/-- `iMPS.py:539-583` `Lh(H)` for `H = [h]`. -/
noncomputable def Lh (O : SetOrder) (eigs : ND ℂ → Py (ℝ × ND ℂ × ND ℂ)) (root : (ND ℂ → Py (ND ℂ)) → ℕ → Py (ND ℂ)) (x : IMPS) (h : ND ℂ) :
    Py (ND ℂ) := do
  let (_, l, r) ← eigs x.A
  let d := x.A.dim 0
  let h ← h.reshape [d, d, d, d]
  let rhs ← lhRhs O x.A l r h
  root (lhEq x.A l r rhs) (x.A.dim 1)

/-- `iMPS.py:596-600` `RHS()` of `Rh`; `r` occurs twice, in `A.conj()@r` and in `C@r`. -/
noncomputable def rhRhs (O : SetOrder) (A l r h : ND ℂ) : Py (ND ℂ) := do
  let C ← hAA O A h
  let Ar ← A.conj.matmul r
  let Cr ← C.matmul42 r
  let K ← nc O [A.conj, Ar, Cr] [[1, -1, 4], [2, 4, 3], [1, 2, -2, 3]]
  let lK ← l.matmul K
  let e ← lK.tr2
  K.zipNd (· - ·) (r.smul e)

/-- `iMPS.py:613-616`: `LHS(K) - RHS` of `Rh`. -/
noncomputable def rhEq (A l r rhs K : ND ℂ) : Py (ND ℂ) := do
  let t ← A.conj.matmul K
  let t ← t.matmul A.tr
  let t ← t.sum0
  let lK ← l.matmul K
  let e ← lK.tr2
  let u ← K.zipNd (· - ·) t
  let u ← u.zipNd (· + ·) (r.smul e)
  u.zipNd (· - ·) rhs

/-- `iMPS.py:585-630` `Rh(H)` for `H = [h]`. -/
noncomputable def Rh (O : SetOrder) (eigs : ND ℂ → Py (ℝ × ND ℂ × ND ℂ)) (root : (ND ℂ → Py (ND ℂ)) → ℕ → Py (ND ℂ)) (x : IMPS) (h : ND ℂ) :
    Py (ND ℂ) := do
  let (_, l, r) ← eigs x.A
  let d := x.A.dim 0
  let h ← h.reshape [d, d, d, d]
  let rhs ← rhRhs O x.A l r h
  root (rhEq x.A l r rhs) (x.A.dim 1)

/-- `iMPS.py:632-647` `left_null_projector()`; the lines are those of `fMPS.left_null_projector`. -/
noncomputable def leftNull (chol inv null : ND ℂ → Py (ND ℂ)) (O : SetOrder) (eigs : ND ℂ → Py (ℝ × ND ℂ × ND ℂ)) (x : IMPS) : Py (ND ℂ × ND ℂ) := do
  let (_, l, _) ← eigs x.A
  let vL ← FMPS.nullVecs chol null (x.A.dim 0) x.A l
  let pr ← FMPS.projector chol inv O vL l
  .ok (pr, vL)

/-- `iMPS.py:660-682` `dA_dt(H)` for `H = [h]`: the tensor of the result.  The attributes `e`, `l`, `r`, `vL` are left out. -/
noncomputable def dAdt (chol inv null : ND ℂ → Py (ND ℂ)) (O : SetOrder) (eigs : ND ℂ → Py (ℝ × ND ℂ × ND ℂ))
    (root : (ND ℂ → Py (ND ℂ)) → ℕ → Py (ND ℂ)) (x : IMPS) (h : ND ℂ) : Py (ND ℂ) := do
  let d := x.A.dim 0
  let h4 ← h.reshape [d, d, d, d]
  let (_, l, r) ← eigs x.A
  let C ← hAA O x.A h4
  let K ← leftK O x.A l C
  let Kr ← K.matmul r
  let _ ← Kr.tr2
  let (pr, _) ← leftNull chol inv null O eigs x
  let R ← nc O [pr, x.A] [[-3, -4, 1, -2], [1, -1, -5]]
  let K ← Lh O eigs root x h
  let B := (zerosND x.A.shape).smul (-Complex.I)
  let lC ← l.matmul24 C
  let lCr ← lC.matmul42 r
  let ri ← inv r
  let b ← ri.matmul x.A.conj
  let B1 ← nc O [lCr, pr, b] [[3, 4, 1, 2], [-1, -2, 3, 1], [4, -3, 2]]
  let B ← B.zipNd (· + ·) (B1.smul (-Complex.I))
  let lA ← l.matmul x.A.conj
  let B2 ← nc O [lA, pr, C] [[1, 3, 4], [-1, -2, 2, 4], [1, 2, 3, -3]]
  let B ← B.zipNd (· + ·) (B2.smul (-Complex.I))
  let B3 ← nc O [K, R] [[1, 2], [1, 2, -1, -2, -3]]
  B.zipNd (· + ·) (B3.smul (-Complex.I))

end Xmps.IMPS
