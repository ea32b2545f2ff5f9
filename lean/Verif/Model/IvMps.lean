import Verif.Model.Imps

/-!
# Model of the infinite MPS in Vidal form (`iMPS.py:730-817`, `tensor.py:255-297`)

One pair `(G, L)` in the unit cell.  `arn M` is `arnoldi(M, k=1, which='LM')` for a matrix: the eigenvalue, taken to be real, and the
eigenvector as a column.  Cholesky factorisation, singular values and inverse are parameters.
-/

namespace Xmps

open Finset

/-- `tensor.py:264-267`: the two assertions and the reshape of an array with four legs to a matrix -/
noncomputable def legs4 (M : ND ℂ) : Py (ℕ × ND ℂ) := do
  guardPy (M.shape.all fun x => x == M.dim 0) .assertionError
  guardPy (M.shape.length == 4) .assertionError
  let K := M.dim 0
  let M ← M.reshape [K ^ 2, K ^ 2]
  .ok (K, M)

/-- `tensor.py:255-275` `r_eigenmatrix(M)` -/
noncomputable def rEigenmatrix (arn : ND ℂ → Py (ℝ × ND ℂ)) (M : ND ℂ) : Py (ℝ × ND ℂ) := do
  let (K, M) ← legs4 M
  let (e, v) ← arn M
  let w ← v.reshape [K, K]
  .ok (e, (rotateToHermitian w).smul (npSign (v.val [0, 0]))⁻¹)

/-- `tensor.py:277-297` `l_eigenmatrix(M)` -/
noncomputable def lEigenmatrix (arn : ND ℂ → Py (ℝ × ND ℂ)) (M : ND ℂ) : Py (ℝ × ND ℂ) := do
  let (K, M) ← legs4 M
  let (e, v) ← arn M.hc
  let w ← v.reshape [K, K]
  .ok (e, ((rotateToHermitian w).smul (npSign (v.val [0, 0]))⁻¹).conj)

/-- `ivMPS` with one pair in the unit cell -/
structure IvMPS where
  G : ND ℂ
  L : ND ℂ

namespace IvMPS

/-- `iMPS.py:774-775` `transpose(tensordot(B, C(B), [0, 0]), [0, 2, 1, 3])` -/
noncomputable def transfer4 (B : ND ℂ) : Py (ND ℂ) := do
  let t ← B.tensordot B.conj [0] [0]
  t.transpose [0, 2, 1, 3]

/-- `iMPS.py:764-800` `canonicalise()`.  `dot` of an array of rank 3 contracts its last but one leg when it stands on the right and its last leg when
it stands on the left.  The second `LG` (line 791) is not used and left out. -/
noncomputable def canonicalise (arn : ND ℂ → Py (ℝ × ND ℂ)) (chol : ND ℂ → Py (ND ℂ)) (svd : ND ℂ → Py (ND ℂ × List ℝ × ND ℂ))
    (inv : ND ℂ → Py (ND ℂ)) (x : IvMPS) : Py IvMPS := do
  let LG ← x.L.tensordot x.G [1] [1]
  let LG ← LG.transpose [1, 0, 2]
  let GL ← x.G.tensordot x.L [2] [0]
  let L_ ← transfer4 LG
  let R_ ← transfer4 GL
  let (_, vl) ← lEigenmatrix arn L_
  let (_, vr) ← rEigenmatrix arn R_
  let vl := vl.hc
  let X ← chol vr
  let Y ← chol vl
  let YL ← Y.tr.matmul x.L
  let YLX ← YL.matmul X
  let (U, S, V) ← svd YLX
  let L_ := diagND (S.map fun s : ℝ => (s : ℂ))
  let Xi ← inv X
  let VX ← V.matmul Xi
  let g ← VX.tensordot x.G [1] [1]
  let Yi ← inv Y.tr
  let g ← g.tensordot Yi [2] [0]
  let g ← g.tensordot U [2] [0]
  let G_ ← g.transpose [1, 0, 2]
  let GL ← G_.tensordot L_ [2] [0]
  let R_ ← transfer4 GL
  let (eta, _) ← rEigenmatrix arn R_
  let ll := (S.map fun s => s * s).sum
  .ok ⟨G_.smul ((Real.sqrt (eta / ll) : ℝ) : ℂ)⁻¹, L_.smul ((Real.sqrt ll : ℝ) : ℂ)⁻¹⟩

/-- `iMPS.py:802-804` `to_iMPS()` -/
noncomputable def toIMPS (x : IvMPS) : Py IMPS := do
  let A ← x.G.tensordot x.L [2] [0]
  .ok ⟨A, none, none, none⟩

/-- `iMPS.py:806-817` `E(op)`; the final `real_if_close` is left out -/
noncomputable def E (x : IvMPS) (op : ND ℂ) : Py ℂ := do
  let GL ← x.G.tensordot x.L [2] [0]
  let GLL ← GL.tensordot x.L [2] [0]
  let t ← GLL.tensordot x.G.hc [2] [1]
  let t ← t.tensordot x.L [3] [0]
  let t ← t.tensordot x.L [3] [0]
  let circle ← t.trace 1 3
  let p ← circle.tensordot op [0, 1] [0, 1]
  .ok (p.val [])

end IvMPS

end Xmps
