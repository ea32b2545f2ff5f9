import Verif.Model.Imps

/-!
# Model of `Map.left_fixed_point` and `iMPS.overlap`

`arn f n` stands for `scipy.sparse.linalg.eigs(f, k=1)` on an `n × n` linear operator given by its action `f`: the leading eigenvalue
and its eigenvector as a column.  A `0/0`, which numpy turns into `nan`s, is the value `none`.
-/

namespace Xmps

/-- `iMPS.py:86-93` `Map.left_fixed_point()` with `l0=None` -/
noncomputable def TMap.leftFixedPoint (arn : (ND ℂ → Py (ND ℂ)) → ℕ → Py (ℂ × ND ℂ)) (E : TMap) : Py (Option (ℂ × ND ℂ)) := do
  let D := E.A.dim 1
  let (eta, l) ← arn E.mvr (D ^ 2)
  if l.val [0, 0] = 0 then .ok none
  else do
    let l := (rotateToHermitian l).smul (npSign (l.val [0, 0]))⁻¹
    let l ← l.reshape [D, D]
    let n ← l.hc.matmul l
    let n ← n.tr2
    .ok (some (eta * csqrt n, l.smul (csqrt n)⁻¹))

/-- `iMPS.py:408-410` `overlap(other)`: both states are left canonicalised in place, so they are returned too; `other` is another object
than `self`. -/
noncomputable def IMPS.overlap (eigs : ND ℂ → Py (ℝ × ND ℂ × ND ℂ)) (chol : ND ℂ → Py (ND ℂ)) (svd : ND ℂ → Py (ND ℂ × List ℝ × ND ℂ))
    (inv : ND ℂ → Py (ND ℂ)) (arn : (ND ℂ → Py (ND ℂ)) → ℕ → Py (ℂ × ND ℂ)) (x y : IMPS) : Py (IMPS × IMPS × Option ℝ) := do
  let x ← canonicalise eigs chol svd inv x .l
  let y ← canonicalise eigs chol svd inv y .l
  let p ← TMap.leftFixedPoint arn ⟨x.A, y.A⟩
  .ok (x, y, p.map fun p => ‖p.1‖ ^ 2)

end Xmps
