import Verif.Model.TransferMatrix
import Verif.Model.Isometry
import Mathlib.Analysis.SpecialFunctions.Pow.Complex

/-!
# Model of the canonical form and the expectation values of an infinite MPS (`iMPS.py:141-156, 350-441`)

An `iMPS` with one tensor in the unit cell.  The other periods stop at the assertion in `transfer_matrix`.
The iterative eigensolver, the Cholesky factorisation, the singular value decomposition and the inverse are parameters.
-/

namespace Xmps

open Finset

/-- complex square root, principal branch, as `numpy.sqrt` -/
noncomputable def csqrt (z : ℂ) : ℂ := z ^ (2⁻¹ : ℂ)

/-- `tensor.py:244-253` `rotate_to_hermitian(r)` -/
noncomputable def rotateToHermitian (r : ND ℂ) : ND ℂ := r.smul (csqrt (star (r.val [0, 0]) / r.val [0, 0]))

/-- `np.trace` of a matrix -/
noncomputable def ND.tr2 (A : ND ℂ) : Py ℂ :=
  match A.shape with
  | [m, n] => .ok (∑ i ∈ range (min m n), A.val [i, i])
  | _ => .error .valueError

/-- what `canonicalise` chooses by `hand` -/
inductive Hand
  | r | l | m
  deriving DecidableEq

/-- `iMPS`: one tensor in the unit cell and the attributes `canonicalise` sets.  `d`, `D` and `canonical` are not modelled. -/
structure IMPS where
  A : ND ℂ
  L : Option (ND ℂ)
  l : Option (ND ℂ)
  r : Option (ND ℂ)

namespace IMPS

/-- `iMPS.py:141-156` `TransferMatrix.eigs`.  `arn A` and `arnH A` are the leading eigenvalue and eigenvector found with
`mv` and with `mvr`, the vector as a column; the eigenvalue is taken to be real. -/
noncomputable def eigs (arn arnH : ND ℂ → Py (ℝ × ND ℂ)) (A : ND ℂ) : Py (ℝ × ND ℂ × ND ℂ) := do
  let (_, r) ← arn A
  let (eta, l) ← arnH A
  let r' ← r.reshape [A.dim 1, A.dim 2]
  let l' ← l.reshape [A.dim 1, A.dim 2]
  let r := (rotateToHermitian r').smul (npSign (r.val [0, 0]))⁻¹
  let l := (rotateToHermitian l').smul (npSign (l.val [0, 0]))⁻¹
  let lr ← l.matmul r
  let n ← lr.tr2
  .ok (eta, l.smul (csqrt n)⁻¹, r.smul (csqrt n)⁻¹)

/-- `iMPS.py:350-389`: the pair `(G_, L_)` of `canonicalise`, with the fixed points and the singular values -/
noncomputable def vidalPair (eigs : ND ℂ → Py (ℝ × ND ℂ × ND ℂ)) (chol : ND ℂ → Py (ND ℂ)) (svd : ND ℂ → Py (ND ℂ × List ℝ × ND ℂ))
    (inv : ND ℂ → Py (ND ℂ)) (A : ND ℂ) : Py (ND ℂ × ND ℂ × List ℝ × ND ℂ × ND ℂ) := do
  let (eta, l, r) ← eigs A
  let X ← chol r
  let Y ← chol l
  let YX ← Y.tr.matmul X
  let (U, S, V) ← svd YX
  let ll := (S.map fun x => x * x).sum
  let Xi ← inv X
  let VX ← V.matmul Xi
  let Yi ← inv Y.tr
  let YU ← Yi.matmul U
  let G ← VX.matmul A
  let G ← G.matmul YU
  let L := diagND (S.map fun x : ℝ => (x : ℂ))
  .ok (G.smul ((Real.sqrt (eta / ll) : ℝ) : ℂ)⁻¹, L.smul ((Real.sqrt ll : ℝ) : ℂ)⁻¹, S, l, r)

/-- `iMPS.py:350-389` `canonicalise(hand)` -/
noncomputable def canonicalise (eigs : ND ℂ → Py (ℝ × ND ℂ × ND ℂ)) (chol : ND ℂ → Py (ND ℂ)) (svd : ND ℂ → Py (ND ℂ × List ℝ × ND ℂ))
    (inv : ND ℂ → Py (ND ℂ)) (x : IMPS) (hand : Hand) : Py IMPS := do
  let (G, L, S, l, r) ← vidalPair eigs chol svd inv x.A
  let A ← match hand with
    | .r => G.matmul L
    | .l => L.matmul G
    | .m => do
      let sq := diagND (S.map fun x : ℝ => ((Real.sqrt x : ℝ) : ℂ))
      let t ← sq.matmul G
      t.matmul sq
  .ok ⟨A, some L, some l, some r⟩

/-- `X * Y` of two arrays of the same shape of rank 3, and `sum` over all entries -/
noncomputable def sumMul (X Y : ND ℂ) : Py ℂ :=
  if X.shape = Y.shape then .ok (sumIdx X.shape fun idx => X.val idx * Y.val idx) else .error .valueError

/-- `L**2`: entry by entry -/
noncomputable def sqEntries (L : ND ℂ) : ND ℂ := ⟨L.shape, fun idx => L.val idx ^ 2⟩

/-- `iMPS.py:412-431` `E(op, c)` with `c` one of `'m'`, `'r'`, `'l'`; without a previous `canonicalise` there is no `L`.
The final `real_if_close` is left out. -/
noncomputable def E (x : IMPS) (op : ND ℂ) : Hand → Py ℂ
  | .m => do
    let L ← match x.L with | some L => .ok L | none => .error .attributeError
    let LA ← L.matmul x.A
    let AL ← x.A.conj.matmul L
    let t ← op.tensordot AL [1] [0]
    sumMul LA t
  | .r => do
    let L ← match x.L with | some L => .ok L | none => .error .attributeError
    let LA ← (sqEntries L).matmul x.A.conj
    let t ← op.tensordot LA [1] [0]
    sumMul x.A t
  | .l => do
    let L ← match x.L with | some L => .ok L | none => .error .attributeError
    let AL ← x.A.matmul (sqEntries L)
    let t ← op.tensordot x.A.conj [1] [0]
    sumMul AL t

/-- `iMPS.py:433-441` `E(op)`: `.dot` contracts the last leg with the last but one -/
noncomputable def expVidal (eigs : ND ℂ → Py (ℝ × ND ℂ × ND ℂ)) (chol : ND ℂ → Py (ND ℂ)) (svd : ND ℂ → Py (ND ℂ × List ℝ × ND ℂ))
    (inv : ND ℂ → Py (ND ℂ)) (x : IMPS) (op : ND ℂ) : Py ℂ := do
  let (G, L, _, _, _) ← vidalPair eigs chol svd inv x.A
  let GL ← G.tensordot L [2] [0]
  let GLL ← GL.tensordot L [2] [0]
  let t ← GLL.tensordot G.hc [2] [1]
  let t ← t.tensordot L [3] [0]
  let t ← t.tensordot L [3] [0]
  let circle ← t.trace 1 3
  let p ← circle.matmul op
  p.tr2

end IMPS

end Xmps
