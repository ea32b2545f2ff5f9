import Verif.Model.TfdSymm

/-!
# Model of `fs` and of the splitting in `fTFD.get_vL` (`fMPS.py:2014-2017`, `2138-2144`)
-/

namespace Xmps.TFD

/-- `fMPS.py:2014-2017` `fs(X)`; `int(sqrt(n))` is the integer square root -/
def fs (X : ND ℂ) : Py (ND ℂ) := do
  let n := Nat.sqrt (X.dim 0)
  let t ← X.reshape (n :: n :: X.shape.tail)
  let t ← t.transpose (1 :: 0 :: List.range' 2 (X.rank - 1))
  t.reshape X.shape

/-- `fMPS.py:2140-2143` the function `vLs` of `get_vL`, for a site whose tensor has left bond `D` and for which `left_null_projector` returned `vL` -/
noncomputable def splitVL (D : ℕ) (vL : ND ℂ) : Py (ND ℂ × ND ℂ × ND ℂ) := do
  let (_, _, M) ← symmAsymm D
  let f ← fs vL
  let g ← (M.smul (1 / 2)).matmul f
  let p ← (vL.smul (1 / 2)).zipNd (· + ·) g
  let q ← (vL.smul (1 / 2)).zipNd (· - ·) g
  .ok (p, q, M)

end Xmps.TFD
