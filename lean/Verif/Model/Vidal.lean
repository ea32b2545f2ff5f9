import Verif.Model.Canonicalise

/-!
# Model of `vfMPS` (`fMPS.py:2186-2216`)

`vfMPS.__init__` with data computes `L`, `d`, `D` and does not store the data; only the objects made by
`from_fMPS` are modelled.
-/

namespace Xmps

/-- `vfMPS`: the attributes `data` (pairs of arrays) and `d` -/
structure VFMPS where
  data : List (ND ℂ × ND ℂ)
  d : ℕ

namespace VFMPS

/-- `swapaxes(dot(M, A), 0, 1)` for a matrix and an array of rank 3: `numpy.dot` contracts the last axis of the first
with the second to last axis of the second. -/
noncomputable def dotSwap (M A : ND ℂ) : Py (ND ℂ) := do
  let t ← M.tensordot A [1] [1]
  t.transpose [1, 0, 2]

/-- `fMPS.py:2208-2209`: one pass of the loop of `from_fMPS` -/
noncomputable def vidalStep (inv : ND ℂ → Py (ND ℂ)) (p : ND ℂ × ND ℂ) : Py (ND ℂ × ND ℂ) := do
  let Li ← inv p.1
  let G ← dotSwap Li p.2
  .ok (p.1, G)

/-- `fMPS.py:2199-2211` `vfMPS().from_fMPS(x)`; `x` is canonicalised in place, so it is returned too. -/
noncomputable def fromFMPS (svd : Svd) (eig : Eig) (inv : ND ℂ → Py (ND ℂ)) (x : FMPS ℂ) : Py (VFMPS × FMPS ℂ) := do
  let (y, Ls) ← x.rightCanonicalise svd eig
  let Ls ← (Ls.elim (.error .attributeError) .ok : Py (List (ND ℂ)))
  let data ← (Ls.zip y.data).mapM (vidalStep inv)
  .ok (⟨data, x.d⟩, y)

/-- `fMPS.py:2213-2215` `to_fMPS()` -/
noncomputable def toFMPS (v : VFMPS) : Py (FMPS ℂ) := do
  let data ← v.data.mapM fun p => dotSwap p.1 p.2
  FMPS.init data (some v.d)

end VFMPS

end Xmps
