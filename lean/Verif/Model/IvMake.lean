import Verif.Model.IvMps

/-!
# Model of `ivMPS.random` and `ivMPS.transfer_matrix` (`iMPS.py:743-762`)
-/

namespace Xmps.IvMPS

/-- `ivMPS` with any number of pairs in the unit cell -/
structure Cells where
  data : List (ND ℂ × ND ℂ)
  period : ℕ

open Classical in
/-- `iMPS.py:755` `diag(sorted(w**2)[::-1])` -/
noncomputable def randomL (w : List ℝ) : ND ℂ :=
  diagND ((((w.map fun x => x ^ 2).mergeSort fun a b => decide (a ≤ b)).reverse).map fun x : ℝ => (x : ℂ))

/-- `iMPS.py:743-756` `random(d, D, period)`; the normal numbers of the `k`-th pair are parameters: `re`, `im` for the array, `w` (a list of `D`) for the matrix -/
noncomputable def random (re im : ℕ → List ℕ → ℝ) (w : ℕ → ℕ → ℝ) (d D period : ℕ) : Cells :=
  ⟨(List.range period).map fun k =>
    (⟨[d, D, D], fun idx => (re k idx : ℂ) + Complex.I * (im k idx : ℂ)⟩, randomL ((List.range D).map (w k))), period⟩

/-- `iMPS.py:758-762` `transfer_matrix()` -/
noncomputable def transferMatrix (x : Cells) : Py (ND ℂ) := do
  guardPy (x.period == 1) .assertionError
  let Ts ← x.data.mapM fun p => do
    let A ← p.1.tensordot p.2 [2] [0]
    A.tensordot A.conj [0] [0]
  pyGet Ts 0

end Xmps.IvMPS
