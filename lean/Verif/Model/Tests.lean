import Verif.Model.Canonicalise

/-!
# Model of `tests.py`

Arithmetic is exact.  `allclose(a, b)` is `|a - b| ≤ atol + rtol |b|` entrywise; arrays of different shape are reported as `ValueError`
(numpy would broadcast some of them).  Tensors have rank 3, so the axis `-1` is 2.
-/

namespace Xmps.Tests

open Finset

/-- `tests.py:8-20` `clip`, for one array; the code overwrites the array, which is a temporary in every call. -/
noncomputable def clip (tol : ℝ) (A : ND ℂ) : ND ℂ :=
  ⟨A.shape, fun idx => open Classical in if ‖A.val idx‖ < tol then 0 else A.val idx⟩

/-- `tests.py:34-37`: the entry of `close` for one array `x` of `Is`: clip, subtract from the identity, clip, sum. -/
noncomputable def defect (z : ℝ) (x : ND ℂ) : Py ℝ :=
  let x := clip z x
  let n := x.shape.foldl max 0
  if x.shape = [n, n] then
    .ok (∑ i ∈ range n, ∑ j ∈ range n,
      let t := ‖(if i = j then 1 else 0) - x.val [i, j]‖
      open Classical in if t < z then 0 else t)
  else .error .valueError

/-- `tests.py:22-40` `is_right_canonical(mats, c, z)`; `mats is []` is never true. -/
noncomputable def isRightCanonical (mats : List (ND ℂ)) (c : ℝ := 1e-8) (z : ℝ := 1e-8) : Py Bool := do
  let Is ← mats.mapM fun x => x.tensordot x.hc [0, 2] [0, 1]
  let close ← Is.mapM (defect z)
  .ok (open Classical in close.all fun t => decide (|t| ≤ c))

/-- `tests.py:42-62` `is_left_canonical(mats, c, z)` -/
noncomputable def isLeftCanonical (mats : List (ND ℂ)) (c : ℝ := 1e-8) (z : ℝ := 1e-8) : Py Bool := do
  let Is ← mats.mapM fun x => x.hc.tensordot x [0, 2] [0, 1]
  let close ← Is.mapM (defect z)
  .ok (open Classical in close.all fun t => decide (|t| ≤ c))

/-- `numpy.allclose(a, b)` with the default tolerances, for matrices -/
noncomputable def allclose (a b : ND ℂ) : Py Bool :=
  match a.shape with
  | [m, n] => if b.shape = [m, n] then
      .ok (open Classical in decide (∀ i < m, ∀ j < n, ‖a.val [i, j] - b.val [i, j]‖ ≤ 1e-8 + 1e-5 * ‖b.val [i, j]‖))
    else .error .valueError
  | _ => .error .valueError

/-- `tests.py:64-74` `is_right_env_canonical(mats, sings)` -/
noncomputable def isRightEnvCanonical (mats sings : List (ND ℂ)) : Py Bool := do
  let Ls ← (mats.zip sings).mapM fun p => do
    let t ← p.1.hc.matmul p.2
    t.tensordot p.1 [0, 2] [0, 1]
  let close ← (Ls.dropLast.zip (sings.drop 1)).mapM fun p => allclose p.1 p.2
  .ok (close.all id)

/-- `tests.py:76-83` `is_left_env_canonical(mats, sings)` -/
noncomputable def isLeftEnvCanonical (mats sings : List (ND ℂ)) : Py Bool := do
  let Ls ← (mats.zip (sings.drop 1)).mapM fun p => do
    let t ← p.1.matmul p.2
    t.tensordot p.1.hc [0, 2] [0, 1]
  let close ← (Ls.dropLast.zip sings.dropLast).mapM fun p => allclose p.1 p.2
  .ok (close.all id)

/-- the main diagonal of a matrix -/
def diagOf (S : ND ℂ) : Py (List ℂ) :=
  match S.shape with
  | [m, n] => .ok ((List.range (min m n)).map fun i => S.val [i, i])
  | _ => .error .valueError

/-- `tests.py:85-91` `is_full_rank(sings)` -/
noncomputable def isFullRank (sings : List (ND ℂ)) : Py Bool := do
  let ds ← sings.mapM diagOf
  .ok (open Classical in decide ((ds.map fun S => S.length - S.countP fun v => decide (v ≠ 0)).sum = 0))

/-- `tests.py:93-101` `has_trace_1(sings)` -/
noncomputable def hasTrace1 (sings : List (ND ℂ)) : Py Bool := do
  let ds ← sings.mapM diagOf
  .ok (open Classical in (ds.map fun S => S.sum - 1).all fun e => decide (‖e‖ ≤ 1e-8))

end Xmps.Tests
