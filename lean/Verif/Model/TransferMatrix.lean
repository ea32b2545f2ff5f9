import Verif.Model.Envs

/-!
# Model of `Map` and `TransferMatrix` in `iMPS.py`

The linear operators only wrap `mv` and `mvr`; the iterative eigensolver is not modelled.
-/

namespace Xmps

open Finset

/-- `tensor.py:178-183` `T`: last two axes swapped (rank 2 and 3) -/
def ND.tr {K : Type} (A : ND K) : ND K :=
  match A.shape with
  | [m, n] => ⟨[n, m], fun
      | [i, j] => A.val [j, i]
      | idx => A.val idx⟩
  | [d, m, n] => ⟨[d, n, m], fun
      | [s, i, j] => A.val [s, j, i]
      | idx => A.val idx⟩
  | _ => A

/-- `iMPS.py:36-43` `Map(A, B)` -/
structure TMap where
  A : ND ℂ
  B : ND ℂ

namespace TMap

/-- `iMPS.py:41` `self.shape` -/
def shape (E : TMap) : List ℕ := [E.A.dim 1 ^ 2, E.A.dim 2 ^ 2]

/-- `iMPS.py:45-49` `asmatrix` -/
noncomputable def asmatrix (E : TMap) : Py (ND ℂ) := do
  let t ← E.A.tensordot E.B.hc [0] [0]
  let t ← t.transpose [0, 3, 1, 2]
  t.reshape E.shape

/-- `iMPS.py:51-60` `mv` -/
noncomputable def mv (E : TMap) (r : ND ℂ) : Py (ND ℂ) := do
  let D := E.A.dim 1
  let r ← r.reshape [D, D]
  let t ← E.A.matmul r
  let t ← t.matmul E.B.hc
  let t ← t.sum0
  t.reshape [D ^ 2]

/-- `iMPS.py:62-70` `mvr` -/
noncomputable def mvr (E : TMap) (l : ND ℂ) : Py (ND ℂ) := do
  let D := E.A.dim 1
  let l ← l.reshape [D, D]
  let t ← E.A.hc.matmul l
  let t ← t.matmul E.B
  let t ← t.sum0
  t.reshape [D ^ 2]

end TMap

namespace TransferMatrix

/-- `iMPS.py:114-121` `mv` -/
noncomputable def mv (A : ND ℂ) (r : ND ℂ) : Py (ND ℂ) := do
  let r ← r.reshape [A.dim 1, A.dim 2]
  let t ← A.matmul r
  let t ← t.matmul A.hc
  let t ← t.sum0
  t.reshape [A.dim 1 * A.dim 2]

/-- `iMPS.py:123-130` `mvr` -/
noncomputable def mvr (A : ND ℂ) (l : ND ℂ) : Py (ND ℂ) := do
  let l ← l.reshape [A.dim 1, A.dim 2]
  let t ← A.tr.matmul l
  let t ← t.matmul A.conj
  let t ← t.sum0
  t.reshape [A.dim 1 * A.dim 2]

/-- `iMPS.py:136-139` `asmatrix` -/
noncomputable def asmatrix (A : ND ℂ) : Py (ND ℂ) := do
  let t ← A.tensordot A.conj [0] [0]
  let t ← t.transpose [0, 2, 1, 3]
  t.reshape [A.dim 1 ^ 2, A.dim 2 ^ 2]

end TransferMatrix

end Xmps
