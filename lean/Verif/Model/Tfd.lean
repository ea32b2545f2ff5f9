import Verif.Model.Fmps

/-!
# Model of `fTFD` (`fMPS.py:2019-2184`): construction and symmetry

`int(sqrt(n))` is the integer square root.
-/

namespace Xmps

open Finset

variable {K : Type}

/-- `np.kron(A, B)` of two rank 3 arrays -/
def kron3 [Mul K] (A B : ND K) : Py (ND K) :=
  match A.shape, B.shape with
  | [d, l, r], [e, m, q] => .ok ⟨[d * e, l * m, r * q], fun
      | [s, i, j] => A.val [s / e, i / m, j / q] * B.val [s % e, i % m, j % q]
      | idx => A.val idx⟩
  | _, _ => .error .valueError

namespace TFD

/-- `fMPS.py:2094-2100` `fTFD().from_fMPS(mps)`; the flags `canonical` and `orthogonal`, which the code does not set, are False. -/
def fromFMPS [Mul K] (x : FMPS K) : Py (FMPS K) := do
  let data ← x.data.mapM fun a => kron3 a a
  .ok { data := data, L := x.L, d := x.d ^ 2, D := x.D ^ 2 }

/-- `fMPS.py:2123-2126`: the tensor of `symmetry` -/
def symmetry1 (X : ND K) : Py (ND K) := do
  let a := Nat.sqrt (X.dim 0)
  let b := Nat.sqrt (X.dim 1)
  let c := Nat.sqrt (X.dim 2)
  let t ← X.reshape [a, a, b, b, c, c]
  let t ← t.transpose [1, 0, 3, 2, 5, 4]
  t.reshape X.shape

/-- `fMPS.py:2122-2126` `symmetry` -/
def symmetry (x : FMPS K) : Py (FMPS K) := do
  let data ← x.data.mapM symmetry1
  FMPS.init data

/-- `fMPS.py:2128-2129` `symmetrise`, with `__add__` of `fMPS.py:2028-2034` -/
def symmetrise [Add K] (x : FMPS K) : Py (FMPS K) := do
  let y ← symmetry x
  FMPS.addItem x y

/-- `fMPS.py:2105-2119` `local_overlap`: `isinstance(other, 'fMPS')` raises, the second argument not being a class. -/
def localOverlap (_x _other : FMPS K) (_sites : List ℕ) (_double : Bool) : Py K := .error .typeError

end TFD

end Xmps
