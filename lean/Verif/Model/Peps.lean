import Verif.Base.NpOps
import Mathlib.Data.Complex.Basic

/-!
# Model of `fPEPS`: construction and reflections (`fPEPS.py:253-404`)

Legs of the arrays: physical, up, right, down, left.  `data` is a list of rows.
-/

namespace Xmps

/-- `fPEPS`: the attributes; `oc` is absent (`none`) until set. -/
structure FPEPS where
  data : List (List (ND ℂ))
  Lx : ℕ
  Ly : ℕ
  d : ℕ
  X : ℕ
  oc : Option (ℤ × ℤ)

namespace FPEPS

/-- `max([max(x.shape[1:]) for x in xs])`; `ValueError` for an empty sequence -/
def maxShape (xs : List (ND ℂ)) : Py ℕ := do
  let ms ← xs.mapM fun x => if x.shape.tail = [] then .error .valueError else .ok (x.shape.tail.foldl max 0)
  if ms = [] then .error .valueError else .ok (ms.foldl max 0)

/-- `fPEPS.py:257-268` `fPEPS(data)`: `Lx` is the number of rows, `Ly` the length of the first row. -/
def init (data : List (List (ND ℂ))) : Py FPEPS := do
  let r0 ← pyGet data 0
  let A ← pyGet r0 0
  let d ← pyGet A.shape 0
  let X ← maxShape data.flatten
  .ok ⟨data, data.length, r0.length, d, X, none⟩

/-- `list(map(list, zip(*rows)))`: stops at the shortest row -/
def zipStar {α : Type} : List (List α) → List (List α)
  | [] => []
  | r :: rows => (List.range (rows.foldl (fun n l => min n l.length) r.length)).map fun i => (r :: rows).filterMap (·[i]?)

/-- `fPEPS.py:157-158` `transpose_peps_tensor` -/
def transposeTensor (A : ND ℂ) : Py (ND ℂ) := A.transpose [0, 4, 3, 2, 1]

/-- `fPEPS.py:369-380` the property `T` -/
def T (x : FPEPS) : Py FPEPS := do
  let data ← (zipStar x.data).mapM fun row => row.mapM transposeTensor
  let ret ← init data
  .ok { ret with oc := x.oc.map fun (j, i) => (i, j), X := x.X, d := x.d }

/-- `fPEPS.py:382-394` the property `R` -/
def R (x : FPEPS) : Py FPEPS := do
  let data ← x.data.mapM fun row => do
    let row ← row.mapM (·.transpose [0, 1, 4, 3, 2])
    .ok row.reverse
  let ret ← init data
  .ok { ret with oc := x.oc.map fun (i, j) => ((x.Lx : ℤ) - 1 - i, j), X := x.X, d := x.d }

/-- `fPEPS.py:396-408` the property `U` -/
def U (x : FPEPS) : Py FPEPS := do
  let data ← x.data.mapM fun row => row.mapM (·.transpose [0, 3, 2, 1, 4])
  let ret ← init data.reverse
  .ok { ret with oc := x.oc.map fun (i, j) => (i, (x.Ly : ℤ) - j - 1), X := x.X, d := x.d }

end FPEPS

end Xmps
