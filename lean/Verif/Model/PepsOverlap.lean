import Verif.Model.Peps
import Verif.Model.Fmpo
import Verif.Model.Isometry
import Mathlib.Analysis.Complex.Norm
import Mathlib.Analysis.SpecialFunctions.Sqrt

/-!
# Model of `fPEPS.overlap`, `norm`, `apply` and `E` (`fPEPS.py:634-642, 699-719, 796-797, 913-923`)
-/

namespace Xmps

open Xmps.Ncon

namespace FPEPS

/-- `fPEPS.py:360-362, 700-702`: `np.tensordot(A, B.conj(), [0, 0])` with the legs of the two layers
paired and merged -/
def pairTensor (A B : ND ℂ) : Py (ND ℂ) := do
  let t ← A.tensordot B.conj [0] [0]
  let t ← t.transpose [0, 4, 1, 5, 2, 6, 3, 7]
  t.reshape (List.zipWith (· * ·) A.shape.tail B.shape.tail)

/-- `fPEPS.py:358-364` `row_mpos(other)` and the same expression in `overlap` (700-704) -/
def rowMpos (x y : FPEPS) : Py (List FMPO) :=
  (x.data.zip y.data).mapM fun rr => do
    let data ← (rr.1.zip rr.2).mapM fun ab => pairTensor ab.1 ab.2
    FMPO.init data

/-- `functools.reduce(f, l)`; `TypeError` for an empty list -/
def reduceM {α : Type} (f : α → α → Py α) : List α → Py α
  | [] => .error .typeError
  | a :: l => l.foldlM f a

/-- `fPEPS.py:699-707` `overlap` -/
noncomputable def overlap (O : SetOrder) (x y : FPEPS) : Py (ND ℂ) := do
  let mpos ← rowMpos x y
  let M ← reduceM (FMPO.mul O) mpos.reverse
  M.recombine O

/-- `fPEPS.py:641-642` `norm`: `np.sqrt(np.abs(t))` elementwise -/
noncomputable def norm (O : SetOrder) (x : FPEPS) : Py (ND ℝ) := do
  let t ← overlap O x x
  .ok ⟨t.shape, fun idx => Real.sqrt ‖t.val idx‖⟩

/-- `fPEPS.py:913-923` `copy()`: `fPEPS(...)` computes `Lx` and `Ly` anew. -/
def copy (x : FPEPS) : Py FPEPS := do
  let ret ← init x.data
  .ok { ret with oc := x.oc, X := x.X, d := x.d }

/-- `fPEPS.py:714-719` `apply(op, (i, j))`: acts on the tensor in column `i`, row `j`.
Negative positions are not modelled. -/
def apply (x : FPEPS) (op : ND ℂ) (i j : ℕ) : Py FPEPS := do
  let ret ← x.copy
  let row ← pyGet x.data j
  let A ← pyGet row i
  let B ← op.tensordot A [1] [0]
  .ok { ret with data := ret.data.set j (row.set i B) }

/-- `fPEPS.py:634-639` `normalise()`, as the new grid.  `bond_dimension` (411-412) is the largest leg of
all tensors.  The code divides in place. -/
noncomputable def normalise (O : SetOrder) (x : FPEPS) : Py FPEPS := do
  let D ← maxShape x.data.flatten
  if D = 1 then
    .ok { x with data := x.data.map fun row => row.map fun A => A.smul ((A.norm : ℂ)⁻¹) }
  else do
    let t ← norm O x
    let row ← pyGet x.data 0
    let A ← pyGet row 0
    .ok { x with data := x.data.set 0 (row.set 0 (A.smul ((t.val [0, 0] : ℝ) : ℂ)⁻¹)) }

/-- `fPEPS.py:796-797` `E(op, site)`: `np.real(...)[0, 0]`; `IndexError` when an extent is 0 -/
noncomputable def expval (O : SetOrder) (x : FPEPS) (op : ND ℂ) (i j : ℕ) : Py ℝ := do
  let y ← x.apply op i j
  let t ← overlap O y x
  match t.shape with
  | [_ + 1, _ + 1] => .ok (t.val [0, 0]).re
  | _ => .error .indexError

end FPEPS

end Xmps
