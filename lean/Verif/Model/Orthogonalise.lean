import Verif.Model.Fmps
import Verif.Model.TensorTools
import Mathlib.Analysis.Complex.Norm
import Mathlib.Analysis.Real.Sqrt

/-!
# Model of `fMPS.right_orthogonalise`, `left_orthogonalise`, `mixed_orthogonalise` (`fMPS.py:650-700`)

The methods change the receiver and return it; the model returns the changed object.  When a method
raises half way the half changed receiver is not modelled.  `qr`, `rq` are the LAPACK calls.
-/

namespace Xmps

open Finset

variable {K : Type}

/-- `np.linalg.norm(A.reshape(-1))` -/
noncomputable def ndNorm (A : ND ℂ) : ℝ := Real.sqrt (sumIdx A.shape fun idx => ‖A.val idx‖ ^ 2)

/-- a Python scalar as an array of rank 0 -/
def scalarND (c : K) : ND K := ⟨[], fun _ => c⟩

namespace FMPS

section
variable [AddCommMonoid K] [Mul K]

/-- `fMPS.py:656-662`: the loop body of `right_orthogonalise`. -/
def rightStep (rq : ND K → Py (ND K × ND K)) (x : FMPS K) (m : ℕ) : Py (FMPS K) := do
  let T ← pyGet x.data m
  let (A, pipe) ← groupLegs T [[1], [0, 2]]
  let (R, Q) ← rq A
  let Q' ← ungroupLegs Q pipe
  let data := x.data.set m Q'
  if m ≠ 0 then
    let B ← pyGet data (m - 1)
    let t ← B.matmul R
    .ok { x with data := data.set (m - 1) t }
  else .ok { x with data := data, norm_ := some R }

/-- `fMPS.py:650-666` `right_orthogonalise`. -/
def rightOrthogonalise (rq : ND K → Py (ND K × ND K)) (x : FMPS K) (fr : ℕ := 0) (upTo : Option ℕ := none) :
    Py (FMPS K) := do
  let upTo := upTo.getD x.L
  let y ← (List.range' fr (upTo - fr)).reverse.foldlM (rightStep rq) x
  if fr = 0 ∧ upTo = x.L then .ok { y with orthogonal := true, oc := some 0 } else .ok y

/-- `fMPS.py:674-680`: the loop body of `left_orthogonalise`; `m != self.L-1` is `m + 1 ≠ L`. -/
def leftStep (qr : ND K → Py (ND K × ND K)) (x : FMPS K) (m : ℕ) : Py (FMPS K) := do
  let T ← pyGet x.data m
  let (A, pipe) ← groupLegs T [[0, 1], [2]]
  let (Q, R) ← qr A
  let Q' ← ungroupLegs Q pipe
  let data := x.data.set m Q'
  if m + 1 ≠ x.L then
    let B ← pyGet data (m + 1)
    let t ← R.matmul B
    .ok { x with data := data.set (m + 1) t }
  else .ok { x with data := data, norm_ := some R }

/-- `fMPS.py:668-684` `left_orthogonalise`. -/
def leftOrthogonalise (qr : ND K → Py (ND K × ND K)) (x : FMPS K) (fr : ℕ := 0) (upTo : Option ℕ := none) :
    Py (FMPS K) := do
  let upTo := upTo.getD x.L
  let y ← (List.range' fr (upTo - fr)).foldlM (leftStep qr) x
  if fr = 0 ∧ upTo = x.L then .ok { y with orthogonal := true, oc := some x.L } else .ok y

end

/-- `fMPS.py:686-700` `mixed_orthogonalise` with `current_oc=None` (anything else raises
`NotImplementedError`).  Division by a zero norm gives `nan` entries in numpy and zeros here; the
theorems assume a non-zero state. -/
noncomputable def mixedOrthogonalise (qr rq : ND ℂ → Py (ND ℂ × ND ℂ)) (x : FMPS ℂ) (oc : ℕ)
    (currentOc : Option ℕ := none) : Py (FMPS ℂ) := do
  guardPy currentOc.isNone .notImplemented
  let x ← x.rightOrthogonalise rq (fr := oc)
  let x ← x.leftOrthogonalise qr (upTo := some oc)
  let A ← pyGet x.data oc
  let n := ndNorm A
  .ok { x with
    data := x.data.set oc (A.smul ((n : ℂ)⁻¹)), norm_ := some (scalarND (n : ℂ))
    orthogonal := true, oc := some oc }

end FMPS

end Xmps
