import Verif.Model.Fmps
import Verif.Model.TensorTools
import Verif.Model.Canonicalise

/-!
# Model of the two-site gates (`fMPS.py:83-142`, `865-895`)

Sites are natural numbers.  `which` is `'l'`, `'r'` or anything else.
-/

namespace Xmps

open Xmps.Ncon

/-- the argument `which` -/
inductive Side
  | l | r | other

/-- `fMPS.py:59-62` `SWAP` -/
def SWAP : ND ℂ := ⟨[4, 4], fun
  | [0, 0] | [1, 2] | [2, 1] | [3, 3] => 1
  | _ => 0⟩

/-- `fMPS.py:95-96` `group_tensors` -/
noncomputable def groupTensors (O : SetOrder) (A B : ND ℂ) : Py (ND ℂ) := do
  let T ← nc O [A, B] [[-1, -3, 1], [-2, 1, -4]]
  T.reshape [A.dim 0 * B.dim 0, A.dim 1, B.dim 2]

/-- `fMPS.py:106-110`, `126-130`, `136-140`: the matrix that is factorised, with the guessed local
dimensions. -/
def separatePre (T : ND ℂ) : Py (ℕ × ℕ × ND ℂ) := do
  let (d1, d2) ← factors (T.dim 0)
  let M ← T.reshape [d1, d2, T.dim 1, T.dim 2]
  let M ← M.transpose [0, 2, 1, 3]
  let M ← M.reshape [d1 * T.dim 1, d2 * T.dim 2]
  .ok (d1, d2, M)

/-- `fMPS.py:117`, `132`, `141`: back to site tensors. -/
def separatePost (d1 d2 l r : ℕ) (Q R : ND ℂ) : Py (ND ℂ × ND ℂ) := do
  let A ← Q.reshape [d1, l, Q.dim 1]
  let B ← R.reshape [R.dim 0, d2, r]
  let B ← B.transpose [1, 0, 2]
  .ok (A, B)

/-- `fMPS.py:125-142` `separate_tensor_qr` and `separate_tensor_rq`: the two differ only in the
factorisation that is called. -/
def separateTensor (fac : ND ℂ → Py (ND ℂ × ND ℂ)) (T : ND ℂ) : Py (ND ℂ × ND ℂ) := do
  let (d1, d2, M) ← separatePre T
  let (Q, R) ← fac M
  separatePost d1 d2 (T.dim 1) (T.dim 2) Q R

/-- `norm(s[:D])` -/
noncomputable def listNorm (s : List ℝ) : ℝ := Real.sqrt (s.map (· ^ 2)).sum

/-- `fMPS.py:112-118`: the factors kept by `separate_tensor_svd`.  Division by a zero norm, which in
numpy gives `nan`, is an error here. -/
noncomputable def svdFactors (U : ND ℂ) (S : List ℝ) (V : ND ℂ) (D : ℕ) : Side → Py (ND ℂ × ND ℂ)
  | .l => do
    guardPy (decide (listNorm (S.take D) ≠ 0)) .diverges
    let B ← ((diagC S).head 0 D).matmul V
    .ok (U.head 1 D, B.smul ((listNorm (S.take D) : ℂ))⁻¹)
  | .r => do
    guardPy (decide (listNorm (S.take D) ≠ 0)) .diverges
    let A ← U.matmul ((diagC S).head 1 D)
    .ok (A.smul ((listNorm (S.take D) : ℂ))⁻¹, V.head 0 D)
  | .other => .error .exception

/-- `fMPS.py:105-123` `separate_tensor_svd(tensor, D, which)` with `D` given. -/
noncomputable def separateSvd (svd : Svd) (T : ND ℂ) (D : ℕ) (which : Side) : Py (ND ℂ × ND ℂ) := do
  let (d1, d2, M) ← separatePre T
  let (U, S, V) ← svd M
  let (Q, R) ← svdFactors U S V D which
  separatePost d1 d2 (T.dim 1) (T.dim 2) Q R

/-- `fMPS.py:83-90` `apply_unitary`, unpacked by the caller into two tensors: for another `which` it
returns `None`, which cannot be unpacked. -/
noncomputable def applyUnitary (qr rq : ND ℂ → Py (ND ℂ × ND ℂ)) (svd : Svd) (O : SetOrder) (A B U : ND ℂ) (which : Side)
    (D : Option ℕ) : Py (ND ℂ × ND ℂ) := do
  match D, which with
  | none, .other => .error .typeError
  | none, .l => do
    let G ← groupTensors O A B
    let T ← U.tensordot G [1] [0]
    separateTensor qr T
  | none, .r => do
    let G ← groupTensors O A B
    let T ← U.tensordot G [1] [0]
    separateTensor rq T
  | some D, which => do
    let G ← groupTensors O A B
    let T ← U.tensordot G [1] [0]
    separateSvd svd T D which

namespace FMPS

/-- `self[k], self[k+1] = apply_unitary([self[k], self[k+1]], U, which, D)` -/
noncomputable def pairStep (qr rq : ND ℂ → Py (ND ℂ × ND ℂ)) (svd : Svd) (O : SetOrder) (which : Side)
    (x : FMPS ℂ) (g : ND ℂ × ℕ × Option ℕ) : Py (FMPS ℂ) := do
  let A ← pyGet x.data g.2.1
  let B ← pyGet x.data (g.2.1 + 1)
  let (A', B') ← applyUnitary qr rq svd O A B g.1 which g.2.2
  .ok { x with data := (x.data.set g.2.1 A').set (g.2.1 + 1) B' }

/-- the gates applied by `apply_two_site` for sites `i < j` (or `i = j`): SWAPs down from `j-1` to `i+1`,
the operator, SWAPs back (`fMPS.py:883-894`). -/
def gateList (op : ND ℂ) (i j : ℕ) (D swapD : Option ℕ) : List (ND ℂ × ℕ × Option ℕ) :=
  (List.range' (i + 1) (j - 1 - i)).reverse.map (fun k => (SWAP, k, swapD)) ++
    [(op, i, D)] ++ (List.range' (i + 1) (j - 1 - i)).map fun k => (SWAP, k, swapD)

/-- `fMPS.py:865-895` `apply_two_site((op, sites), which, D, truncate_swaps)`.  For a 2×2 operator the
result is a new object; otherwise the receiver is changed and returned.  With a 2×2 operator and
another number of sites than one the code reads `i`, `j` before they are assigned. -/
noncomputable def applyTwoSite (qr rq : ND ℂ → Py (ND ℂ × ND ℂ)) (svd : Svd) (O : SetOrder) (x : FMPS ℂ) (op : ND ℂ)
    (sites : List ℕ) (which : Side := .l) (D : Option ℕ := none) (truncateSwaps : Bool := false) : Py (FMPS ℂ) := do
  let swapD := if truncateSwaps then D else none
  guardPy (op.dim 0 == op.dim 1) .assertionError
  if op.dim 0 = 2 then
    match sites with
    | [i] => x.apply op i
    | _ => .error .nameError
  else
    match sites with
    | [i, j] => (gateList op (min i j) (max i j) D swapD).foldlM (pairStep qr rq svd O which) x
    | _ => .error .valueError

end FMPS

end Xmps
