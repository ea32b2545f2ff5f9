import Verif.Model.Canonicalise
import Verif.Model.Expect

/-!
# Model of the transfer operators, environments and the energy (`fMPS.py:41-46`, `790-833`, `998-1012`)

`l` and `r` of `get_envs` are functions of an integer; the lists they read are the model here and the functions
are `lAt`, `rAt`.  Site arguments of the transfers are natural numbers.
-/

namespace Xmps

open Xmps.Ncon

/-- `re(A)`, as a complex array -/
def ND.re (A : ND ℂ) : ND ℂ := ⟨A.shape, fun idx => ((A.val idx).re : ℂ)⟩

/-- `sum(A, axis=0)` -/
def ND.sum0 {K : Type} [AddCommMonoid K] (A : ND K) : Py (ND K) :=
  match A.shape with
  | n :: s => .ok ⟨s, fun idx => ∑ i ∈ Finset.range n, A.val (i :: idx)⟩
  | [] => .error .valueError

/-- `diag(diag(A))` of a matrix: the diagonal matrix with the diagonal of `A`. -/
def ND.diagDiag {K : Type} [Zero K] (A : ND K) : Py (ND K) :=
  match A.shape with
  | [m, n] => .ok ⟨[min m n, min m n], fun
      | [i, j] => if i = j then A.val [i, i] else 0
      | _ => 0⟩
  | _ => .error .valueError

namespace FMPS

/-! ### environments -/

/-- `fMPS.py:796`: the body of the loop of `get_l`. -/
noncomputable def leftEnvStep (A l : ND ℂ) : Py (ND ℂ) := do
  let t ← A.hc.matmul l
  let t ← t.matmul A
  let t ← t.re.sum0
  t.diagDiag

/-- `fMPS.py:794-797` `ls`, from the last environment on. -/
noncomputable def leftEnvs (l : ND ℂ) : List (ND ℂ) → Py (List (ND ℂ))
  | [] => .ok [l]
  | A :: As => do
    let l' ← leftEnvStep A l
    let ls ← leftEnvs l' As
    .ok (l :: ls)

/-- `fMPS.py:803`: the body of the loop of `get_r`. -/
noncomputable def rightEnvStep (A r : ND ℂ) : Py (ND ℂ) := do
  let t ← A.matmul r
  let t ← t.matmul A.hc
  let t ← t.re.sum0
  t.diagDiag

/-- `fMPS.py:801-804` `rs[::-1]`. -/
noncomputable def rightEnvs : List (ND ℂ) → Py (List (ND ℂ))
  | [] => .ok [onesND [1, 1]]
  | A :: As => do
    let rs ← rightEnvs As
    let r ← pyGet rs 0
    let r' ← rightEnvStep A r
    .ok (r' :: rs)

/-- `fMPS.py:790-809` `get_envs()`: the lists behind the two functions. -/
noncomputable def getEnvs (x : FMPS ℂ) : Py (List (ND ℂ) × List (ND ℂ)) := do
  let ls ← leftEnvs (onesND [1, 1]) x.data
  let rs ← rightEnvs x.data
  .ok (ls, rs)

/-- `fMPS.py:797`, `804`: the functions `l` and `r` returned by `get_envs`. -/
def envAt (ls : List (ND ℂ)) (n : ℤ) : Py (ND ℂ) := pyGetI ls (n + 1)

/-! ### transfers -/

section
variable {K : Type} [AddCommMonoid K] [Mul K] [Star K]

/-- `fMPS.py:44`: the body of the loop of `lt_`. -/
def transferStep (A L : ND K) : Py (ND K) := do
  let t ← A.conj.tensordot L [2] [1]
  A.tensordot t [0, 2] [0, 2]

/-- `fMPS.py:41-46` `lt_(op, As, j, j+k)`: the list `Ls[::-1]`. -/
def leftTransferList (op : ND K) (As : List (ND K)) : ℕ → ℕ → Py (List (ND K))
  | _, 0 => .ok [op]
  | j, k + 1 => do
    let Ls ← leftTransferList op As (j + 1) k
    let A ← pyGet As j
    let L ← pyGet Ls 0
    let W ← transferStep A L
    .ok (W :: Ls)

/-- `fMPS.py:811-823` `left_transfer(op, j, i)`; the result is the list the returned function reads. -/
def leftTransfer (x : FMPS K) (op : ND K) (j i : ℕ) : Py (List (ND K)) := leftTransferList op x.data j (i - j)

/-- `fMPS.py:823`: the function returned by `left_transfer`. -/
def leftAt (Ls : List (ND K)) (j : ℕ) (n : ℤ) : Py (ND K) := pyGetI Ls (n - j)

/-- `fMPS.py:830`: `oplinks` -/
def opLinks (k : ℕ) : List ℤ := (List.range' 1 (k - 2)).map (fun n : ℕ => -(n : ℤ)) ++ [2, 3]

/-- `fMPS.py:831-832`: the body of the loop of `right_transfer`, `k = len(op.shape)`. -/
def rightTransferStep (O : SetOrder) (k : ℕ) (A R : ND K) : Py (ND K) :=
  nc O [A.conj, A, R] [[1, 3, -(k : ℤ) + 1], [1, 2, -(k : ℤ)], opLinks k]

/-- `fMPS.py:829-832`: `Rs` for the sites `m, .., m+n-1`, starting from `R`. -/
def rightTransferList (O : SetOrder) (k : ℕ) (As : List (ND K)) : ND K → ℕ → ℕ → Py (List (ND K))
  | R, _, 0 => .ok [R]
  | R, m, n + 1 => do
    let A ← pyGet As m
    let R' ← rightTransferStep O k A R
    let Rs ← rightTransferList O k As R' (m + 1) n
    .ok (R :: Rs)

/-- `fMPS.py:825-833` `right_transfer(op, i, j)`: the list the returned function reads. -/
def rightTransfer (O : SetOrder) (x : FMPS K) (op : ND K) (i j : ℕ) : Py (List (ND K)) :=
  rightTransferList O op.rank x.data op (i + 1) (j - i)

/-- `fMPS.py:833`: the function returned by `right_transfer`. -/
def rightAt (Rs : List (ND K)) (i : ℕ) (n : ℤ) : Py (ND K) := pyGetI Rs (n - i - 1)

/-- `fMPS.py:833`: `right_transfer(op, i, j, ret_all=False)` -/
def rightTransferOne (O : SetOrder) (x : FMPS K) (op : ND K) (i j : ℕ) : Py (ND K) := do
  let Rs ← x.rightTransfer O op i j
  pyGet Rs 0

end

/-! ### energy -/

/-- `fMPS.py:1007-1009`: the body of the loop of `energy`. -/
noncomputable def energyTerm (O : SetOrder) (x : FMPS ℂ) (ls rs : List (ND ℂ)) (h : ND ℂ) (m : ℕ) : Py ℂ := do
  let h ← h.reshape [x.d, x.d, x.d, x.d]
  let A ← pyGet x.data m
  let B ← pyGet x.data (m + 1)
  let C ← nc O [h, A, B] [[-1, -2, 1, 2], [1, -3, 3], [2, 3, -4]]
  let l ← envAt ls ((m : ℤ) - 1)
  let r ← envAt rs ((m : ℤ) + 1)
  let a ← l.conj.matmul A.conj
  let b ← B.conj.matmul r.conj
  let e ← nc O [a, b, C] [[1, 3, 4], [2, 4, 5], [1, 2, 3, 5]]
  .ok (e.val [])

/-- `fMPS.py:998-1012` `energy(H)` for a list of two-site matrices. -/
noncomputable def energy (O : SetOrder) (x : FMPS ℂ) (H : List (ND ℂ)) : Py ℝ := do
  let (ls, rs) ← x.getEnvs
  let e ← H.zipIdx.mapM fun p => x.energyTerm O ls rs p.1 p.2
  .ok (e.sum.re / x.L)

/-- `fMPS.py:1011-1012` `energy(H, fullH=True)` -/
noncomputable def energyFull (O : SetOrder) (x : FMPS ℂ) (H : ND ℂ) : Py ℝ := x.EL O H

end FMPS

end Xmps
