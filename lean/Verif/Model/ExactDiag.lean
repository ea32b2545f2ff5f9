import Verif.Model.Tdvp
import Verif.Model.FromState
import Verif.Model.NBody
import Verif.Model.SpinOps
import Verif.Model.TransferMatrix
import Verif.Lemmas.MatBridge
import Mathlib.Analysis.Normed.Algebra.MatrixExponential

/-!
# Model of the exact diagonalisation of `xmps/fTDVP.py`: `edint`, `ed_evs`, `ed_energies`, `ed_OTOC` and what
`mps_list` does with the result

`scipy`'s `expm` and `expm_multiply` are the exact matrix exponential.
-/

namespace Xmps.Tdvp

/-- `self.H` with `self.fullH`: a list of matrices on neighbouring sites, or one big matrix. -/
inductive EdH where
  | terms (hs : List (ND ℂ))
  | full (h : ND ℂ)

/-- `numpy.sum(l, axis=0)` of a list of arrays: the shapes must agree (numpy cannot build the stacked array
otherwise); the sum of the empty list is the number 0. -/
def npSum : List (ND ℂ) → Py (ND ℂ)
  | [] => .ok ⟨[], fun _ => 0⟩
  | A :: As => As.foldlM (fun x y => ND.zipNd (· + ·) x y) A

/-- `fTDVP.py:233-234`, `516-518`: the Hamiltonian as a matrix. -/
def EdH.matrix (ilog : ℕ → ℕ → ℕ) : EdH → Py (ND ℂ)
  | .terms hs => do
    let l ← hs.zipIdx.mapM fun (p : ND ℂ × ℕ) => Spin.nBody ilog p.1 p.2 hs.length (some 2)
    npSum l
  | .full h => .ok h

/-- an array of rank 1 as a vector -/
def toV (n : ℕ) (v : ND ℂ) : Fin n → ℂ := fun i => v.val [i.1]

/-- a vector as an array -/
noncomputable def ofV {n : ℕ} (v : Fin n → ℂ) : ND ℂ :=
  ⟨[n], fun
    | [i] => if h : i < n then v ⟨i, h⟩ else 0
    | _ => 0⟩

/-- `scipy.sparse.linalg.expm_multiply(A, v)` for a vector `v`: `ValueError` unless `A` is square of the right size. -/
noncomputable def expmMul (A v : ND ℂ) : Py (ND ℂ) :=
  match A.shape, v.shape with
  | [n, m], [k] => if n = m ∧ m = k then .ok (ofV ((NormedSpace.exp (toM n n A)).mulVec (toV n v))) else .error .valueError
  | _, _ => .error .valueError

/-- `fTDVP.py:238-240`: the loop over `T[:-1]`; the arrays appended to `ed_history`. -/
noncomputable def edLoop (M : ND ℂ) (dt : ℝ) : ℕ → ND ℂ → Py (List (ND ℂ))
  | 0, _ => .ok []
  | n + 1, psi => do
    let psi ← expmMul (((M.smul (-1 * Complex.I)).smul (dt : ℂ))) psi
    let l ← edLoop M dt n psi
    .ok (psi :: l)

/-- `fTDVP.py:228-246` `edint(T)`: the attribute `ed_history` and the new `self.mps`. -/
noncomputable def edint (svd : Svd) (ilog : ℕ → ℕ → ℕ) (H : EdH) (mps : FMPS ℂ) (T : List ℝ) : Py (List (ND ℂ) × FMPS ℂ) := do
  let R ← mps.recombine
  let psi0 ← R.reshape [R.size]
  let M ← H.matrix ilog
  let t1 ← pyGet T 1
  let t0 ← pyGet T 0
  let l ← edLoop M (t1 - t0) T.dropLast.length psi0
  let psi ← FMPS.pyLast (psi0 :: l)
  let state ← psi.reshape (List.replicate mps.L mps.d)
  let y ← FMPS.leftFromState svd state
  .ok (psi0 :: l, y.1)

/-- `u @ v` for two vectors -/
def vdot (u v : ND ℂ) : Py ℂ :=
  match u.shape, v.shape with
  | [n], [m] => if n = m then .ok (∑ i ∈ Finset.range n, u.val [i] * v.val [i]) else .error .valueError
  | _, _ => .error .valueError

/-- `u @ A` for a vector and a matrix -/
def vecMat (u A : ND ℂ) : Py (ND ℂ) :=
  match u.shape, A.shape with
  | [n], [m, k] => if n = m then .ok ⟨[k], fun
    | [j] => ∑ i ∈ Finset.range n, u.val [i] * A.val [i, j]
    | _ => 0⟩ else .error .valueError
  | _, _ => .error .valueError

/-- `re(psi.conj()@op@psi)` -/
noncomputable def evOf (op psi : ND ℂ) : Py ℝ := do
  let u ← vecMat psi.conj op
  let e ← vdot u psi
  .ok e.re

/-- `fTDVP.py:571-573` `ed_evs(ops)` -/
noncomputable def edEvs (history ops : List (ND ℂ)) : Py (List (List ℝ)) :=
  history.mapM fun psi => ops.mapM fun op => evOf op psi

/-- `fTDVP.py:513-519` `ed_energies()` -/
noncomputable def edEnergies (ilog : ℕ → ℕ → ℕ) (H : EdH) (history : List (ND ℂ)) : Py (List (List ℝ)) := do
  let M ← H.matrix ilog
  edEvs history [M]

/-- `spin.py:291-292` `comm(A, B)` on arrays -/
def commND (A B : ND ℂ) : Py (ND ℂ) := do
  let x ← A.matmul B
  let y ← B.matmul A
  ND.zipNd (· - ·) x y

/-- `scipy`'s `expm` of a square matrix -/
noncomputable def expmND (A : ND ℂ) : Py (ND ℂ) :=
  match A.shape with
  | [n, m] => if n = m then .ok (ofM (NormedSpace.exp (toM n n A))) else .error .valueError
  | _ => .error .valueError

/-- one round of the loop of `ed_OTOC` (`fTDVP.py:446-449`); `cT` is `tensor.py`'s `H`, on a matrix the conjugate
transpose. -/
noncomputable def otocAt (V W H psi0 : ND ℂ) (t : ℝ) : Py ℝ := do
  let U ← expmND ((H.smul (-1 * Complex.I)).smul (t : ℂ))
  let a ← U.conj.tr.matmul W
  let Wt ← a.matmul U
  let C ← commND Wt V
  let u ← vecMat psi0.conj C
  let u ← vecMat u C
  let e ← vdot u psi0
  .ok (-e.re)

/-- `fTDVP.py:434-450` `ed_OTOC(T, ops)`; `dt` is computed and never used. -/
noncomputable def edOtoc (H : EdH) (mps : FMPS ℂ) (T : List ℝ) (V W : ND ℂ) : Py (List ℝ) :=
  match H with
  | .terms _ => .error .assertionError
  | .full H => do
    let R ← mps.recombine
    let psi0 ← R.reshape [R.size]
    let _ ← pyGet T 1
    let _ ← pyGet T 0
    T.mapM fun t => otocAt V W H psi0 t

/-- `fTDVP.py:487-495` `mps_list()` when `edint` has run and no `mps_history` exists: the new `mps_history` and the
value returned.  `canon` is `left_canonicalise()`. -/
noncomputable def mpsListEd (svd : Svd) (canon : FMPS ℂ → Py (FMPS ℂ)) (tr : Traj) (ed : List (ND ℂ)) : Py (List (List ℝ) × List (FMPS ℂ)) := do
  let hist ← ed.mapM fun x => do
    let state ← x.reshape (List.replicate tr.mps.L tr.mps.d)
    let y ← FMPS.leftFromState svd state
    let y ← canon y.1
    y.serializeReal
  let l ← mpsList { tr with history := hist }
  .ok (hist, l)

end Xmps.Tdvp
