import Verif.Model.F1
import Verif.Model.Christoffel
import Verif.Model.TangentVec
import Verif.Model.TensorTools
import Verif.Model.SpinOps

/-!
# Model of `jac` (`fMPS.py:1268-1362`)

`chol` is `numpy.linalg.cholesky`, `inv` is `numpy.linalg.inv`, `null` is `scipy.linalg.null_space`.  The state here has no
attribute `old_vL` (`lyapunov`, `ts_int` of `fTDVP.py` set it: see `Model.JacFix`), with `as_matrix=True`.  The calls of `F1`, `F2` share one `id`; that the tensors kept under
it are those a call with a new `id` computes is C34, so the calls here compute them anew.  `christoffel` reads the lists `dA_dt` has just written to
`dA_cache`.
-/

namespace Xmps

open Xmps.Ncon

/-- `fMPS.py:1299-1300` `inv_diag(mat)` for a matrix -/
noncomputable def invDiag (M : ND ℂ) : Py (ND ℂ) :=
  match M.shape with
  | [a, b] => .ok ⟨[min a b, min a b], fun
    | [i, j] => if i = j then 1 / M.val [i, i] else 0
    | _ => 0⟩
  | _ => .error .valueError

/-- `fMPS.py:1301-1302` `ch_diag(mat)` for a real matrix (the environments are real arrays) -/
noncomputable def chDiag (M : ND ℂ) : Py (ND ℂ) :=
  match M.shape with
  | [a, b] => .ok ⟨[min a b, min a b], fun
    | [i, j] => if i = j then ((Real.sqrt (M.val [i, i]).re : ℝ) : ℂ) else 0
    | _ => 0⟩
  | _ => .error .valueError

/-- `J[r0:r1, c0:c1] = B`; extents 1 of `B` are broadcast -/
def ND.setBlock (J B : ND ℂ) (r c : ℕ × ℕ) : Py (ND ℂ) :=
  match B.shape with
  | [m, n] =>
    if (m = r.2 - r.1 ∨ m = 1) ∧ (n = c.2 - c.1 ∨ n = 1) then .ok ⟨J.shape, fun
      | [a, b] => if r.1 ≤ a ∧ a < r.2 ∧ c.1 ≤ b ∧ b < c.2 then B.val [if m = 1 then 0 else a - r.1, if n = 1 then 0 else b - c.1] else J.val [a, b]
      | idx => J.val idx⟩
    else .error .valueError
  | _ => .error .valueError

/-- `fMPS.py:1338-1340`: `B.reshape(prod(B.shape[:2]), -1)` -/
def ND.rows2 (B : ND ℂ) : Py (ND ℂ) := do
  let n := (B.shape.take 2).prod
  let m ← FMPS.otherExtent B n
  B.reshape [n, m]

/-- `numpy.cumsum` of a list -/
def cumsum : ℕ → List ℕ → List ℕ
  | _, [] => []
  | s, a :: l => (s + a) :: cumsum (s + a) l

/-- `fMPS.py:1319`: `nulls` -/
def jacNulls (sh : List (ℕ × ℕ)) : ℕ := (sh.filter fun s => decide (s.1 = 0 ∨ s.2 = 0)).length

/-- `fMPS.py:1320`: `shapes`; the condition is `a!=0 and a!=0`. -/
def jacShapes (sh : List (ℕ × ℕ)) : List ℕ := cumsum 0 ((sh.filter fun s => decide (s.1 ≠ 0)).map fun s => s.1 * s.2)

/-- `fMPS.py:1322-1325` `ind(i)`: the ends of the slice -/
def jacInd (shapes : List ℕ) (i : ℕ) : Py (ℕ × ℕ) := do
  let a ← pyGet (0 :: shapes) i
  let b ← pyGet (0 :: shapes) (i + 1)
  .ok (a, b)

/-- `fMPS.py:1330-1331`: the pairs `(i_, j_)` in the order of the loops -/
def jacPairs (n : ℕ) : List (ℕ × ℕ) := (List.range n).flatMap fun i => (List.range n).map fun j => (i, j)

/-- `fMPS.py:1332-1340`: the body of the loops; `F1`, `F2`, `G2` are the functions of these names (`Γ2`). -/
def jacStep (F1 F2 G2 : ℕ → ℕ → Py (ND ℂ)) (nulls : ℕ) (shapes : List ℕ) (J : ND ℂ × ND ℂ × ND ℂ) (ij : ℕ × ℕ) : Py (ND ℂ × ND ℂ × ND ℂ) := do
  let a ← F1 (ij.1 + nulls) (ij.2 + nulls)
  let b ← F2 (ij.1 + nulls) (ij.2 + nulls)
  let g ← G2 (ij.1 + nulls) (ij.2 + nulls)
  let r ← jacInd shapes ij.1
  let c ← jacInd shapes ij.2
  let a ← a.rows2
  let J1 ← J.1.setBlock a r c
  let b ← b.rows2
  let J2 ← J.2.1.setBlock b r c
  let g ← g.rows2
  let J3 ← J.2.2.setBlock g r c
  .ok (J1, J2, J3)

/-- `fMPS.py:1318-1340`: `J1_, J2_, Γ2_`; `sh` are the dimensions of the coordinates of the sites. -/
def jacFill (F1 F2 G2 : ℕ → ℕ → Py (ND ℂ)) (sh : List (ℕ × ℕ)) : Py (ND ℂ × ND ℂ × ND ℂ) := do
  let DD ← FMPS.pyLast (jacShapes sh)
  let Z := (zerosND [DD, DD]).smul (-Complex.I)
  (jacPairs (jacShapes sh).length).foldlM (jacStep F1 F2 G2 (jacNulls sh) (jacShapes sh)) (Z, Z, Z)

/-- a two by two matrix as an array -/
def mat2 (M : Matrix (Fin 2) (Fin 2) ℂ) : ND ℂ := ⟨[2, 2], fun
  | [a, b] => if h : a < 2 ∧ b < 2 then M ⟨a, h.1⟩ ⟨b, h.2⟩ else 0
  | _ => 0⟩

/-- `numpy.imag` -/
def ND.im (A : ND ℂ) : ND ℂ := ⟨A.shape, fun i => ((A.val i).im : ℂ)⟩

/-- `fMPS.py:1359-1361`: the real form; `Sx, Sy, Sz = 2*spins(0.5)` (`fMPS.py:57-58`) is what `paulis` returns. -/
noncomputable def jacReal (J1 J2 G2 : ND ℂ) : Py (ND ℂ) := do
  let J2 ← J2.zipNd (· + ·) G2
  let (Sx, Sy, Sz) := Spin.paulis 1
  let J ← (kron (mat2 Sz) J2.re).zipNd (· + ·) (kron (eyeND 2) J1.re)
  let J ← J.zipNd (· + ·) (kron (mat2 Sx) J2.im)
  J.zipNd (· + ·) (kron ((mat2 Sy).smul (-Complex.I)) J1.im)

namespace FMPS

variable (chol inv null : ND ℂ → Py (ND ℂ))

/-- `fMPS.py:1170-1231` `dA_dt(H, prs_vLs=..)` with `fullH=False`, for given environments. -/
noncomputable def dAdtWith (O : SetOrder) (x : FMPS ℂ) (ls rs prs : List (ND ℂ)) (H : List (ND ℂ)) : Py (FMPS ℂ) := do
  let Bs ← (List.range x.L).mapM fun i => x.dAdtSite inv O ls rs prs H i
  init (Bs.map Prod.fst)

/-- `fMPS.py:1292`: the projectors for given null vectors -/
noncomputable def prsWith (O : SetOrder) (x : FMPS ℂ) (ls vs : List (ND ℂ)) : Py (List (ND ℂ)) :=
  (List.range x.L).mapM fun n : ℕ => do
    let v ← pyGet vs n
    let l ← envAt ls ((n : ℤ) - 1)
    projector chol inv O v l

/-- `fMPS.py:1934-1942` `tangent_space_dims(l, vLs=vLs)` -/
def dimsWith (x : FMPS ℂ) (vs : List (ND ℂ)) : Py (List (ℕ × ℕ)) :=
  vs.zipIdx.mapM fun a => do
    let q ← x.dimAfter a.2
    .ok (a.1.dim 2, q)

/-- `fMPS.py:1292-1343`: `J1_, J2_, Γ2_` for given null vectors `vs` -/
noncomputable def jacWith (O : SetOrder) (x : FMPS ℂ) (ls rs vs : List (ND ℂ)) (H : List (ND ℂ)) : Py (ND ℂ × ND ℂ × ND ℂ) := do
  let prs ← prsWith chol inv O x ls vs
  let dA ← dAdtWith inv O x ls rs prs H
  let cache ← dACacheWith O x prs
  let E ← invEnvs chDiag invDiag x.L ls rs
  let sh ← x.dimsWith vs
  jacFill
    (fun i j => do
      let G ← f1With O x ls rs vs E H i j
      .ok (G.smul (-Complex.I)))
    (fun i j => do
      let G ← f2With O x ls vs E H i j
      .ok (G.smul (-Complex.I)))
    (fun i j => do
      let B ← pyGet dA.data (min i j)
      let M ← weighted ls rs (min i j) B
      christoffelWith chol inv O x cache ls rs prs vs i j (min i j) M)
    sh

/-- `fMPS.py:1268-1343` `jac(H, real_matrix=False)`: `J1_, J2_, Γ2_`. -/
noncomputable def jacParts (O : SetOrder) (x : FMPS ℂ) (H : List (ND ℂ)) : Py (ND ℂ × ND ℂ × ND ℂ) := do
  let (ls, rs) ← x.getEnvs
  let prs ← (List.range x.L).mapM fun n => leftNull chol inv null O x ls n
  jacWith chol inv O x ls rs (prs.map Prod.snd) H

/-- `fMPS.py:1268-1362` `jac(H)` -/
noncomputable def jac (O : SetOrder) (x : FMPS ℂ) (H : List (ND ℂ)) : Py (ND ℂ) := do
  let (J1, J2, G2) ← jacParts chol inv null O x H
  jacReal J1 J2 G2

end FMPS

end Xmps
