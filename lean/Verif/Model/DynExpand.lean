import Verif.Model.DAdt
import Verif.Model.Tdvp

/-!
# Model of `projection_error`, `dynamical_expand`, `grow` (`fMPS.py:1072-1106`, `1117-1168`) and `Trajectory.dynamical_expand`

`chol` is `numpy.linalg.cholesky`, `inv` is `numpy.linalg.inv`, `null` is `scipy.linalg.null_space`, `svd` is `scipy.linalg.svd` with
`full_matrices=False`.  The time step is a real number and `sqrt(dt)` is the real root: for `dt < 0` numpy warns and goes on with nan,
the model with 0.  The attributes `self.ε`, `self.xy`, `self.l`, `self.r` are left out.
-/

namespace Xmps

open Xmps.Ncon

/-- `A[:k]` on an axis of extent `n`, `k` any integer: the number of entries kept -/
def stopAt (n : ℕ) (k : ℤ) : ℕ := if 0 ≤ k then min n k.toNat else n - (-k).toNat

namespace FMPS

variable (chol inv null : ND ℂ → Py (ND ℂ)) (svd : ND ℂ → Py (ND ℂ × List ℝ × ND ℂ))

/-- `tensor.py:234-236` `tr_svd`; the middle factor is the list of its diagonal -/
def trSvd (A : ND ℂ) (D : ℤ) : Py (ND ℂ × List ℝ × ND ℂ) := do
  let (U, s, V) ← svd A
  .ok (⟨[U.dim 0, stopAt (U.dim 1) D], U.val⟩, s.take (stopAt s.length D), ⟨[stopAt (V.dim 0) D, V.dim 1], V.val⟩)

/-- `fMPS.py:1921-1923`: `vR` for the tensor `A` and the environment `r(n)` -/
def rightNullVecs (d : ℕ) (A r : ND ℂ) : Py (ND ℂ) := do
  let t ← A.conj.matmul r
  let R_ ← t.transpose [1, 0, 2]
  let c := d * R_.dim 2
  let rows ← otherExtent R_ c
  let R ← R_.reshape [rows, c]
  let N ← null R
  let k ← otherExtent N (d * R_.dim 2)
  let N ← N.reshape [d, R_.dim 2, k]
  N.transpose [0, 2, 1]

/-- `fMPS.py:1917-1927` `right_null_projector(n, r, get_vR=True)` -/
def rightNull (O : SetOrder) (x : FMPS ℂ) (rs : List (ND ℂ)) (n : ℕ) : Py (ND ℂ × ND ℂ) := do
  let A ← pyGet x.data n
  let r ← envAt rs (n : ℤ)
  let vR ← rightNullVecs null x.d A r
  let X ← chol r
  let Y ← inv X
  let pr ← nc O [Y, vR, vR.conj, Y] [[-2, 2], [-1, 1, 2], [-3, 1, 4], [-4, 4]]
  .ok (pr, vR)

/-- `fMPS.py:1898-1915` `left_null_projector(n, l, get_vL=True)` for a function `l` -/
def leftNullF (O : SetOrder) (x : FMPS ℂ) (lf : ℤ → Py (ND ℂ)) (n : ℕ) : Py (ND ℂ × ND ℂ) := do
  let A ← pyGet x.data n
  let l ← lf ((n : ℤ) - 1)
  let vL ← nullVecs chol null x.d A l
  let pr ← projector chol inv O vL l
  .ok (pr, vL)

/-- `fMPS.py:1084-1086` `G(m)` of `projection_error`, given `l(m-1)`, `r(m+1)`, the null vectors and `H[m]` with four legs -/
def projG (O : SetOrder) (A B h l r vL vR : ND ℂ) : Py (ND ℂ) := do
  let lA ← l.matmul A
  let Br ← B.matmul r
  let C ← nc O [h, lA, Br] [[-1, -2, 1, 2], [1, -3, 3], [2, 3, -4]]
  nc O [vL.conj, vR.conj, C] [[1, 3, -1], [2, -2, 4], [1, 2, 3, 4]]

/-- `fMPS.py:1096-1097`, `1151-1153`: `dA01` and `dA10` from the truncated factors -/
noncomputable def newLegs (dt : ℝ) (l r vL vR U : ND ℂ) (s : List ℝ) (V : ND ℂ) : Py (ND ℂ × ND ℂ) := do
  let x ← U.matmul (diagC (s.map Real.sqrt))
  let y ← (diagC (s.map Real.sqrt)).matmul V
  let a ← (l.smul ((Real.sqrt dt : ℝ) : ℂ)).matmul vL
  let dA01 ← a.matmul x
  let b ← (y.smul ((Real.sqrt dt : ℝ) : ℂ)).matmul vR
  let dA10 ← b.matmul r
  .ok (dA01, dA10)

/-- `fMPS.py:1099`: what is added to `ε` -/
noncomputable def legsNorm (l r dA01 dA10 : ND ℂ) : Py ℝ := do
  let a ← dA01.hc.matmul l
  let a ← a.matmul dA01
  let a ← a.sum0
  let b ← dA10.matmul r
  let b ← b.matmul dA10.hc
  let b ← b.sum0
  let c ← a.matmul b
  let t ← c.trace 0 1
  .ok (t.val []).re

/-- `fMPS.py:1091`, `1144`: the bond behind the site `m` has its largest extent -/
def fullBond (d Dm Dm1 Dm2 : ℕ) : Bool := d * Dm == Dm1 || Dm1 == d * Dm2

/-- `fMPS.py:1103`: `ln` -/
def nextLeft (A l : ND ℂ) : Py (ND ℂ) := do
  let t ← A.hc.matmul l
  let t ← t.matmul A
  t.sum0

/-- `fMPS.py:1094-1104`: the body of the loop of `projection_error` behind the `continue`, for the function `l` at that time;
the second component is the constant that `l` returns from then on -/
noncomputable def projBody (O : SetOrder) (x : FMPS ℂ) (rs H : List (ND ℂ)) (dt : ℝ) (lf : ℤ → Py (ND ℂ)) (m : ℕ) : Py (ℝ × ND ℂ) := do
  let A ← pyGet x.data m
  let B ← pyGet x.data (m + 1)
  let h ← pyGet H m
  let l ← lf ((m : ℤ) - 1)
  let r ← envAt rs ((m : ℤ) + 1)
  let vL ← leftNullF chol inv null O x lf m
  let vR ← rightNull chol inv null O x rs (m + 1)
  let G ← projG O A B h l r vL.2 vR.2
  let (U, s, V) ← trSvd svd G ((x.d * x.D : ℕ) - (x.D : ℤ))
  let (dA01, dA10) ← newLegs dt l r vL.2 vR.2 U s V
  let e ← legsNorm l r dA01 dA10
  let ln ← nextLeft A l
  .ok (e, ln)

/-- `fMPS.py:1089-1104`: the loop of `projection_error` -/
noncomputable def projLoop (O : SetOrder) (x : FMPS ℂ) (rs H : List (ND ℂ)) (dt : ℝ) : List ℕ → (ℤ → Py (ND ℂ)) → ℝ → Py ℝ
  | [], _, ε => .ok ε
  | m :: ms, lf, ε => do
    let A ← pyGet x.data m
    let B ← pyGet x.data (m + 1)
    if fullBond x.d (A.dim 1) (A.dim 2) (B.dim 2) then projLoop O x rs H dt ms lf ε
    else do
      let (e, ln) ← projBody chol inv null svd O x rs H dt lf m
      projLoop O x rs H dt ms (fun _ => .ok ln) (ε + e)

/-- `fMPS.py:1072-1106` `projection_error(H, dt)`; `dA_dt` is called first and may raise -/
noncomputable def projectionError (O : SetOrder) (x : FMPS ℂ) (H : List (ND ℂ)) (dt : ℝ) : Py ℝ := do
  let _ ← dAdt chol inv null O x H
  let (ls, rs) ← x.getEnvs
  let H ← H.mapM fun h => h.reshape [x.d, x.d, x.d, x.d]
  projLoop chol inv null svd O x rs H dt (List.range (x.data.length - 1)) (envAt ls) 0

/-- `fMPS.py:1117-1120` `should_expand` -/
noncomputable def shouldExpand (O : SetOrder) (x : FMPS ℂ) (H : List (ND ℂ)) (dt threshold : ℝ) : Py Bool := do
  let ε ← projectionError chol inv null svd O x H dt
  .ok (decide (threshold < ε))

/-- `fMPS.py:1134-1136` `G(m)` of `dynamical_expand` -/
def expandG (O : SetOrder) (A B h l r vL vR : ND ℂ) : Py (ND ℂ) := do
  let lA ← l.matmul A
  let Br ← B.matmul r
  nc O [lA, Br, h, vL.conj, vR.conj] [[2, 1, 4], [6, 4, 8], [3, 6, 2, 7], [3, 1, -1], [7, -2, 8]]

/-- `fMPS.py:1146-1155`: the body of the loop of `dynamical_expand` behind the `continue`; `H` has four legs, `D` is `self.D` at the
beginning, `D'` the argument `D_` -/
noncomputable def expandBody (O : SetOrder) (x : FMPS ℂ) (H : List (ND ℂ)) (dt : ℝ) (D D' m : ℕ) : Py (FMPS ℂ) := do
  let dA ← dAdt chol inv null O x H
  let (ls, rs) ← x.getEnvs
  let A ← pyGet x.data m
  let B ← pyGet x.data (m + 1)
  let h ← pyGet H m
  let l ← envAt ls ((m : ℤ) - 1)
  let r ← envAt rs ((m : ℤ) + 1)
  let vL ← leftNull chol inv null O x ls m
  let vR ← rightNull chol inv null O x rs (m + 1)
  let G ← expandG O A B h l r vL.2 vR.2
  let (U, s, V) ← trSvd svd G ((D' : ℤ) - (D : ℤ))
  let (dA01, dA10) ← newLegs dt l r vL.2 vR.2 U s V
  let b0 ← pyGet dA.data m
  let b1 ← pyGet dA.data (m + 1)
  let a0 ← A.zipNd (· + ·) (b0.smul (dt : ℂ))
  let a0 ← a0.concat dA01 2
  let a1 ← B.zipNd (· + ·) (b1.smul (dt : ℂ))
  let a1 ← a1.concat dA10 1
  .ok { x with data := (x.data.set m a0).set (m + 1) a1 }

/-- `fMPS.py:1142-1155`: the loop; `Dm`, `Dm_1` are of the structure at the beginning, `Dm_2` of the present one -/
noncomputable def expandLoop (O : SetOrder) (H : List (ND ℂ)) (dt : ℝ) (D D' : ℕ) : List (ℕ × ℕ × ℕ) → FMPS ℂ → Py (FMPS ℂ)
  | [], x => .ok x
  | (m, Dm, Dm1) :: ms, x => do
    let B ← pyGet x.data (m + 1)
    if fullBond x.d Dm Dm1 (B.dim 2) then expandLoop O H dt D D' ms x
    else do
      let x ← expandBody chol inv null svd O x H dt D D' m
      expandLoop O H dt D D' ms x

/-- `fMPS.py:1157`: `self.D` -/
def structMax (x : FMPS ℂ) : Py (FMPS ℂ) := do
  let D ← pyMax (x.data.map fun A => max (A.dim 1) (A.dim 2))
  .ok { x with D := D }

/-- `fMPS.py:1142-1159`: `dynamical_expand` behind the test of the threshold -/
noncomputable def expandAll (O : SetOrder) (x : FMPS ℂ) (H : List (ND ℂ)) (dt : ℝ) (D' : ℕ) : Py (FMPS ℂ) := do
  let sites := (x.data.dropLast.zipIdx.map fun p => (p.2, p.1.dim 1, p.1.dim 2))
  let x ← expandLoop chol inv null svd O H dt x.D D' sites x
  structMax x

/-- `fMPS.py:1122-1159` `dynamical_expand(H, dt, D_, threshold)` -/
noncomputable def dynamicalExpand (O : SetOrder) (x : FMPS ℂ) (H : List (ND ℂ)) (dt : ℝ) (D' : ℕ) (threshold : Option ℝ) : Py (FMPS ℂ) := do
  let H ← H.mapM fun h => h.reshape [x.d, x.d, x.d, x.d]
  match threshold with
  | none => expandAll chol inv null svd O x H dt D'
  | some t => do
    let ε ← projectionError chol inv null svd O x H dt
    if ε < t then .ok x else expandAll chol inv null svd O x H dt D'

/-- `fMPS.py:1161-1168` `grow(H, dt, D_)`: the `while` loop with at most `n` turns -/
noncomputable def grow (O : SetOrder) (H : List (ND ℂ)) (dt : ℝ) : ℕ → FMPS ℂ → Option ℕ → Py (FMPS ℂ)
  | _, x, none => .ok x
  | 0, _, some _ => .error .diverges
  | n + 1, x, some D' =>
    if x.D < min D' (x.d ^ (x.L / 2)) then do
      let x ← dynamicalExpand chol inv null svd O x H dt (min (x.d * x.D) D') none
      grow O H dt n x (some D')
    else .ok x

end FMPS

namespace Tdvp

/-- `fTDVP.py:173-179` `Trajectory.dynamical_expand(D, dt, H)`: `H0` is `self.H`, `H` the argument.  Whatever the argument is,
`self.H` is used; `for h in None` raises `TypeError`. -/
noncomputable def trajExpand (expand : FMPS ℂ → List (ND ℂ) → ℝ → ℕ → Py (FMPS ℂ)) (H0 H : Option (List (ND ℂ))) (tr : Traj) (D : ℕ) (dt : ℝ) :
    Py Traj := do
  guardPy (H0.isSome || H.isSome) .assertionError
  match H0 with
  | none => .error .typeError
  | some H0 => do
    let mps ← expand tr.mps H0 dt D
    let Ds ← setLast tr.Ds D
    .ok { tr with mps := mps, Ds := Ds }

end Tdvp

end Xmps
