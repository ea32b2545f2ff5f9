import Verif.Model.Envs
import Verif.Model.FromState

/-!
# Model of the null projectors and of `dA_dt` (`fMPS.py:1170-1231`, `1898-1927`)

`chol` is `numpy.linalg.cholesky`, `inv` is `numpy.linalg.inv`, `null` is `scipy.linalg.null_space`.  The memoisation
(`self.dA_cache`) and the attributes `self.l`, `self.r` are left out; `self.e` is the second component of the result.
-/

namespace Xmps

open Xmps.Ncon

/-- `A @ B` for a matrix `A` and a stack of stacks of matrices `B` -/
def ND.matmul24 {K : Type} [AddCommMonoid K] [Mul K] (A B : ND K) : Py (ND K) :=
  match A.shape, B.shape with
  | [m, k], [b, c, k', n] =>
    if k = k' then .ok ⟨[b, c, m, n], fun
      | [s, t, i, j] => ∑ e ∈ Finset.range k, A.val [i, e] * B.val [s, t, e, j]
      | _ => 0⟩
    else .error .valueError
  | _, _ => .error .valueError

/-- `A @ B` for a stack of stacks of matrices `A` and a matrix `B` -/
def ND.matmul42 {K : Type} [AddCommMonoid K] [Mul K] (A B : ND K) : Py (ND K) :=
  match A.shape, B.shape with
  | [b, c, m, k], [k', n] =>
    if k = k' then .ok ⟨[b, c, m, n], fun
      | [s, t, i, j] => ∑ e ∈ Finset.range k, A.val [s, t, i, e] * B.val [e, j]
      | _ => 0⟩
    else .error .valueError
  | _, _ => .error .valueError

namespace FMPS

variable (chol inv null : ND ℂ → Py (ND ℂ))

/-- `fMPS.py:1908-1910`: `vL` for the tensor `A` and the environment `l(n-1)`; `d` is `self.d`. -/
def nullVecs (d : ℕ) (A l : ND ℂ) : Py (ND ℂ) := do
  let X ← chol l
  let t ← A.hc.matmul X
  let L_ ← t.transpose [1, 0, 2]
  let c := d * L_.dim 2
  let rows ← otherExtent L_ c
  let L ← L_.reshape [rows, c]
  let N ← null L
  let w := L.dim 1 / d
  let k ← otherExtent N (d * w)
  N.reshape [d, w, k]

/-- `fMPS.py:1911`: the projector for given `vL`. -/
def projector (O : SetOrder) (vL l : ND ℂ) : Py (ND ℂ) := do
  let X ← chol l
  let Y ← inv X
  let u ← Y.matmul vL
  let w ← Y.matmul vL.conj
  nc O [u, w] [[-1, -2, 1], [-3, -4, 1]]

/-- `fMPS.py:1898-1915` `left_null_projector(n, l, get_vL=True)`; `ls` is the list behind `l`. -/
def leftNull (O : SetOrder) (x : FMPS ℂ) (ls : List (ND ℂ)) (n : ℕ) : Py (ND ℂ × ND ℂ) := do
  let A ← pyGet x.data n
  let l ← envAt ls ((n : ℤ) - 1)
  let vL ← nullVecs chol null x.d A l
  let pr ← projector chol inv O vL l
  .ok (pr, vL)

/-- `fMPS.py:1199-1203`: the body of the loop of `B(i)` for a term `m ≤ i`, as a contribution to `B` (`none`: nothing is added)
and an entry of `e`; `pr` is `pr(i)`. -/
noncomputable def dAdtTerm (O : SetOrder) (x : FMPS ℂ) (ls rs : List (ND ℂ)) (pr : ND ℂ) (Rs : List (ND ℂ)) (i m : ℕ) (h : ND ℂ) :
    Py (ND ℂ × ℂ) := do
  let Am ← pyGet x.data m
  let Am1 ← pyGet x.data (m + 1)
  let C ← nc O [h, Am, Am1] [[-1, -2, 1, 2], [1, -3, 3], [2, 3, -4]]
  let l ← envAt ls ((m : ℤ) - 1)
  let r ← envAt rs ((m : ℤ) + 1)
  let lA ← l.matmul Am.conj
  let Kt ← nc O [lA, Am1.conj, C] [[1, 3, 4], [2, 4, -2], [1, 2, 3, -1]]
  let Kr ← Kt.matmul r
  let e ← Kr.trace 0 1
  let B ← if m = i then do
      let lC ← l.matmul24 C
      let lCr ← lC.matmul42 r
      let rm ← envAt rs (m : ℤ)
      let ri ← inv rm
      let b ← ri.matmul Am1.conj
      nc O [lCr, pr, b] [[3, 4, 1, 2], [-1, -2, 3, 1], [4, -3, 2]]
    else if m + 1 = i then
      nc O [lA, pr, C] [[1, 3, 4], [-1, -2, 2, 4], [1, 2, 3, -3]]
    else do
      let R ← leftAt Rs 0 ((m : ℤ) + 2)
      nc O [Kt, R] [[1, 2], [1, 2, -1, -2, -3]]
  .ok (B.smul (-Complex.I), e.val [])

/-- `fMPS.py:1193-1212`: the loop over `reversed(list(enumerate(H)))`. -/
noncomputable def dAdtLoop (O : SetOrder) (x : FMPS ℂ) (ls rs : List (ND ℂ)) (pr : ND ℂ) (Rs : List (ND ℂ)) (i : ℕ) :
    List (ND ℂ × ℕ) → ND ℂ → List ℂ → Py (ND ℂ × List ℂ)
  | [], B, e => .ok (B, e)
  | (h, m) :: hs, B, e =>
    if m > i then dAdtLoop O x ls rs pr Rs i hs B e
    else do
      let (T, e1) ← dAdtTerm inv O x ls rs pr Rs i m h
      let B ← B.zipNd (· + ·) T
      dAdtLoop O x ls rs pr Rs i hs B (e ++ [e1])

/-- `fMPS.py:1182-1213` `B(i)`. -/
noncomputable def dAdtSite (O : SetOrder) (x : FMPS ℂ) (ls rs prs : List (ND ℂ)) (H : List (ND ℂ)) (i : ℕ) : Py (ND ℂ × List ℂ) := do
  let A ← pyGet x.data i
  let B := (zerosND A.shape).smul (-Complex.I)
  let H ← H.mapM fun h => h.reshape [x.d, x.d, x.d, x.d]
  if x.d * A.dim 1 = A.dim 2 then .ok (B.smul (-Complex.I), [])
  else do
    let pr ← pyGet prs i
    let R ← nc O [pr, A] [[-3, -4, 1, -2], [1, -1, -5]]
    let Rs ← x.leftTransfer R 0 i
    dAdtLoop inv O x ls rs pr Rs i H.zipIdx.reverse B []

/-- `fMPS.py:1170-1231` `dA_dt(H)` with `fullH=False`, `prs_vLs=None`. -/
noncomputable def dAdt (O : SetOrder) (x : FMPS ℂ) (H : List (ND ℂ)) : Py (FMPS ℂ) := do
  let (ls, rs) ← x.getEnvs
  let prs ← (List.range x.L).mapM fun n => leftNull chol inv null O x ls n
  let Bs ← (List.range x.L).mapM fun i => x.dAdtSite inv O ls rs (prs.map Prod.fst) H i
  init (Bs.map Prod.fst)

end FMPS

end Xmps
