import Verif.Model.DAdt

/-!
# Model of `christoffel` (`fMPS.py:1794-1896`)

`chol` is `numpy.linalg.cholesky`, `inv` is `numpy.linalg.inv`, `null` is `scipy.linalg.null_space`; `envs`, `prs_vLs` are `None`.
Modelled here is a call with a new `id` (the cache is in `Model/Cache.lean`), without tensors (`closed=(None, None, None)`) and with a
tensor for the third index (`closed=(None, None, M)`).  The attribute `dA_cache` of the state, written by `dA_dt`, is an argument.
-/

namespace Xmps

open Xmps.Ncon

/-- `A @ B` for an array of five axes and a matrix `B` -/
def ND.matmul52 {K : Type} [AddCommMonoid K] [Mul K] (A B : ND K) : Py (ND K) :=
  match A.shape, B.shape with
  | [a, b, c, m, k], [k', n] =>
    if k = k' then .ok ⟨[a, b, c, m, n], fun
      | [s, t, u, i, j] => ∑ e ∈ Finset.range k, A.val [s, t, u, i, e] * B.val [e, j]
      | _ => 0⟩
    else .error .valueError
  | _, _ => .error .valueError

namespace FMPS

variable (chol inv null : ND ℂ → Py (ND ℂ))

/-- `fMPS.py:1318`: `l(i-1)@B@r(i)`, the tensors `christoffel` is contracted with. -/
def weighted (ls rs : List (ND ℂ)) (i : ℕ) (B : ND ℂ) : Py (ND ℂ) := do
  let l ← envAt ls ((i : ℤ) - 1)
  let r ← envAt rs (i : ℤ)
  let t ← l.matmul B
  t.matmul r

/-- `fMPS.py:1860-1861`, `1869-1870` and `1195-1196`: `Rs = left_transfer(R, i, j)`. -/
noncomputable def chTransfer (O : SetOrder) (x : FMPS ℂ) (prs : List (ND ℂ)) (i j : ℕ) : Py (List (ND ℂ)) := do
  let pr ← pyGet prs j
  let A ← pyGet x.data j
  let R ← nc O [pr, A] [[-3, -4, 1, -2], [1, -1, -5]]
  x.leftTransfer R i j

/-- `fMPS.py:1843-1853`, `1869-1871`: `G` for `i ≤ j`, no tensors given. -/
noncomputable def chOpen (O : SetOrder) (x : FMPS ℂ) (rs prs : List (ND ℂ)) (i j k : ℕ) : Py (ND ℂ) := do
  let Ai ← pyGet x.data i
  let Aj ← pyGet x.data j
  let Ak ← pyGet x.data k
  if j = i ∨ i ≠ k ∨ x.d * Ai.dim 1 = Ai.dim 2 then .ok (zerosND (Ai.shape ++ Aj.shape ++ Ak.shape))
  else do
    let Rs ← chTransfer O x prs i j
    let pr ← pyGet prs i
    let R ← leftAt Rs i ((i : ℤ) + 1)
    let r ← envAt rs (i : ℤ)
    let ri ← inv r
    nc O [pr, R, ri, ri] [[-1, -2, -7, -8], [1, 2, -4, -5, -6], [1, -9], [2, -3]]

/-- `fMPS.py:1794-1896` `christoffel(i, j, k)`. -/
noncomputable def christoffel (O : SetOrder) (x : FMPS ℂ) (i j k : ℕ) : Py (ND ℂ) := do
  let (ls, rs) ← x.getEnvs
  let prs ← (List.range x.L).mapM fun n => leftNull chol inv null O x ls n
  if j < i then do
    let G ← chOpen inv O x rs (prs.map Prod.fst) j i k
    let G ← G.transpose [3, 4, 5, 0, 1, 2, 6, 7, 8]
    .ok (G.smul (-1))
  else do
    let G ← chOpen inv O x rs (prs.map Prod.fst) i j k
    .ok (G.smul (-1))

/-- The attribute `dA_cache`: the lists stored by `dA_dt` for the sites. -/
abbrev DACache := ℕ → Option (List (ND ℂ))

/-- `fMPS.py:1177-1197`: the lists `dA_dt` leaves in `dA_cache` (sites it stops at early get none), for given projectors. -/
noncomputable def dACacheWith (O : SetOrder) (x : FMPS ℂ) (prs : List (ND ℂ)) : Py DACache := do
  let Rs ← (List.range x.L).mapM fun j : ℕ => do
    let A ← pyGet x.data j
    if x.d * A.dim 1 = A.dim 2 then (.ok none : Py (Option (List (ND ℂ))))
    else do
      let Rs ← chTransfer O x prs 0 j
      .ok (some Rs)
  .ok fun j => (Rs[j]?).join

/-- `fMPS.py:1177-1197`: the same for `prs_vLs=None`. -/
noncomputable def dACache (O : SetOrder) (x : FMPS ℂ) : Py DACache := do
  let (ls, _) ← x.getEnvs
  let prs ← (List.range x.L).mapM fun n => leftNull chol inv null O x ls n
  dACacheWith O x (prs.map Prod.fst)

/-- `fMPS.py:1856-1864`: `Rs(i+1)`; the inner cache `christ_ij_mem` is empty. -/
noncomputable def chEnv (O : SetOrder) (x : FMPS ℂ) (cache : DACache) (prs : List (ND ℂ)) (i j : ℕ) : Py (ND ℂ) :=
  match cache j with
  | some Rs => leftAt Rs 0 ((i : ℤ) + 1)
  | none => do
    let Rs ← chTransfer O x prs i j
    leftAt Rs i ((i : ℤ) + 1)

/-- `fMPS.py:1843-1851`, `1856-1867`: `G` for `i ≤ j`, the tensor `M` for the third index. -/
noncomputable def chClosed (O : SetOrder) (x : FMPS ℂ) (cache : DACache) (rs prs : List (ND ℂ)) (i j k : ℕ) (M : ND ℂ) : Py (ND ℂ) := do
  let Ai ← pyGet x.data i
  let Aj ← pyGet x.data j
  if j = i ∨ i ≠ k ∨ x.d * Ai.dim 1 = Ai.dim 2 then .ok (zerosND (Ai.shape ++ Aj.shape))
  else do
    let R ← chEnv O x cache prs i j
    let pr ← pyGet prs i
    let r ← envAt rs (i : ℤ)
    let ri ← inv r
    let Mr ← M.matmul ri
    nc O [pr, Mr, R, ri] [[-1, -2, 1, 2], [1, 2, 3], [3, 4, -4, -5, -6], [4, -3]]

/-- `fMPS.py:1822-1837`: `ungauge(tens, i, j, (True, True))`. -/
noncomputable def ungauge (O : SetOrder) (ls rs vs : List (ND ℂ)) (T : ND ℂ) (i j : ℕ) : Py (ND ℂ) := do
  let l ← envAt ls ((i : ℤ) - 1)
  let lc ← chol l
  let v ← pyGet vs i
  let u ← lc.matmul v.conj
  let r ← envAt rs (i : ℤ)
  let rc ← chol r
  let T ← nc O [T, rc] [[-1, -2, 1, -4, -5, -6], [1, -3]]
  let T ← nc O [u, T] [[1, 2, -1], [1, 2, -2, -3, -4, -5]]
  let l ← envAt ls ((j : ℤ) - 1)
  let lc ← chol l
  let v ← pyGet vs j
  let u ← lc.matmul v.conj
  let r ← envAt rs (j : ℤ)
  let rc ← chol r
  let T ← T.matmul52 rc
  nc O [u, T] [[1, 2, -3], [-1, -2, 1, 2, -4]]

/-- `fMPS.py:1794-1896` `christoffel(i, j, k, closed=(None, None, M))` for given environments, projectors and null vectors. -/
noncomputable def christoffelWith (O : SetOrder) (x : FMPS ℂ) (cache : DACache) (ls rs prs vs : List (ND ℂ)) (i j k : ℕ) (M : ND ℂ) : Py (ND ℂ) := do
  let G ← if j < i then do
      let G ← chClosed inv O x cache rs prs j i k M
      G.transpose [3, 4, 5, 0, 1, 2]
    else chClosed inv O x cache rs prs i j k M
  ungauge chol O ls rs vs (G.smul (-1)) i j

/-- `fMPS.py:1794-1896` `christoffel(i, j, k, closed=(None, None, M))`. -/
noncomputable def christoffelClosed (O : SetOrder) (x : FMPS ℂ) (cache : DACache) (i j k : ℕ) (M : ND ℂ) : Py (ND ℂ) := do
  let (ls, rs) ← x.getEnvs
  let prs ← (List.range x.L).mapM fun n => leftNull chol inv null O x ls n
  christoffelWith chol inv O x cache ls rs (prs.map Prod.fst) (prs.map Prod.snd) i j k M

end FMPS

end Xmps
