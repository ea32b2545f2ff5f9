import Verif.Model.DAdt

/-!
# Model of `F2` (`fMPS.py:1630-1792`)

`chol` is `numpy.linalg.cholesky`, `inv` is `numpy.linalg.inv`, `null` is `scipy.linalg.null_space`.  The Hamiltonian is a list of
two-site matrices (`fullH=False`, `testing=False`) and `envs`, `prs_vLs` are `None`.  Modelled here is a call whose tensors are not in
the cache; the cache is in `Model/Cache.lean`.  The dictionaries `F2_ij_mem_`, `F2_i_mem_` are written but, as the tests look into
`F2_ij_mem`, `F2_i_mem`, never read: they are left out.
-/

namespace Xmps

open Xmps.Ncon

namespace FMPS

variable (chol inv null : ND ℂ → Py (ND ℂ))

/-- `inv_envs`: the lists `icr`, `icl`, `cr`, `cl`. -/
structure InvEnvs where
  icr : List (ND ℂ)
  icl : List (ND ℂ)
  cr : List (ND ℂ)
  cl : List (ND ℂ)

/-- `fMPS.py:1662-1663`: the lists for `inv_envs=None`. -/
def invEnvs (L : ℕ) (ls rs : List (ND ℂ)) : Py InvEnvs := do
  let icr ← (List.range L).mapM fun i : ℕ => do
    let r ← envAt rs (i : ℤ)
    let X ← chol r
    inv X
  let icl ← (List.range L).mapM fun i : ℕ => do
    let l ← envAt ls (i : ℤ)
    let X ← chol l
    inv X
  let cr ← (List.range L).mapM fun i : ℕ => do
    let r ← envAt rs (i : ℤ)
    chol r
  let cl ← (List.range L).mapM fun i : ℕ => do
    let l ← envAt ls (i : ℤ)
    chol l
  .ok ⟨icr, icl, cr, cl⟩

/-- `fMPS.py:1687-1688`: `gDi, gDi_1`, the extents of the coordinates of site `i`; `vs` are the tensors `vL`. -/
def coordShape (x : FMPS ℂ) (vs : List (ND ℂ)) (i : ℕ) : Py (ℕ × ℕ) := do
  let v ← pyGet vs i
  let q ← if i = x.L - 1 then .ok 1 else do
    let A ← pyGet x.data (i + 1)
    .ok (A.dim 1)
  .ok (v.dim 2, q)

/-- `fMPS.py:1711-1732`: the contribution of the term `m ≤ i`; the lists are indexed as in python, `inv_ch_l(-1)` and `ch_l(-1)` are the
last entries. -/
noncomputable def f2Term (O : SetOrder) (x : FMPS ℂ) (ls vs : List (ND ℂ)) (E : InvEnvs) (Rjs Ris : List (ND ℂ)) (i j m : ℕ) (h : ND ℂ) :
    Py (ND ℂ) := do
  let Am ← pyGet x.data m
  let Am1 ← pyGet x.data (m + 1)
  let C ← nc O [h, Am, Am1] [[-1, -2, 1, 2], [1, -3, 3], [2, 3, -4]]
  if m = i then do
    let cl ← pyGetI E.cl ((i : ℤ) - 1)
    let lC ← cl.matmul24 C
    let vi ← pyGet vs i
    let icr ← pyGet E.icr i
    if j = i + 1 then do
      let cr ← pyGet E.cr j
      let lCr ← lC.matmul42 cr
      let icl ← pyGetI E.icl ((j : ℤ) - 1)
      let g ← icr.matmul icl
      let vj ← pyGet vs j
      let w ← g.matmul vj.conj
      nc O [lCr, vi.conj, w] [[1, 2, 3, -4], [1, 3, -1], [2, -2, -3]]
    else do
      let w ← icr.matmul Am1.conj
      let Lt ← nc O [lC, vi.conj, w] [[3, 4, 1, -3], [3, 1, -1], [4, -2, -4]]
      let R ← leftAt Rjs i ((m : ℤ) + 2)
      Lt.tensordot R [2, 3] [0, 1]
  else if m + 1 = i then do
    let l ← envAt ls ((m : ℤ) - 1)
    let lC ← l.matmul24 C
    let icl ← pyGetI E.icl ((i : ℤ) - 1)
    let vi ← pyGet vs i
    let u ← icl.matmul vi.conj
    let Lt ← nc O [lC, Am.conj, u] [[2, 4, 1, -2], [2, 1, 3], [4, 3, -1]]
    let icr ← pyGet E.icr i
    let R ← leftAt Rjs i ((m : ℤ) + 2)
    let w ← nc O [icr, R] [[-2, 1], [-1, 1, -3, -4]]
    Lt.tensordot w [1] [0]
  else do
    let l ← envAt ls ((m : ℤ) - 1)
    let lA ← l.matmul Am.conj
    let Kt ← nc O [lA, Am1.conj, C] [[1, 3, 4], [2, 4, -2], [1, 2, 3, -1]]
    let Q ← leftAt Ris 0 ((m : ℤ) + 2)
    let Lt ← Kt.tensordot Q [0, 1] [0, 1]
    let R ← leftAt Rjs i ((i : ℤ) + 1)
    let t ← Lt.tensordot R [1] [0]
    let icr ← pyGet E.icr i
    nc O [t, icr] [[-1, 1, -3, -4], [1, -2]]

/-- `fMPS.py:1707-1732`: the loop over `reversed(list(enumerate(H)))`. -/
noncomputable def f2Loop (O : SetOrder) (x : FMPS ℂ) (ls vs : List (ND ℂ)) (E : InvEnvs) (Rjs Ris : List (ND ℂ)) (i j : ℕ) :
    List (ND ℂ × ℕ) → ND ℂ → Py (ND ℂ)
  | [], G => .ok G
  | (h, m) :: hs, G =>
    if m > i then f2Loop O x ls vs E Rjs Ris i j hs G
    else do
      let T ← f2Term O x ls vs E Rjs Ris i j m h
      let G ← G.zipNd (· + ·) T
      f2Loop O x ls vs E Rjs Ris i j hs G

/-- `fMPS.py:1673-1732`: `G_` for `i ≤ j`. -/
noncomputable def f2Sorted (O : SetOrder) (x : FMPS ℂ) (ls vs : List (ND ℂ)) (E : InvEnvs) (H : List (ND ℂ)) (i j : ℕ) : Py (ND ℂ) := do
  if i = j then do
    let (a, b) ← coordShape x vs i
    let (c, e) ← coordShape x vs j
    .ok (zerosND [a, b, c, e])
  else do
    let H ← H.mapM fun h => h.reshape [x.d, x.d, x.d, x.d]
    let (a, b) ← coordShape x vs i
    let (c, e) ← coordShape x vs j
    let G := zerosND [a, b, c, e]
    let Ai ← pyGet x.data i
    if Ai.dim 0 * Ai.dim 1 = Ai.dim 2 then .ok G
    else do
      let icl ← pyGetI E.icl ((j : ℤ) - 1)
      let vj ← pyGet vs j
      let u ← icl.matmul vj.conj
      let Aj ← pyGet x.data j
      let cr ← pyGet E.cr j
      let w ← Aj.matmul cr
      let Rj ← nc O [u, w] [[1, -2, -3], [1, -1, -4]]
      let Rjs ← x.leftTransfer Rj i j
      let icl ← pyGetI E.icl ((i : ℤ) - 1)
      let vi ← pyGet vs i
      let u ← icl.matmul vi.conj
      let Ri ← nc O [u, Ai] [[1, -2, -3], [1, -1, -4]]
      let Ris ← x.leftTransfer Ri 0 i
      f2Loop O x ls vs E Rjs Ris i j H.zipIdx.reverse G

/-- `fMPS.py:1671`, `1673-1790`: `G_` for given environments, null vectors and roots of the environments. -/
noncomputable def f2With (O : SetOrder) (x : FMPS ℂ) (ls vs : List (ND ℂ)) (E : InvEnvs) (H : List (ND ℂ)) (i j : ℕ) : Py (ND ℂ) :=
  if j < i then do
    let G ← f2Sorted O x ls vs E H j i
    G.transpose [2, 3, 0, 1]
  else f2Sorted O x ls vs E H i j

/-- `fMPS.py:1630-1792` `F2(i, j, H)` with a new `id`. -/
noncomputable def f2 (O : SetOrder) (x : FMPS ℂ) (i j : ℕ) (H : List (ND ℂ)) : Py (ND ℂ) := do
  let (ls, rs) ← x.getEnvs
  let prs ← (List.range x.L).mapM fun n => leftNull chol inv null O x ls n
  let E ← invEnvs chol inv x.L ls rs
  f2With O x ls (prs.map Prod.snd) E H i j

end FMPS

end Xmps
