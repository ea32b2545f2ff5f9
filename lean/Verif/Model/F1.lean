import Verif.Model.F2
import Verif.Model.Envs

/-!
# Model of `F1` (`fMPS.py:1364-1628`)

`chol` is `numpy.linalg.cholesky`, `inv` is `numpy.linalg.inv`, `null` is `scipy.linalg.null_space`.  The Hamiltonian is a list of
two-site matrices (`fullH=False`, `testing=False`) and `envs`, `inv_envs`, `prs_vLs` are `None`.  Modelled here is a call whose tensors
are not in the cache; the cache is in `Model/Cache.lean`.
-/

namespace Xmps

open Xmps.Ncon

namespace FMPS

variable (chol inv null : ND ℂ → Py (ND ℂ))

/-- `fMPS.py:1416-1418`: `Lbs_`, `Rds_`. -/
noncomputable def f1Site (O : SetOrder) (x : FMPS ℂ) (vs : List (ND ℂ)) (E : InvEnvs) (i : ℕ) : Py (List (ND ℂ) × List (ND ℂ)) := do
  let icl ← pyGetI E.icl ((i : ℤ) - 1)
  let vi ← pyGet vs i
  let u ← icl.matmul vi.conj
  let Ai ← pyGet x.data i
  let Rd ← nc O [u, Ai] [[1, -2, -3], [1, -1, -4]]
  let icr ← pyGet E.icr i
  let op ← nc O [icr, icr] [[-1, -3], [-2, -4]]
  let Lbs ← x.rightTransfer O op i (x.L - 1)
  let Rds ← x.leftTransfer Rd 0 i
  .ok (Lbs, Rds)

/-- `fMPS.py:1427-1430`: `Rus_`, `Rbs_`. -/
noncomputable def f1Far (O : SetOrder) (x : FMPS ℂ) (vs : List (ND ℂ)) (E : InvEnvs) (j : ℕ) : Py (List (ND ℂ) × List (ND ℂ)) := do
  let icl ← pyGetI E.icl ((j : ℤ) - 1)
  let vj ← pyGet vs j
  let u ← icl.matmul vj
  let Aj ← pyGet x.data j
  let cr ← pyGet E.cr j
  let w ← Aj.conj.matmul cr
  let Ru ← nc O [u, w] [[1, -1, -3], [1, -2, -4]]
  let uc ← icl.matmul vj.conj
  let Rb ← nc O [uc, u] [[1, -1, -3], [1, -2, -4]]
  let Rus ← x.leftTransfer Ru 0 j
  let Rbs ← x.leftTransfer Rb 0 j
  .ok (Rus, Rbs)

/-- `fMPS.py:1443-1447`: the contribution of the term `m > i` for `i = j`. -/
noncomputable def f1After (O : SetOrder) (x : FMPS ℂ) (rs vs Lbs : List (ND ℂ)) (i m : ℕ) (h : ND ℂ) : Py (ND ℂ) := do
  let Am ← pyGet x.data m
  let Am1 ← pyGet x.data (m + 1)
  let r ← envAt rs ((m : ℤ) + 1)
  let Ar ← Am1.matmul r
  let Kr ← nc O [Ar, Am1.conj, Am, Am.conj, h] [[2, 4, 1], [3, 5, 1], [6, -1, 4], [7, -2, 5], [7, 3, 6, 2]]
  let vi ← pyGet vs i
  let vv ← vi.hc.matmul vi
  let one ← vv.sum0
  let Lb ← rightAt Lbs i (m : ℤ)
  let t ← Lb.matmul42 Kr
  let t ← t.trace 3 2
  nc O [t, one] [[-2, -4], [-1, -3]]

/-- `fMPS.py:1448-1486`: the contribution of the term `m ≤ i`; the lists are indexed as in python, `inv_ch_l(-1)` and `ch_l(-1)` are the
last entries. -/
noncomputable def f1Term (O : SetOrder) (x : FMPS ℂ) (ls rs vs : List (ND ℂ)) (E : InvEnvs) (Rds Rus Rbs : List (ND ℂ)) (i j m : ℕ) (h : ND ℂ) :
    Py (ND ℂ) := do
  let Am ← pyGet x.data m
  let Am1 ← pyGet x.data (m + 1)
  if m = i then do
    let icr ← pyGet E.icr m
    let vm ← pyGet vs m
    let Bc ← icr.matmul Am1.conj
    if j = i then do
      let B ← icr.matmul Am1
      let r ← envAt rs ((m : ℤ) + 1)
      let Br ← B.matmul r
      nc O [vm, Br, h, vm.conj, Bc] [[5, 1, -3], [6, -4, 2], [5, 6, 3, 4], [3, 1, -1], [4, -2, 2]]
    else if j = i + 1 then do
      let icl ← pyGet E.icl m
      let vm1 ← pyGet vs (m + 1)
      let w ← icl.matmul vm1
      let cl ← pyGetI E.cl ((m : ℤ) - 1)
      let u ← cl.matmul vm.conj
      let cr ← pyGet E.cr (m + 1)
      let Bcr ← Bc.matmul cr
      nc O [Am, w, h, u, Bcr] [[5, 1, 2], [6, 2, -3], [5, 6, 3, 4], [3, 1, -1], [4, -2, -4]]
    else do
      let cl ← pyGetI E.cl ((m : ℤ) - 1)
      let lA ← cl.matmul Am
      let Ot ← nc O [lA, Am1, h, vm.conj, Bc] [[3, 1, 2], [4, 2, -3], [3, 4, 5, 6], [5, 1, -1], [6, -2, -4]]
      let R ← leftAt Rus 0 ((m : ℤ) + 2)
      Ot.tensordot R [3, 2] [0, 1]
  else if m + 1 = i then do
    let l ← envAt ls ((m : ℤ) - 1)
    let lA ← l.matmul Am
    let icl ← pyGet E.icl m
    let vm1 ← pyGet vs (m + 1)
    let wc ← icl.matmul vm1.conj
    if j = i then do
      let w ← icl.matmul vm1
      let r ← envAt rs ((m : ℤ) + 1)
      nc O [lA, w, h, Am.conj, wc, eyeND (r.dim 0)] [[7, 1, 2], [8, 2, -3], [5, 6, 7, 8], [5, 1, 3], [6, 3, -1], [-2, -4]]
    else do
      let Q ← nc O [lA, Am1, h, Am.conj, wc] [[4, 1, 2], [5, 2, -2], [4, 5, 6, 7], [6, 1, 3], [7, 3, -1]]
      let icr ← pyGet E.icr (m + 1)
      let R ← leftAt Rus 0 ((m : ℤ) + 2)
      let W ← nc O [icr, R] [[-2, 1], [-1, 1, -3, -4]]
      Q.tensordot W [1] [0]
  else do
    let C ← nc O [h, Am, Am1] [[-1, -2, 1, 2], [1, -3, 3], [2, 3, -4]]
    let l ← envAt ls ((m : ℤ) - 1)
    let lA ← l.matmul Am.conj
    let Kt ← nc O [lA, Am1.conj, C] [[1, 3, 4], [2, 4, -2], [1, 2, 3, -1]]
    if i = j then do
      let Q ← leftAt Rbs 0 ((m : ℤ) + 2)
      let t ← Kt.tensordot Q [0, 1] [0, 1]
      let r ← envAt rs (j : ℤ)
      nc O [t, eyeND (r.dim 0)] [[-1, -3], [-2, -4]]
    else do
      let Q ← leftAt Rds 0 ((m : ℤ) + 2)
      let t ← Kt.tensordot Q [0, 1] [0, 1]
      let R ← leftAt Rus 0 ((i : ℤ) + 1)
      let icr ← pyGet E.icr i
      let W ← nc O [R, icr] [[-1, 2, -3, -4], [2, -2]]
      t.tensordot W [1] [0]

/-- `fMPS.py:1437-1486`: the loop over `reversed(list(enumerate(H)))`. -/
noncomputable def f1Loop (O : SetOrder) (x : FMPS ℂ) (ls rs vs : List (ND ℂ)) (E : InvEnvs) (Lbs Rds Rus Rbs : List (ND ℂ)) (i j : ℕ) :
    List (ND ℂ × ℕ) → ND ℂ → Py (ND ℂ)
  | [], G => .ok G
  | (h, m) :: hs, G =>
    if m > i then
      if i = j then do
        let T ← f1After O x rs vs Lbs i m h
        let G ← G.zipNd (· + ·) T
        f1Loop O x ls rs vs E Lbs Rds Rus Rbs i j hs G
      else f1Loop O x ls rs vs E Lbs Rds Rus Rbs i j hs G
    else do
      let T ← f1Term O x ls rs vs E Rds Rus Rbs i j m h
      let G ← G.zipNd (· + ·) T
      f1Loop O x ls rs vs E Lbs Rds Rus Rbs i j hs G

/-- `fMPS.py:1407-1486`: `G_` for `i ≤ j`. -/
noncomputable def f1Sorted (O : SetOrder) (x : FMPS ℂ) (ls rs vs : List (ND ℂ)) (E : InvEnvs) (H : List (ND ℂ)) (i j : ℕ) : Py (ND ℂ) := do
  let (a, b) ← coordShape x vs i
  let (c, e) ← coordShape x vs j
  let G := zerosND [a, b, c, e]
  let Ai ← pyGet x.data i
  if Ai.dim 0 * Ai.dim 1 = Ai.dim 2 then .ok G
  else do
    let H ← H.mapM fun h => h.reshape [2, 2, 2, 2]
    let (Lbs, Rds) ← f1Site O x vs E i
    let (Rus, Rbs) ← f1Far O x vs E j
    f1Loop O x ls rs vs E Lbs Rds Rus Rbs i j H.zipIdx.reverse G

/-- `fMPS.py:1406`, `1626`: the sites in order, the result conjugated and transposed if they were exchanged. -/
noncomputable def f1With (O : SetOrder) (x : FMPS ℂ) (ls rs vs : List (ND ℂ)) (E : InvEnvs) (H : List (ND ℂ)) (i j : ℕ) : Py (ND ℂ) :=
  if j < i then do
    let G ← f1Sorted O x ls rs vs E H j i
    let G ← G.transpose [2, 3, 0, 1]
    .ok G.conj
  else f1Sorted O x ls rs vs E H i j

/-- `fMPS.py:1364-1628` `F1(i, j, H)` with a new `id`. -/
noncomputable def f1 (O : SetOrder) (x : FMPS ℂ) (i j : ℕ) (H : List (ND ℂ)) : Py (ND ℂ) := do
  let (ls, rs) ← x.getEnvs
  let prs ← (List.range x.L).mapM fun n => leftNull chol inv null O x ls n
  let E ← invEnvs chol inv x.L ls rs
  f1With O x ls rs (prs.map Prod.snd) E H i j

end FMPS

end Xmps
