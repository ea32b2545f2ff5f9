import Verif.Model.DAdt
import Verif.Model.Expect
import Verif.Model.Structure

/-!
# Model of `dA_dt(H, fullH=True)` (`fMPS.py:1170-1231`, the branch `1217-1229`)

`H` is one matrix on the whole chain.
-/

namespace Xmps.FMPS

open Xmps.Ncon

/-- `fMPS.py:1220-1226`: the links of `B(n)`; `links[-1]` is the link of the last tensor. -/
def fullLinks (L n : ℕ) : Py (List (List ℤ)) := do
  let links := linksOp L
  let ln ← pyGet links n
  let links := links.set n ([-1, -2] ++ ln.take 2)
  if n = L - 1 then do
    let la ← pyLast links
    .ok (links.set (links.length - 1) (la.take 2 ++ [-3]))
  else do
    let ln1 ← pyGet links (n + 1)
    let a ← pyGet ln1 0
    let b ← pyGet ln1 2
    .ok (links.set (n + 1) [a, -3, b])

variable (chol inv null : ND ℂ → Py (ND ℂ))

/-- `fMPS.py:1227`: the tensors of the conjugate chain in `B(n)`. -/
noncomputable def fullBra (x : FMPS ℂ) (rs prs : List (ND ℂ)) (n : ℕ) : Py (List (ND ℂ)) :=
  x.data.zipIdx.mapM fun am =>
    if am.2 = n then pyGet prs am.2
    else if am.2 = n + 1 then do
      let r ← envAt rs (n : ℤ)
      let ri ← inv r
      ri.conj.matmul am.1.conj
    else .ok am.1.conj

/-- `fMPS.py:1218-1227` `B(n)` with `fullH=True`. -/
noncomputable def dAdtFullSite (O : SetOrder) (x : FMPS ℂ) (rs prs : List (ND ℂ)) (H : ND ℂ) (n : ℕ) : Py (ND ℂ) := do
  let H ← H.reshape (List.replicate (2 * x.L) x.d)
  let links ← fullLinks x.L n
  let bra ← fullBra inv x rs prs n
  let R ← nc O (bra ++ [H] ++ x.data) links
  .ok (R.smul (-Complex.I))

/-- `fMPS.py:1170-1231` `dA_dt(H, fullH=True)`, `prs_vLs=None`. -/
noncomputable def dAdtFull (O : SetOrder) (x : FMPS ℂ) (H : ND ℂ) : Py (FMPS ℂ) := do
  let (ls, rs) ← x.getEnvs
  let prs ← (List.range x.L).mapM fun n => leftNull chol inv null O x ls n
  let Bs ← (List.range x.L).mapM fun n => x.dAdtFullSite inv O rs (prs.map Prod.fst) H n
  init Bs

end Xmps.FMPS
