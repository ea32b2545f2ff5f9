import Verif.Model.DAdt
import Verif.Model.Structure

/-!
# Model of the coordinates of tangent vectors (`fMPS.py:1929-2012`)

`chol`, `inv`, `null` as in `Model/DAdt`.  One-dimensional arrays are lists.
-/

namespace Xmps

open Xmps.Ncon

namespace FMPS

variable (chol inv null : ND ℂ → Py (ND ℂ))

/-- `fMPS.py:1937`: the second extent of the coordinates at the site `n`. -/
def dimAfter (x : FMPS ℂ) (n : ℕ) : Py ℕ :=
  if n + 1 < x.L then do
    let A ← pyGet x.data (n + 1)
    .ok (A.dim 1)
  else .ok 1

/-- `fMPS.py:1934-1942` `tangent_space_dims(l, get_vLs=True)`; `ls` is the list behind `l`. -/
def tangentSpaceDims (O : SetOrder) (x : FMPS ℂ) (ls : List (ND ℂ)) : Py (List (ND ℂ) × List (ℕ × ℕ)) := do
  let ps ← (List.range x.L).mapM fun n => leftNull chol inv null O x ls n
  let vLs := ps.map Prod.snd
  let shapes ← vLs.zipIdx.mapM fun a => do
    let q ← x.dimAfter a.2
    .ok (a.1.dim 2, q)
  .ok (vLs, shapes)

/-- `fMPS.py:1996-1998`: the body of the loop of `extract_tangent_vector`. -/
noncomputable def extractSite (O : SetOrder) (x : FMPS ℂ) (ls rs dA : List (ND ℂ)) (n : ℕ) : Py (List ℂ) := do
  let (_, vL) ← leftNull chol inv null O x ls n
  let l ← envAt ls ((n : ℤ) - 1)
  let X ← chol l
  let B ← pyGet dA n
  let t ← X.matmul B
  let r ← envAt rs (n : ℤ)
  let Y ← chol r
  let t ← t.matmul Y
  let w ← nc O [vL.conj, t] [[1, 2, -1], [1, 2, -2]]
  .ok w.flat

/-- `fMPS.py:1986-1999` `extract_tangent_vector(dA)`; `concatenate` of nothing is a `ValueError`. -/
noncomputable def extractTangent (O : SetOrder) (x : FMPS ℂ) (dA : List (ND ℂ)) : Py (List ℂ) := do
  let (ls, rs) ← x.getEnvs
  let (_, shapes) ← x.tangentSpaceDims chol inv null O ls
  let xs ← shapes.zipIdx.mapM fun a =>
    if a.1.1 * a.1.2 = 0 then .ok none
    else do
      let w ← extractSite chol inv null O x ls rs dA a.2
      .ok (some w)
  let xs := xs.filterMap id
  guardPy (!xs.isEmpty) .valueError
  .ok xs.flatten

/-- `fMPS.py:2011`: a tensor of `import_tangent_vector`; `l`, `r` are `l_(n-1)`, `r_(n)`. -/
def importSite (l r vL x : ND ℂ) : Py (ND ℂ) := do
  let X ← chol l
  let X ← inv X
  let t ← X.matmul vL
  let t ← t.matmul x
  let Y ← chol r
  let Y ← inv Y
  t.matmul Y

/-- `fMPS.py:2001-2012` `import_tangent_vector(v)`. -/
noncomputable def importTangent (O : SetOrder) (x : FMPS ℂ) (v : List ℂ) : Py (FMPS ℂ) := do
  let (ls, rs) ← x.getEnvs
  let (vLs, shapes) ← x.tangentSpaceDims chol inv null O ls
  let vLs := vLs.filter fun vL => vL.shape.prod ≠ 0
  let S := shapes.filter fun s => s.1 * s.2 ≠ 0
  let nulls := (shapes.filter fun s => s.1 * s.2 = 0).length
  let xs ← cutUp v (S.map fun s => [s.1, s.2])
  let Bs ← (vLs.zip xs).zipIdx.mapM fun a => do
    let l ← envAt ls ((a.2 : ℤ) - 1 + nulls)
    let r ← envAt rs ((a.2 : ℤ) + nulls)
    importSite chol inv l r a.1.1 a.1.2
  init ((x.data.take nulls).map (fun A => zerosND A.shape) ++ Bs)

/-- `fMPS.py:1929-1932` `tangent_state(x, n, vL=vL)`.  The second line is parsed as `_, vL = (left_null_projector(..) if vL is None else 1), vL`, so
`vL` keeps its value; with `None` the product of the third line is a `ValueError` (an operand without dimensions). -/
noncomputable def tangentState (O : SetOrder) (x : FMPS ℂ) (X : ND ℂ) (n : ℕ) (vL : Option (ND ℂ)) : Py (FMPS ℂ) := do
  let (ls, rs) ← x.getEnvs
  let _ ← if vL.isNone then (do
    let _ ← leftNull chol inv null O x ls n
    .ok () : Py Unit) else .ok ()
  let data ← x.data.zipIdx.mapM fun a =>
    if a.2 = n then do
      let l ← envAt ls ((n : ℤ) - 1)
      let Z ← chol l
      let Z ← inv Z
      match vL with
      | none => .error .valueError
      | some vL => do
        let t ← Z.matmul vL
        t.matmul X
    else if a.2 = n + 1 then do
      let r ← envAt rs (n : ℤ)
      let Z ← chol r
      let Z ← inv Z
      Z.matmul a.1
    else .ok a.1
  init data

/-- the rows of `eye(n)` -/
def eyeRows (n : ℕ) : List (List ℂ) := (List.range n).map fun i => (List.range n).map fun j => if i = j then 1 else 0

/-- `fMPS.py:1955-1959` `direct_sum(basis1, basis2)`; the first line of an empty basis is an `IndexError`. -/
def directSum (b1 b2 : List (List ℂ)) : Py (List (List ℂ)) := do
  let r1 ← pyGet b1 0
  let r2 ← pyGet b2 0
  .ok (b1.map (fun b => b ++ List.replicate r2.length 0) ++ b2.map fun b => List.replicate r1.length 0 ++ b)

/-- `fMPS.py:1960` `reduce(direct_sum, Qs)`; a `TypeError` for an empty list. -/
def reduceSum : List (List (List ℂ)) → Py (List (List ℂ))
  | [] => .error .typeError
  | Q :: Qs => Qs.foldlM directSum Q

/-- `fMPS.py:1944-1960` `tangent_space_basis(type)` for `'eye'` and `'rand'`; `Q i n` stands for the block `i`, `n` by `n`: `eye(n)`, or the unitary
factor of a random matrix. -/
noncomputable def tangentSpaceBasis (Q : ℕ → ℕ → List (List ℂ)) (O : SetOrder) (x : FMPS ℂ) : Py (List (List ℂ)) := do
  let (ls, _) ← x.getEnvs
  let (_, shapes) ← x.tangentSpaceDims chol inv null O ls
  reduceSum ((shapes.filter fun s => s.1 * s.2 ≠ 0).zipIdx.map fun a => Q a.2 (a.1.1 * a.1.2))

end FMPS

end Xmps
