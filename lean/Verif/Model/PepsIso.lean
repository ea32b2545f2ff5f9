import Verif.Model.PepsOverlap
import Verif.Model.TensorTools

/-!
# Model of the isometric PEPS (`fPEPS.py:55-141, 414-445, 721-814, 816-911, 929-989`)

`np.linalg.svd` is a parameter.  Changes in place are modelled as new values; what is left of the object after an exception is not modelled.
-/

namespace Xmps

open Xmps.Ncon

namespace FPEPS

/-- a row of `create_structure`: the shapes at the left border, inside, at the right border -/
def structRow (L : ℕ) (l c r : List ℕ) : List (List ℕ) := [l] ++ (List.replicate (L - 2) c ++ [r])

/-- `fPEPS.py:475-498` `create_structure(Lx, Ly, d, X)`: the shapes, `Ly` rows of `Lx` -/
def createStructure (Lx Ly d X : ℕ) : Py (List (List (List ℕ))) :=
  if 1 < Lx ∧ 1 < Ly then
    .ok ([structRow Lx [d, 1, X, X, 1] [d, 1, X, X, X] [d, 1, 1, X, X]] ++
      (List.replicate (Ly - 2) (structRow Lx [d, X, X, X, 1] [d, X, X, X, X] [d, X, 1, X, X]) ++
        [structRow Lx [d, X, X, 1, 1] [d, X, X, 1, X] [d, X, 1, 1, X]]))
  else if Ly = 1 ∧ 1 < Lx then .ok [structRow Lx [d, 1, X, 1, 1] [d, 1, X, 1, X] [d, 1, 1, 1, X]]
  else if Lx = 1 ∧ 1 < Ly then .ok ([[[d, 1, 1, X, 1]]] ++ (List.replicate (Ly - 2) [[d, X, 1, X, 1]] ++ [[[d, X, 1, 1, 1]]]))
  else .error .exception

/-- `fPEPS.py:624-632` `random(Lx, Ly, d, X)`; the random entries of the array in row `j`, column `i` are `rnd j i`. -/
def random (rnd : ℕ → ℕ → List ℕ → ℂ) (Lx Ly d X : ℕ) : Py FPEPS := do
  let shapes ← createStructure Lx Ly d X
  .ok ⟨shapes.zipIdx.map fun rj => rj.1.zipIdx.map fun si => ⟨si.1, rnd rj.2 si.2⟩, Lx, Ly, d, X, none⟩

/-- a slice `:D` on axis `k` -/
def cut {K : Type} (A : ND K) (k D : ℕ) : ND K := ⟨A.shape.modify k (min · D), A.val⟩

/-- `fPEPS.py:55-60` `row_truncate` -/
def rowTruncate (row : List (ND ℂ)) (D : ℕ) : List (ND ℂ) := row.map fun A => cut (cut A 2 D) 4 D

/-- `fPEPS.py:80, 94` `mod4` -/
def mod4 (x : List ℤ) : List ℕ := x.map fun y => (y % 4 + 1).toNat

/-- `fPEPS.py:71-82` `tensor_grouping_diag`; the list of axes passed to `group_legs` -/
def legsDiag (w : ℤ) : List (List ℕ) := [0 :: mod4 [w - 1, w - 1 + 1], mod4 [w - 1 + 3, w - 1 + 2]]

/-- `fPEPS.py:85-96` `tensor_grouping_lrud` -/
def legsLrud (w : ℤ) : List (List ℕ) := [0 :: mod4 [w - 1 - 1, w - 1, w - 1 + 1], mod4 [w - 1 + 2]]

/-- `fPEPS.py:99-116` `tensor_isometrise_diag` and `fPEPS.py:119-137` `tensor_isometrise_lrud`, which differ only in the grouping -/
def isometriseLegs (svd : ND ℂ → Py (ND ℂ × List ℝ × ND ℂ)) (A : ND ℂ) (legs : List (List ℕ)) : Py (ND ℂ) := do
  let (M, pipe) ← groupLegs A legs
  if M.dim 1 ≤ M.dim 0 then do
    let USV ← svd M
    ungroupLegs USV.1 pipe
  else .error .exception

/-- `fPEPS.py:140-141` `tensor_isometrise_center` (by zero numpy gives nan; here 0) -/
noncomputable def isometriseCenter (A : ND ℂ) : ND ℂ := A.smul ((A.norm : ℂ)⁻¹)

/-- `fPEPS.py:414-420` `truncate_above` -/
def truncateAbove (x : FPEPS) (row D : ℕ) : Py FPEPS := do
  guardPy (row != 0) .exception
  let r0 ← pyGet x.data (row - 1)
  let data := x.data.set (row - 1) (r0.map fun A => cut A 3 D)
  let r1 ← pyGet data row
  .ok { x with data := data.set row (r1.map fun A => cut A 1 D) }

/-- `fPEPS.py:422-428` `truncate_below`: the row is compared with `Lx - 1` -/
def truncateBelow (x : FPEPS) (row D : ℕ) : Py FPEPS := do
  guardPy ((row : ℤ) != (x.Lx : ℤ) - 1) .exception
  let r0 ← pyGet x.data row
  let data := x.data.set row (r0.map fun A => cut A 3 D)
  let r1 ← pyGet data (row + 1)
  .ok { x with data := data.set (row + 1) (r1.map fun A => cut A 1 D) }

/-- `fPEPS.py:434-435`: the body of the loop of `truncate_left` -/
def cutLeft (col D : ℕ) (data : List (List (ND ℂ))) (j : ℕ) : Py (List (List (ND ℂ))) := do
  let row ← pyGet data j
  let A ← pyGet row col
  let row := row.set col (cut A 4 D)
  let B ← pyGet row (col - 1)
  .ok (data.set j (row.set (col - 1) (cut B 2 D)))

/-- `fPEPS.py:430-436` `truncate_left`: the loop runs over `range(Lx)` rows -/
def truncateLeft (x : FPEPS) (col D : ℕ) : Py FPEPS := do
  guardPy (col != 0) .exception
  let data ← (List.range x.Lx).foldlM (cutLeft col D) x.data
  .ok { x with data := data }

/-- `fPEPS.py:438-440` `truncate_along_row` -/
def truncateAlongRow (x : FPEPS) (row D : ℕ) : Py FPEPS := do
  let r ← pyGet x.data row
  .ok { x with data := x.data.set row (rowTruncate r D) }

/-- `fPEPS.py:442-445` `truncate_along_column` -/
def truncateAlongColumn (x : FPEPS) (col D : ℕ) : Py FPEPS := do
  let data ← x.data.mapM fun row => do
    let A ← pyGet row col
    .ok (row.set col (cut (cut A 1 D) 3 D))
  .ok { x with data := data }

/-- `fPEPS.py:726-737`: the positions and bond dimensions of the truncations along columns (rows), for `L = Lx` (`L = Ly`) -/
def truncList (L d : ℕ) : List (ℕ × ℕ) :=
  ((List.range (L / 2 + 1)).map fun i => (i, d ^ i)) ++
    ((List.range L).drop (L / 2 - 1)).reverse.zipIdx.map fun ik => (ik.1, d ^ ik.2)

/-- `fPEPS.py:739-743` -/
def truncateEdges (x : FPEPS) : Py FPEPS :=
  if 1 < x.Ly ∧ 1 < x.Lx then do
    let x ← x.truncateBelow 0 x.d
    let x ← x.truncateBelow (x.Ly - 2) x.d
    let x ← x.truncateLeft 1 x.d
    x.truncateLeft (x.Lx - 1) x.d
  else .ok x

/-- `fPEPS.py:726-743`: the truncations of `isometrise` -/
def truncateAll (x : FPEPS) : Py FPEPS := do
  let x ← (truncList x.Lx x.d).foldlM (fun x iD => x.truncateAlongColumn iD.1 iD.2) x
  let x ← (truncList x.Ly x.d).foldlM (fun x jD => x.truncateAlongRow jD.1 jD.2) x
  x.truncateEdges

/-- `fPEPS.py:747-793`: the tensor in column `i`, row `j` -/
noncomputable def isoTensor (svd : ND ℂ → Py (ND ℂ × List ℝ × ND ℂ)) (ci cj : ℤ) (j i : ℕ) (A : ND ℂ) : Py (ND ℂ) :=
  if ci < i then
    if cj < j then isometriseLegs svd A (legsDiag 2)
    else if j < cj then isometriseLegs svd A (legsDiag 1)
    else isometriseLegs svd A (legsLrud 2)
  else if i < ci then
    if cj < j then isometriseLegs svd A (legsDiag 3)
    else if j < cj then isometriseLegs svd A (legsDiag 4)
    else isometriseLegs svd A (legsLrud 4)
  else
    if cj < j then isometriseLegs svd A (legsLrud 3)
    else if j < cj then isometriseLegs svd A (legsLrud 1)
    else .ok (isometriseCenter A)

/-- `fPEPS.py:721-794` `isometrise(oc)`, `oc = (c_i, c_j)` (column, row) -/
noncomputable def isometrise (svd : ND ℂ → Py (ND ℂ × List ℝ × ND ℂ)) (x : FPEPS) (ci cj : ℤ) : Py FPEPS := do
  guardPy (decide (0 ≤ ci ∧ ci < x.Lx ∧ 0 ≤ cj ∧ cj < x.Ly)) .assertionError
  let y ← truncateAll x
  let data ← y.data.zipIdx.mapM fun rj => rj.1.zipIdx.mapM fun Ai => isoTensor svd ci cj rj.2 Ai.2 Ai.1
  .ok { y with data := data, oc := some (ci, cj) }

/-- `fPEPS.py:936-940` `factors`: the loop from `i` down to 1; `None` when it ends.  `int(n**0.5)` is the exact integer root. -/
def factorsFrom (n : ℕ) : ℕ → Option (ℕ × ℕ)
  | 0 => none
  | i + 1 => if n % (i + 1) = 0 then some (i + 1, n / (i + 1)) else factorsFrom n i

/-- `fPEPS.py:936-940` `factors` -/
def factors (n : ℕ) : Option (ℕ × ℕ) := factorsFrom n (n.sqrt + 1)

/-- `fPEPS.py:943-989` `split_tensor` with `tr_svd` (929-933), up to line 977: `U2` (`peps_tools.py:77-78`) returns `None`, which cannot be
unpacked into two values.  What follows is not reached.  The entries of `s @ V` are not used before that. -/
def splitTensor (svd : ND ℂ → Py (ND ℂ × List ℝ × ND ℂ)) (chi : Option ℕ) (A : ND ℂ) : Py (ND ℂ × ND ℂ × ND ℂ) := do
  let ABC ← groupLegs A [[1], [2, 3], [0, 4, 5]]
  let M ← groupLegs ABC.1 [[2], [0, 1]]
  let USV ← svd M.1
  let k := match chi with
    | some chi => min USV.2.1.length (chi ^ 2)
    | none => USV.2.1.length
  match factors k with
  | some (BlX, BrX) => do
    let sV : ND ℂ := ⟨[k, USV.2.2.dim 1], fun idx => (USV.2.1.getD (idx.getD 0 0) 0 : ℝ) * USV.2.2.val idx⟩
    let _ ← sV.reshape [BlX, BrX, ABC.1.dim 0, ABC.1.dim 1]
    .error .typeError
  | none => .error .typeError

/-- `fPEPS.py:832-843`: the body of the loop of `moses_move_right`; the assertion on `unsplit_tensor` is left out.  The state is the data, `b`
and `middle_col`. -/
def mosesStep (O : SetOrder) (svd : ND ℂ → Py (ND ℂ × List ℝ × ND ℂ)) (chi : Option ℕ) (ci : ℤ) (st : List (List (ND ℂ)) × ND ℂ × List (ND ℂ)) (k : ℕ) :
    Py (List (List (ND ℂ)) × ND ℂ × List (ND ℂ)) := do
  let row ← pyGetI st.1 (-(k + 1 : ℤ))
  let A ← pyGetI row ci
  let zipper ← nc O [st.2.1, A] [[1, -4, -5], [-1, -2, -3, 1, -6]]
  let abc ← splitTensor svd chi zipper
  .ok (st.1.set (st.1.length - 1 - k) (row.set ci.toNat abc.1), abc.2.1, abc.2.2 :: st.2.2)

/-- `fPEPS.py:816-870` `moses_move_right` with `truncate=False`; `rest` is lines 845-870, after the loop. -/
noncomputable def mosesRight (O : SetOrder) (svd : ND ℂ → Py (ND ℂ × List ℝ × ND ℂ)) (rest : FPEPS → List (List (ND ℂ)) × ND ℂ × List (ND ℂ) → Py FPEPS)
    (chi : Option ℕ) (x : FPEPS) : Py FPEPS :=
  match x.oc with
  | none => .error .exception
  | some (ci, _) =>
    if ci = (x.Lx : ℤ) - 1 then .error .exception
    else do
      let z ← x.copy
      let st ← (List.range x.Ly).foldlM (mosesStep O svd chi ci) (z.data, ⟨[1, 1, 1], fun _ => 1⟩, [])
      rest x st

/-- `self.oc` after a move (`fPEPS.py:874-875, 880-881, 886-887`); unpacking fails without `oc` -/
def setOc (x : FPEPS) (di dj : ℤ) (ret : FPEPS) : Py FPEPS :=
  match x.oc with
  | none => .error .attributeError
  | some (i, j) => .ok { ret with oc := some (i + di, j + dj) }

/-- `fPEPS.py:872-876` `moses_move_left` -/
noncomputable def mosesLeft (right : FPEPS → Py FPEPS) (x : FPEPS) : Py FPEPS := do
  let y ← x.R
  let y ← right y
  let y ← y.R
  setOc x (-1) 0 y

/-- `fPEPS.py:878-882` `moses_move_down` -/
noncomputable def mosesDown (right : FPEPS → Py FPEPS) (x : FPEPS) : Py FPEPS := do
  let y ← x.T
  let y ← right y
  let y ← y.T
  setOc x 0 1 y

/-- `fPEPS.py:884-888` `moses_move_up` -/
noncomputable def mosesUp (right : FPEPS → Py FPEPS) (x : FPEPS) : Py FPEPS := do
  let y ← x.T
  let y ← y.R
  let y ← right y
  let y ← y.R
  let y ← y.T
  setOc x 0 (-1) y

/-- `fPEPS.py:890-911` `moses_move_oc_to` -/
noncomputable def mosesTo (right : FPEPS → Py FPEPS) (x : FPEPS) (i j : ℤ) : Py FPEPS :=
  match x.oc with
  | none => .error .exception
  | some (ci, cj) => do
    let z ← x.copy
    let z ← (List.range (i - ci).natAbs).foldlM (fun z _ => if 0 < i - ci then right z else mosesLeft right z) z
    (List.range (j - cj).natAbs).foldlM (fun z _ => if 0 < j - cj then mosesDown right z else mosesUp right z) z

/-- `fPEPS.py:805-808`: `iso_E` at the site `(i, j)` (column, row) -/
noncomputable def isoEAt (O : SetOrder) (x : FPEPS) (op : ND ℂ) (i j : ℤ) : Py ℝ := do
  let row ← pyGetI x.data j
  let A ← pyGetI row i
  let t ← nc O [A.conj, op, A] [[5, 1, 2, 3, 4], [5, 6], [6, 1, 2, 3, 4]]
  .ok (t.val []).re

/-- `fPEPS.py:799-808` `iso_E(op, site, chi)` -/
noncomputable def isoE (O : SetOrder) (svd : ND ℂ → Py (ND ℂ × List ℝ × ND ℂ)) (rest : FPEPS → List (List (ND ℂ)) × ND ℂ × List (ND ℂ) → Py FPEPS)
    (x : FPEPS) (op : ND ℂ) (site : Option (ℤ × ℤ)) (chi : Option ℕ) : Py ℝ :=
  match x.oc with
  | none => .error .exception
  | some oc =>
    if site.getD oc ≠ oc then do
      let z ← x.copy
      let w ← mosesTo (mosesRight O svd rest chi) z (site.getD oc).1 (site.getD oc).2
      match w.oc with
      | none => .error .exception
      | some oc => isoEAt O w op oc.1 oc.2
    else isoEAt O x op oc.1 oc.2

/-- `fPEPS.py:810-814` `iso_Es`: the pairs are passed as `iso_E(op, site, chi)` -/
noncomputable def isoEs (O : SetOrder) (svd : ND ℂ → Py (ND ℂ × List ℝ × ND ℂ)) (rest : FPEPS → List (List (ND ℂ)) × ND ℂ × List (ND ℂ) → Py FPEPS)
    (x : FPEPS) (opsites : List (ND ℂ × (ℤ × ℤ))) (chi : Option ℕ) : Py (List ℝ) :=
  opsites.mapM fun p => isoE O svd rest x p.1 (some p.2) chi

end FPEPS

end Xmps
