import Verif.Model.PepsOverlap
import Verif.Model.Fmps

/-!
# Model of `fPEPS.add`, `recombine`, `full_overlap`, `contract`, `E_k` and `from_mps` (`fPEPS.py`)
-/

namespace Xmps.FPEPS

/-! ### sums -/

/-- `np.pad(A, list(zip(p, [0]*A.ndim)))`: zeros in front -/
def padFront (A : ND ℂ) (p : List ℕ) : ND ℂ :=
  ⟨List.zipWith (· + ·) p A.shape, fun idx => if InB A.shape (List.zipWith (· - ·) idx p) ∧ List.Forall₂ (· ≤ ·) p idx then A.val (List.zipWith (· - ·) idx p) else 0⟩

/-- `np.pad(A, list(zip([0]*A.ndim, p)))`: zeros behind -/
def padBack (A : ND ℂ) (p : List ℕ) : ND ℂ := ⟨List.zipWith (· + ·) A.shape p, fun idx => if InB A.shape idx then A.val idx else 0⟩

/-- `fPEPS.py:514-567`: which legs (up, right, down, left) are padded for the tensor in column `i` and row `j` -/
def addMask (Lx Ly i j : ℕ) : List Bool :=
  if i = Lx - 1 then
    if j = Ly - 1 then [true, false, false, true]
    else if j = 0 then [false, false, true, true]
    else [true, false, true, true]
  else if i = 0 then
    if j = Ly - 1 then [true, true, false, false]
    else if j = 0 then [false, true, true, false]
    else [true, true, true, false]
  else
    if j = Ly - 1 then [true, true, false, true]
    else if j = 0 then [false, true, true, true]
    else [true, true, true, true]

/-- `pads1`, `pads2`: the padded legs by the extents of the other tensor, the others and the physical leg by nothing -/
def pads (mask : List Bool) (A : ND ℂ) : List ℕ := 0 :: List.zipWith (fun b n => if b then n else 0) mask A.shape.tail

/-- one tensor of `add`; arrays that do not have five legs raise (an `IndexError` or a `ValueError`, not told apart), and numpy would broadcast
legs of extent 1 where the model raises `ValueError`. -/
def addTensor (Lx Ly i j : ℕ) (A B : ND ℂ) : Py (ND ℂ) := do
  guardPy (decide (1 < Lx ∧ 1 < Ly)) .assertionError
  guardPy (A.rank == 5 && B.rank == 5) .indexError
  let mask := addMask Lx Ly i j
  (padBack A (pads mask B)).zipNd (· + ·) (padFront B (pads mask A))

/-- `fPEPS.py:500-571` `add(other)` -/
def add (x y : FPEPS) : Py FPEPS := do
  let data ← (x.data.zip y.data).zipIdx.mapM fun rj =>
    (rj.1.1.zip rj.1.2).zipIdx.mapM fun ti => addTensor x.Lx x.Ly ti.2 rj.2 ti.1.1 ti.1.2
  init data

/-! ### the state as a vector -/

/-- `fPEPS.py:40-44` `col_contract(a, b)`: `b` below `a` -/
def colJoin (a b : ND ℂ) : Py (ND ℂ) := do
  let t ← a.tensordot b [3] [1]
  let t ← t.transpose [0, 4, 1, 2, 5, 6, 3, 7]
  t.reshape [a.dim 0 * b.dim 0, a.dim 1, a.dim 2 * b.dim 2, b.dim 3, a.dim 4 * b.dim 4]

/-- `fPEPS.py:47-52` `row_contract(a, b)`: `b` to the right of `a` -/
def rowJoin (a b : ND ℂ) : Py (ND ℂ) := do
  let t ← a.tensordot b [2] [4]
  let t ← t.transpose [0, 4, 1, 5, 6, 2, 7, 3]
  t.reshape [a.dim 0 * b.dim 0, a.dim 1 * b.dim 1, b.dim 2, a.dim 3 * b.dim 3, a.dim 4]

/-- `fPEPS.py:644-650` `recombine('reading')` -/
def recombine (x : FPEPS) : Py (ND ℂ) := do
  let cols ← x.data.mapM (reduceM rowJoin)
  let res ← reduceM colJoin cols
  .ok res.squeeze

/-- `fPEPS.py:651-660` `recombine('row_snake')` -/
def recombineSnake (x : FPEPS) : Py (ND ℂ) := do
  let cols ← x.data.zipIdx.mapM fun ri =>
    if ri.2 % 2 = 0 then reduceM rowJoin ri.1
    else do
      let row ← ri.1.reverse.mapM (·.transpose [0, 1, 4, 3, 2])
      reduceM rowJoin row
  let res ← reduceM colJoin cols
  .ok res.squeeze

/-- `fPEPS.py:925-926` `full_overlap(other)` -/
def fullOverlap (x y : FPEPS) : Py ℂ := do
  let u ← x.recombine
  let u ← u.reshape [u.size]
  let v ← y.recombine
  let v ← v.reshape [v.size]
  guardPy (u.size == v.size) .valueError
  .ok (∑ i ∈ Finset.range u.size, star (u.val [i]) * v.val [i])

/-! ### expectation values on rectangles -/

/-- `fPEPS.py:337-340` the method `row_contract(fr, to)`: the rows `fr, …, to - 1` become one row -/
def rowContract (x : FPEPS) (fr til : ℕ) : Py FPEPS := do
  let cols := zipStar ((x.data.take til).drop fr)
  let row ← cols.mapM (reduceM colJoin)
  init (x.data.take fr ++ [row] ++ x.data.drop til)

/-- `fPEPS.py:342-343` the method `col_contract(fr, to)` -/
def colContract (x : FPEPS) (fr til : ℕ) : Py FPEPS := do
  let t ← x.T
  let t ← t.rowContract fr til
  t.T

/-- `fPEPS.py:345-350` `contract(((x, y), (width, height)))` -/
def contract (p : FPEPS) (x y width height : ℕ) : Py FPEPS := do
  let q ← p.rowContract y (y + height)
  q.colContract x (x + width)

/-- `fPEPS.py:352-356` `E_k(op, ((x, y), (width, height)))` -/
noncomputable def expK (O : Ncon.SetOrder) (p : FPEPS) (op : ND ℂ) (x y width height : ℕ) : Py ℝ := do
  let q ← p.contract x y width height
  q.expval O op x y

/-! ### density matrices of product states -/

/-- `rhos[i, j] = np.outer(u, v)`: the outer product of the flattened arrays, written into an array of shape `(d, d)`; extents 1 are repeated -/
def outerTo (d : ℕ) (u v : ND ℂ) : Py (ND ℂ) :=
  if (u.size = d ∨ u.size = 1) ∧ (v.size = d ∨ v.size = 1) then
    .ok ⟨[d, d], fun
      | [a, b] => u.val (unravel u.shape (if u.size = 1 then 0 else a)) * v.val (unravel v.shape (if v.size = 1 then 0 else b))
      | _ => 0⟩
  else .error .valueError

/-- `fPEPS.py:316-331` `rho_proj(other, ((x0, y0), (width, height)))`. `bond_dimension` (411-412) is taken over all tensors one by one; on rows of
different lengths numpy would raise. -/
noncomputable def rhoProj (x other : FPEPS) (x0 y0 width height : ℕ) : Py (ND ℂ) := do
  let D ← maxShape x.data.flatten
  guardPy (D = 1) .assertionError
  let rhos ← (List.range' 0 width).mapM fun i => (List.range' 0 height).mapM fun j => do
    let row ← pyGet x.data (y0 + j)
    let A ← pyGet row (x0 + i)
    let row' ← pyGet other.data (y0 + j)
    let B ← pyGet row' (x0 + i)
    outerTo x.d A.squeeze B.squeeze.conj
  .ok ⟨[width, height, x.d, x.d], fun
    | [i, j, a, b] => ((rhos.getD i []).getD j (zerosND [])).val [a, b]
    | _ => 0⟩

/-- `fPEPS.py:301-314` `rho(((x0, y0), (width, height)))` -/
noncomputable def rho (x : FPEPS) (x0 y0 width height : ℕ) : Py (ND ℂ) := do
  let D ← maxShape x.data.flatten
  guardPy (D = 1) .assertionError
  let rhos ← (List.range' 0 width).mapM fun i => (List.range' 0 height).mapM fun j => do
    let row ← pyGet x.data (y0 + j)
    let A ← pyGet row (x0 + i)
    outerTo x.d A.squeeze A.squeeze.conj
  .ok ⟨[width, height, x.d, x.d], fun
    | [i, j, a, b] => ((rhos.getD i []).getD j (zerosND [])).val [a, b]
    | _ => 0⟩

/-! ### a chain as a PEPS -/

/-- `fPEPS.py:596-617`: the tensor of the chain at column `i`, row `j` of the grid -/
def snakeTensor (Lx i j : ℕ) (A : ND ℂ) : Py (ND ℂ) :=
  match A.shape with
  | [d, X1, X2] =>
    if j % 2 = 0 then
      if i = Lx - 1 then do
        let B ← A.transpose [0, 2, 1]
        B.reshape [d, 1, 1, X2, X1]
      else if i = 0 then A.reshape [d, X1, X2, 1, 1]
      else do
        let B ← A.transpose [0, 2, 1]
        B.reshape [d, 1, X2, 1, X1]
    else
      if i = Lx - 1 then A.reshape [d, X1, 1, 1, X2]
      else if i = 0 then A.reshape [d, 1, X1, X2, 1]
      else A.reshape [d, 1, X1, 1, X2]
  | _ => .error .valueError

/-- `fPEPS.py:573-619` `from_mps(mps, Lx)` with both numbers known: rows of `Lx` tensors, every second one reversed.  Without `Lx` the code takes the
square root of the length for both and asserts that it is an integer. -/
def fromMps (A : List (ND ℂ)) (Lx Ly : ℕ) : Py FPEPS := do
  let rows := (List.range Ly).map fun i => (A.take (Lx * (i + 1))).drop (Lx * i)
  let rows := rows.zipIdx.map fun rj => if rj.2 % 2 = 1 then rj.1.reverse else rj.1
  let data ← rows.zipIdx.mapM fun rj => do
    guardPy (Lx ≤ rj.1.length) .indexError
    (rj.1.take Lx).zipIdx.mapM fun ti => snakeTensor Lx ti.2 rj.2 ti.1
  init data

/-- `fPEPS.py:575-584` `from_mps(mps, Lx)`: the number of rows is `int(mps.L/Lx)`; the assertion looks at `Lx` instead of the number of rows and so never
fails.  (`Lx = 0` raises `ZeroDivisionError`, here `exception`.) -/
def fromMpsLx (A : List (ND ℂ)) (Lx : ℕ) : Py FPEPS := do
  guardPy (Lx != 0) .exception
  fromMps A Lx (A.length / Lx)

/-- `fPEPS.py:575-578` `from_mps(mps)`: the number of tensors has to be a square.  (The code compares with `np.allclose`, which accepts other lengths
above some fifty thousand; the model is exact.) -/
def fromMpsSq (A : List (ND ℂ)) : Py FPEPS := do
  guardPy (Nat.sqrt A.length * Nat.sqrt A.length == A.length) .assertionError
  fromMps A (Nat.sqrt A.length) (Nat.sqrt A.length)

end Xmps.FPEPS
