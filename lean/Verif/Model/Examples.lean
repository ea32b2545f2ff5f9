import Verif.Model.Canonicalise
import Verif.Model.Structure
import Verif.Model.ImpsFile
import Verif.Model.Hamiltonian

/-!
# Model of the example states (`xmps/mps_examples.py`)
-/

namespace Xmps.Examples

/-- `A[s] = v` for a three-legged array, with `v` broadcast to the last two legs -/
def setPage (A : ND ℂ) (s : ℕ) (v : ℕ → ℕ → ℂ) : ND ℂ :=
  ⟨A.shape, fun
    | [t, a, b] => if t = s then v a b else A.val [t, a, b]
    | i => A.val i⟩

/-- `array([x, y])`, broadcast along the first leg -/
def row (x y : ℂ) : ℕ → ℕ → ℂ := fun _ b => if b = 0 then x else y

/-- `array([[x], [y]])` -/
def col (x y : ℂ) : ℕ → ℕ → ℂ := fun a _ => if a = 0 then x else y

/-- a number, broadcast -/
def const (x : ℂ) : ℕ → ℕ → ℂ := fun _ _ => x

variable (svd : Svd) (eig : Eig)

/-- `fMPS(matrices, 2).left_canonicalise()` -/
noncomputable def finish (matrices : List (ND ℂ)) : Py (FMPS ℂ) := do
  let x ← FMPS.init matrices (some 2)
  let y ← x.leftCanonicalise svd eig
  .ok y.1

/-- `mps_examples.py:10-41` `bell(i)`; for other `i` the function ends without `return` (`None`). -/
noncomputable def bell (i : ℤ) : Py (Option (FMPS ℂ)) := do
  let m0 : ND ℂ := zerosND [2, 1, 2]
  let m1 : ND ℂ := zerosND [2, 2, 1]
  if i = 1 then
    let m0 := setPage m0 0 (row 0 1)
    let m0 := setPage m0 1 (row 1 0)
    let m1 := setPage m1 0 (col 0 1)
    let m1 := setPage m1 1 (col 1 0)
    let y ← finish svd eig [m0, m1]
    .ok (some y)
  else if i = 2 then
    let m0 := setPage m0 0 (row 0 1)
    let m0 := setPage m0 1 (row 1 0)
    let m1 := setPage m1 0 (col 0 1)
    let m1 := setPage m1 1 (col (-1) (-0))
    let y ← finish svd eig [m0, m1]
    .ok (some y)
  else if i = 3 then
    let m0 := setPage m0 0 (row 0 1)
    let m0 := setPage m0 1 (row 1 0)
    let m1 := setPage m1 0 (col 1 0)
    let m1 := setPage m1 1 (col 0 1)
    let y ← finish svd eig [m0, m1]
    .ok (some y)
  else if i = 4 then
    let m0 := setPage m0 0 (row 0 1)
    let m0 := setPage m0 1 (row 1 0)
    let m1 := setPage m1 0 (col 1 0)
    let m1 := setPage m1 1 (col (-0) (-1))
    let y ← finish svd eig [m0, m1]
    .ok (some y)
  else
    .ok none

/-- `mps_examples.py:65-66` and `101-102`: both tensors are padded to bond dimension two. -/
noncomputable def padBoth (m0 m1 : ND ℂ) : Py (List (ND ℂ)) := do
  let m0 ← FMPS.padEnd m0 [0, 0, 1]
  let m1 ← FMPS.padEnd m1 [0, 1, 0]
  .ok [m0, m1]

/-- `mps_examples.py:43-67` `comp_z(i)` -/
noncomputable def compZ (i : ℤ) : Py (FMPS ℂ) := do
  let m0 : ND ℂ := zerosND [2, 1, 1]
  let m1 : ND ℂ := zerosND [2, 1, 1]
  let (m0, m1) := if i = 1 then (setPage m0 0 (const 1), setPage m1 0 (const 1)) else (m0, m1)
  let (m0, m1) := if i = 2 then (setPage m0 0 (const 1), setPage m1 1 (const 1)) else (m0, m1)
  let (m0, m1) := if i = 3 then (setPage m0 1 (const 1), setPage m1 0 (const 1)) else (m0, m1)
  let (m0, m1) := if i = 4 then (setPage m0 1 (const 1), setPage m1 1 (const 1)) else (m0, m1)
  let ms ← padBoth m0 m1
  FMPS.init ms (some 2)

/-- the two pages of a tensor, assigned one after the other -/
def setBoth (m : ND ℂ) (x y : ℂ) : ND ℂ := setPage (setPage m 0 (const x)) 1 (const y)

/-- `mps_examples.py:69-103` `comp_x(i)` -/
noncomputable def compX (i : ℤ) : Py (FMPS ℂ) := do
  let m0 : ND ℂ := zerosND [2, 1, 1]
  let m1 : ND ℂ := zerosND [2, 1, 1]
  if i = 1 then
    finish svd eig [setBoth m0 1 1, setBoth m1 1 1]
  else
    let (m0, m1) := if i = 2 then (setBoth m0 Complex.I Complex.I, setBoth m1 Complex.I (-Complex.I)) else (m0, m1)
    let (m0, m1) := if i = 3 then (setBoth m0 (-Complex.I) Complex.I, setBoth m1 Complex.I Complex.I) else (m0, m1)
    let (m0, m1) := if i = 4 then (setBoth m0 1 (-1), setBoth m1 1 (-1)) else (m0, m1)
    let ms ← padBoth m0 m1
    finish svd eig ms

/-- `numpy.stack(As, 0)` of arrays with the shape `sh` -/
def stack0 (sh : List ℕ) (As : List (ND ℂ)) : ND ℂ :=
  ⟨As.length :: sh, fun
    | s :: i => (As.getD s (zerosND sh)).val i
    | [] => 0⟩

/-- `mps_examples.py:133-142` `AKLT()` -/
noncomputable def aklt : Py Cell := do
  let (_, _, sz) := Spin.spins 1
  match Spin.ladders 1 with
  | [some sp, some sm] => do
    let Ap := Ham.ofMat ((Real.sqrt (2 / 3) : ℂ) • sp)
    let A0 := Ham.ofMat ((-Real.sqrt (1 / 2) : ℂ) • sz)
    let Am := Ham.ofMat ((-Real.sqrt (2 / 3) : ℂ) • sm)
    Cell.init [stack0 [2, 2] [Ap, A0, Am]]
  | _ => .error .typeError

/-- `mps_examples.py:105-118` `i_comp_z(i)` -/
noncomputable def iCompZ (i : ℤ) : Py Cell :=
  let m : ND ℂ := zerosND [2, 1, 1]
  let m := if i = 1 then setBoth m 1 0 else m
  let m := if i = 2 then setBoth m 0 1 else m
  Cell.init [m]

end Xmps.Examples
