import Verif.Base.NpMore
import Verif.Model.Canonicalise
import Verif.Model.Hamiltonian

/-!
# Model of `xmps/projects/fMPO.py`: the matrix product operator and `effH`

The file imports its helpers from a package `pymps`, the former name of `xmps`; the model takes them to be the functions of
`xmps`.  `sigmap().full()`, `sigmam().full()`, `sigmaz().full()` of qutip are taken to be the matrices `[[0,1],[0,0]]`,
`[[0,0],[1,0]]`, `[[1,0],[0,-1]]`.  `DMRG` (the sweeps), `optimize` and `aslinearoperator` (the call of `eigsh`) are not modelled.
-/

namespace Xmps.ProjMpo

open Finset

/-- `sigmap().full()` of qutip -/
noncomputable def sp : ND ℂ := Ham.ofMat !![0, 1; 0, 0]

/-- `sigmam().full()` of qutip -/
noncomputable def sm : ND ℂ := Ham.ofMat !![0, 0; 1, 0]

/-- `sigmaz().full()` of qutip -/
noncomputable def szz : ND ℂ := Ham.ofMat !![1, 0; 0, -1]

/-- `zeros((2, 2))` -/
def zero2 : ND ℂ := ⟨[2, 2], fun _ => 0⟩

/-- `c*M` -/
noncomputable def scl (c : ℂ) (M : ND ℂ) : ND ℂ := ⟨M.shape, fun idx => c * M.val idx⟩

/-- `array` of a nested list of `2×2` matrices: axes (row, column, i, j) -/
noncomputable def blockArray (rows : List (List (ND ℂ))) : ND ℂ :=
  ⟨[rows.length, (rows.headD []).length, 2, 2], fun
    | [a, b, i, j] => ((rows.getD a []).getD b zero2).val [i, j]
    | _ => 0⟩

/-- the last row of the bulk, `fMPO.py:119,124` -/
noncomputable def lastRow (h J Jz : ℂ) : List (ND ℂ) := [scl (-h) szz, scl (J / 2) sm, scl (J / 2) sp, scl Jz szz, eyeND 2]

/-- `fMPO.py:119` -/
noncomputable def first (h J Jz : ℂ) : ND ℂ := blockArray [lastRow h J Jz]

/-- `fMPO.py:120-124` -/
noncomputable def bulk (h J Jz : ℂ) : ND ℂ := blockArray [[eyeND 2, zero2, zero2, zero2, zero2], [sp, zero2, zero2, zero2, zero2],
  [sm, zero2, zero2, zero2, zero2], [szz, zero2, zero2, zero2, zero2], lastRow h J Jz]

/-- `fMPO.py:125` -/
noncomputable def last (h : ℂ) : ND ℂ := blockArray [[eyeND 2], [sp], [sm], [szz], [scl (-h) szz]]

/-- `swapaxes(swapaxes(mats, 0, 2), 1, 3)`, `fMPO.py:129`: axes (i, j, row, column) -/
def swapBoth (M : ND ℂ) : ND ℂ := (M.transposeR [2, 1, 0, 3]).transposeR [0, 3, 2, 1]

/-- `fMPO.py:100-132` `fMPO.anisotropic_heisenberg(L, h, J, Jz)`: the list `data`.  `[bulk]*(L-2)` is empty for `L < 2`. -/
noncomputable def anisotropicHeisenberg (L : ℕ) (h J Jz : ℂ) : List (ND ℂ) :=
  ([first h J Jz] ++ List.replicate (L - 2) (bulk h J Jz) ++ [last h]).map swapBoth

/-- `fMPO.py:26-31` `env_right`; `dot` of two arrays of rank 3 sums the last axis of the first and the second of the second -/
noncomputable def envRight (W A : List (ND ℂ)) (L : ND ℂ) (k : ℕ) : Py (ND ℂ) := do
  let a ← pyGetI A ((k : ℤ) - 1)
  let w ← pyGetI W ((k : ℤ) - 1)
  let x ← a.hc.tensordot L [2] [1]
  let y ← x.tensordot w [0, 2] [0, 2]
  let z ← y.tensordot a [2, 1] [0, 1]
  z.transpose [1, 0, 2]

/-- `fMPO.py:33-40` `env_left` -/
noncomputable def envLeft (W A : List (ND ℂ)) (R : ND ℂ) (k : ℕ) : Py (ND ℂ) := do
  let a ← pyGetI A ((k : ℤ) - 1)
  let w ← pyGetI W ((k : ℤ) - 1)
  let x ← R.tensordot a.hc [2] [1]
  let y ← w.tensordot x [0, 3] [2, 0]
  let z ← a.tensordot y [0, 2] [0, 2]
  z.transpose [1, 0, 2]

/-- `array([[[1.]]])` -/
def one3 : ND ℂ := ⟨[1, 1, 1], fun _ => 1⟩

/-- the loop of `get_left_env`, `fMPO.py:47-48`, over `range(1, k)`: the list `Ls`, last entry first -/
noncomputable def leftEnvs (W A : List (ND ℂ)) : ℕ → Py (ND ℂ × List (ND ℂ))
  | 0 => .ok (one3, [])
  | n + 1 => do
    let (x, xs) ← leftEnvs W A n
    let y ← envRight W A x (n + 1)
    .ok (y, x :: xs)

/-- the loop of `get_right_env`, `fMPO.py:57-58`: the sites `N, N-1, …`, `m` of them -/
noncomputable def rightEnvs (W A : List (ND ℂ)) : ℕ → Py (ND ℂ × List (ND ℂ))
  | 0 => .ok (one3, [])
  | m + 1 => do
    let (x, xs) ← rightEnvs W A m
    let y ← envLeft W A x (A.length - m)
    .ok (y, x :: xs)

/-- the fields of `effH` set by `get_envs` -/
structure EffH where
  W : List (ND ℂ)
  A : List (ND ℂ)
  k : ℕ
  L : ND ℂ
  R : ND ℂ

/-- `fMPO.py:62-68` `effH(W, A, None, None, None).get_envs(k)`, for `0 ≤ k < len(A)`; `Ls[-1]` is the last left environment
(sites `1..k`), `Rs[::-1][0]` the last right one (sites `k+2..N`).  The tuple `shape` is not modelled: the reshapes take it from the tensor of site k. -/
noncomputable def getEnvs (W A : List (ND ℂ)) (k : ℕ) : Py EffH := do
  let (l, _) ← leftEnvs W A k
  let (r, _) ← rightEnvs W A (A.length - (k + 1))
  let _ ← pyGet W k
  let _ ← pyGet A k
  .ok ⟨W, A, k, l, r⟩

/-- `fMPO.py:70-78` `effH.mv(A)` -/
noncomputable def EffH.mv (e : EffH) (x : ND ℂ) : Py (ND ℂ) := do
  let a ← pyGet e.A e.k
  let x ← x.reshape a.shape
  let w ← pyGet e.W e.k
  let ra ← e.R.tensordot x [e.R.rank - 1] [x.rank - 1]
  let wra ← w.tensordot ra [1, 3] [2, 0]
  e.L.tensordot wra [0, 2] [1, 3]

/-- `fMPO.py:80-87` `effH.asmatrix()` -/
noncomputable def EffH.asmatrix (e : EffH) : Py (ND ℂ) := do
  let w ← pyGet e.W e.k
  let wr ← w.tensordot e.R [3] [0]
  let x ← e.L.tensordot wr [0] [2]
  let y ← x.transpose [2, 0, 4, 3, 1, 5]
  y.reshape [(y.shape.take 3).prod, (y.shape.drop 3).prod]

end Xmps.ProjMpo
