import Verif.Model.ProjFmpo
import Verif.Model.NBody

/-!
# Model of the Hamiltonians of `xmps/qmb.py`

The matrices of qutip (`sigmap`, `sigmam`, `sigmax`, `sigmay`, `sigmaz`) are taken to be the usual ones, `tensor` of qutip the
Kronecker product of the list, `*` of two operators the matrix product, `op**0` the identity and `op**1` the operator.  `.full()`
returns the matrix.
-/

namespace Xmps.Qmb

open ProjMpo

/-- `qmb.py:11-26` `S_n_body(op, i, n)` with `tensorise=True`, for a `2×2` operator -/
noncomputable def sNBody (op : ND ℂ) (i : ℤ) (n : ℕ) : Py (ND ℂ) :=
  if ¬ i < n then .error .exception
  else Spin.tensor ((List.range n).map fun j : ℕ => if i - j = 0 then op else eyeND 2)

/-- `A + B` of two operators -/
noncomputable def add2 (A B : ND ℂ) : Py (ND ℂ) := A.zipNd (· + ·) B

/-- `J/2*(Sp(i, n)*Sm(j, n) + Sm(i, n)*Sp(j, n)) + Jz*Sz(i, n)*Sz(j, n)` -/
noncomputable def pairTerm (J Jz : ℂ) (i j : ℤ) (n : ℕ) : Py (ND ℂ) := do
  let p ← (← sNBody sp i n).matmul (← sNBody sm j n)
  let m ← (← sNBody sm i n).matmul (← sNBody sp j n)
  let z ← (scl Jz (← sNBody szz i n)).matmul (← sNBody szz j n)
  add2 (scl (J / 2) (← add2 p m)) z

/-- `sum` of a list of operators, `0 + x_0 + x_1 + …`; `none` is the number 0 -/
noncomputable def sumOps : List (ND ℂ) → Py (Option (ND ℂ))
  | [] => .ok none
  | x :: xs => do
    let r ← xs.foldlM add2 x
    .ok (some r)

/-- `qmb.py:64-72` `anisotropic_heisenberg(h, J, Jz, N)` for `N ≥ 1`; for `N = 1` the first sum is the number 0 -/
noncomputable def anisotropicHeisenbergFull (h J Jz : ℂ) (N : ℕ) : Py (ND ℂ) := do
  let nn ← sumOps (← (List.range (N - 1)).mapM fun i : ℕ => pairTerm J Jz i (i + 1) N)
  let s ← sumOps (← (List.range N).mapM fun i : ℕ => do return scl h (← sNBody szz i N))
  match nn, s with
  | some a, some b => add2 a (scl (-1) b)
  | none, some b => .ok (scl (-1) b)
  | _, none => .error .attributeError

/-- `qmb.py:74-79` `local_anisotropic_heisenberg(h, J, Jz)`, also `h_bulk`, `qmb.py:84-85` -/
noncomputable def localBulk (h J Jz : ℂ) : Py (ND ℂ) := do
  let p ← pairTerm J Jz 0 1 2
  p.zipNd (· - ·) (scl h (← sNBody szz 0 2))

/-- `h_N_1`, `qmb.py:86-87` -/
noncomputable def localEnd (h J Jz : ℂ) : Py (ND ℂ) := do
  let p ← pairTerm J Jz 0 1 2
  p.zipNd (· - ·) (scl h (← add2 (← sNBody szz 0 2) (← sNBody szz 1 2)))

/-- `qmb.py:81-88` `local_anisotropic_heisenbergs(h, J, Jz, N)` -/
noncomputable def localHeisenbergs (h J Jz : ℂ) (N : ℕ) : Py (List (ND ℂ)) := do
  let b ← localBulk h J Jz
  let e ← localEnd h J Jz
  .ok (List.replicate (N - 2) b ++ [e])

/-- `sigmax().full()` of qutip -/
noncomputable def sxx : ND ℂ := Ham.ofMat !![0, 1; 1, 0]

/-- `J*Sz(0, 2)*Sz(1, 2)` -/
noncomputable def zzTerm (J : ℂ) : Py (ND ℂ) := do (scl J (← sNBody szz 0 2)).matmul (← sNBody szz 1 2)

/-- `qmb.py:94-97` `local_isings(J, g, N)` -/
noncomputable def localIsings (J g : ℂ) (N : ℕ) : Py (List (ND ℂ)) := do
  let z ← zzTerm J
  let b ← add2 z (scl g (← sNBody sxx 0 2))
  let e ← add2 z (scl g (← add2 (← sNBody sxx 0 2) (← sNBody sxx 1 2)))
  .ok (List.replicate (N - 2) (scl (-1) b) ++ [scl (-1) e])

end Xmps.Qmb
