import Verif.Model.EnergySearch
import Verif.Model.ProjFmpo
import Verif.Model.NBody
import Verif.Model.SpinOps

/-!
# Model of `xmps/projects/fHam.py` and of the Hamiltonians of `xmps/projects/iHam.py`

The relative imports are taken to reach the modules of the package.  In `fHam.py` the spin is 1 (`n = 2`), in `iHam.py` it is 1/2 (`n = 1`); the
definitions have the spin `n / 2` as a parameter.
-/

namespace Xmps.ProjHam

open Xmps.Ncon Xmps.ProjMpo

/-- `fHam.py:7-8`, `iHam.py:15-16`: an entry of `N_body_spins(s, i, 2)` -/
noncomputable def spin2 {m : ℕ} (S : Matrix (Fin m) (Fin m) ℂ) (i : ℤ) : Py (ND ℂ) := Spin.nBody (fun _ _ => 0) (Ham.ofMat S) i 2 none

/-- `fHam.py:9`, `iHam.py:17`: `Sx12@Sx22+Sy12@Sy22+Δ*Sz12@Sz12` -/
noncomputable def heisTerm (n : ℕ) (Δ : ℂ) : Py (ND ℂ) := do
  let x1 ← spin2 (Spin.Sx n) 1
  let x2 ← spin2 (Spin.Sx n) 2
  let y1 ← spin2 (Spin.Sy n) 1
  let y2 ← spin2 (Spin.Sy n) 2
  let z1 ← spin2 (Spin.Sz n) 1
  let xx ← x1.matmul x2
  let yy ← y1.matmul y2
  let zz ← (scl Δ z1).matmul z1
  (← xx.zipNd (· + ·) yy).zipNd (· + ·) zz

/-- `fHam.py:9` `heis(L, Δ)` -/
noncomputable def heis (n L : ℕ) (Δ : ℂ) : Py (List (ND ℂ)) := do
  let h ← heisTerm n Δ
  .ok (List.replicate (L - 1) h)

/-- `iHam.py:17` `heis(Δ)` -/
noncomputable def iHeis (n : ℕ) (Δ : ℂ) : Py (List (ND ℂ)) := do
  let h ← heisTerm n Δ
  .ok [h]

/-- `-Sz12@Sz22+λ*Sx12`, in `fHam.py:10` -/
noncomputable def isinFirst (n : ℕ) (lam : ℂ) : Py (ND ℂ) := do
  let z1 ← spin2 (Spin.Sz n) 1
  let z2 ← spin2 (Spin.Sz n) 2
  let x1 ← spin2 (Spin.Sx n) 1
  (← (scl (-1) z1).matmul z2).zipNd (· + ·) (scl lam x1)

/-- `-Sz12@Sz22+λ*(Sx12+Sx22)`, in `fHam.py:10` and `iHam.py:18` -/
noncomputable def isinBulk (n : ℕ) (lam : ℂ) : Py (ND ℂ) := do
  let z1 ← spin2 (Spin.Sz n) 1
  let z2 ← spin2 (Spin.Sz n) 2
  let x1 ← spin2 (Spin.Sx n) 1
  let x2 ← spin2 (Spin.Sx n) 2
  (← (scl (-1) z1).matmul z2).zipNd (· + ·) (scl lam (← x1.zipNd (· + ·) x2))

/-- `fHam.py:10` `isin(L, λ)` -/
noncomputable def isin (n L : ℕ) (lam : ℂ) : Py (List (ND ℂ)) := do
  let a ← isinFirst n lam
  let b ← isinBulk n lam
  .ok (a :: List.replicate (L - 2) b)

/-- `iHam.py:18` `isin(λ)` -/
noncomputable def iIsin (n : ℕ) (lam : ℂ) : Py (List (ND ℂ)) := do
  let b ← isinBulk n lam
  .ok [b]

/-! ### `fHam.optimise` -/

variable (svd : Svd) (eig : Eig) (chol inv null : ND ℂ → Py (ND ℂ)) (O : SetOrder) (H : List (ND ℂ))

/-- `fHam.py:18` `A = (A+δt*A.dA_dt(H)).left_canonicalise()` with `δt = -1e-1j` -/
noncomputable def optStep (x : FMPS ℂ) : Py (FMPS ℂ) := do
  let k ← FMPS.dAdt chol inv null O x H
  let k ← k.mulItem (-(1 / 10) * Complex.I)
  let z ← x.addItem k
  let (z, _) ← z.leftCanonicalise svd eig none
  .ok z

/-- `fHam.py:17-25`: the loop, with `n` rounds left -/
noncomputable def optLoop (tol : ℝ) : ℕ → FMPS ℂ → ℝ → Py (FMPS ℂ)
  | 0, x, _ => .ok x
  | n + 1, x, e_ => do
    let y ← optStep svd eig chol inv null O H x
    let e ← y.energy O H
    if |e - e_| < tol then .ok y else optLoop tol n y e

/-- `fHam.py:12-26` `optimise(H, L, D, method, max_iters, tol)`; `euler` is `method == 'euler'`.  `fMPS()` has no attributes: the object that
`random` is called on is empty.  The random numbers are as in `random`. -/
noncomputable def optimise (d : ℕ) (ang : ℕ → ℝ × ℝ) (rnd : ℕ → List ℕ → ℝ × ℝ) (L D : ℕ) (euler : Bool) (maxIters : ℕ) (tol : ℝ) :
    Py (Option (FMPS ℂ × ℝ)) :=
  if euler then do
    let y ← (⟨[], 0, 0, 0, false, false, none, none⟩ : FMPS ℂ).random ang rnd L d (some D)
    let (y, _) ← y.leftCanonicalise svd eig none
    let e ← y.energy O H
    let y ← optLoop svd eig chol inv null O H tol maxIters y e
    let e ← y.energy O H
    .ok (some (y, e / L))
  else .ok none

end Xmps.ProjHam
