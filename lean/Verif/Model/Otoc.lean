import Verif.Model.Canonicalise

/-!
# Model of `Trajectory.mps_OTOC` and the inverse-free steps (`fTDVP.py:88-118`, `452-485`)

Times enter only through the numbers `int((t2-t1)/dt)` of time steps, one for each interval.  The history of recorded states, which is lost with the
exception, is left out.
-/

namespace Xmps.Tdvp

open Xmps.Ncon

/-- `fTDVP.py:88-96` `invfree`, `98-117` `invfree4`: `tdvp` is neither defined in the file nor imported -/
def invfree (_mps : FMPS ℂ) : Py (FMPS ℂ) := .error .nameError

/-- `fTDVP.py:465`, `471`: a loop over `linspace(t1, t2, n)` of two steps; `numpy` refuses a negative `n` -/
def evolve2 (n : ℤ) (a b : FMPS ℂ) : Py (FMPS ℂ × FMPS ℂ) :=
  if n < 0 then .error .valueError
  else (List.range n.toNat).foldlM (fun (s : FMPS ℂ × FMPS ℂ) (_ : ℕ) => do
    let a ← invfree s.1
    let b ← invfree s.2
    .ok (a, b)) (a, b)

/-- `x.norm_` -/
def getNorm (x : FMPS ℂ) : Py (ND ℂ) :=
  match x.norm_ with
  | some R => .ok R
  | none => .error .attributeError

/-- `x.copy().apply(op).left_canonicalise()` -/
noncomputable def applyCanon (svd : Svd) (eig : Eig) (x : FMPS ℂ) (op : ND ℂ × ℕ) : Py (FMPS ℂ) := do
  let x ← x.copy
  let x ← x.apply op.1 op.2
  let (x, _) ← x.leftCanonicalise svd eig
  .ok x

/-- `x[0] *= m*n` for `m`, `n` of shape (1, 1) -/
def scaleFirst (x : FMPS ℂ) (m n : ND ℂ) : Py (FMPS ℂ) := do
  let A ← pyGet x.data 0
  .ok { x with data := x.data.set 0 (A.smul (m.val [0, 0] * n.val [0, 0])) }

/-- `fTDVP.py:464-483`: one pass of the loop; `psi_1_.apply(V)` is a new object which is dropped -/
noncomputable def otocStep (svd : Svd) (eig : Eig) (O : SetOrder) (V W : ND ℂ × ℕ) (n20 : ND ℂ) (s : FMPS ℂ × FMPS ℂ × List ℂ) (n : ℤ) :
    Py (FMPS ℂ × FMPS ℂ × List ℂ) := do
  let p ← evolve2 n s.1 s.2.1
  let a ← applyCanon svd eig p.1 W
  let b ← applyCanon svd eig p.2 W
  let n11 ← getNorm a
  let n21 ← getNorm b
  let q ← evolve2 n a b
  let x ← q.1.apply V.1 V.2
  let _ ← x.leftCanonicalise svd eig
  let n10 ← getNorm q.1
  let psi1 ← scaleFirst p.1 n10 n11
  let psi2 ← scaleFirst p.2 n20 n21
  let aa ← q.1.overlap O q.1
  let bb ← q.2.overlap O q.2
  let ab ← q.1.overlap O q.2
  .ok (psi1, psi2, s.2.2 ++ [aa.val [] + bb.val [] - ((0.5 * (ab.val []).re : ℝ) : ℂ)])

/-- `fTDVP.py:452-485` `mps_OTOC(T, (V, W))`; `hasW` tells whether the trajectory has a matrix product operator `W`, `steps` are the numbers of time
steps of the intervals between 0 and the times `T`.  Also returned is the state the trajectory has afterwards: `psi_1` starts as that object. -/
noncomputable def mpsOTOC (svd : Svd) (eig : Eig) (O : SetOrder) (hasW : Bool) (mps : FMPS ℂ) (V W : ND ℂ × ℕ) (steps : List ℤ) :
    Py (List ℂ × FMPS ℂ) := do
  guardPy hasW .assertionError
  let psi2 ← applyCanon svd eig mps V
  let n20 ← getNorm psi2
  let r ← steps.foldlM (otocStep svd eig O V W n20) (mps, psi2, [])
  .ok (r.2.2, r.1)

end Xmps.Tdvp
