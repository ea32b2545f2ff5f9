import Mathlib.Analysis.Complex.Trigonometric
import Verif.Model.TwoSite
import Verif.Model.Structure

/-!
# Model of `apply_two_site_isometry` and `random` (`fMPS.py`)
-/

namespace Xmps

open Finset Xmps.Ncon

/-- `fMPS.py:92-93` `apply_isometry(tensors, Is)` for two tensors -/
noncomputable def applyIsometry (O : SetOrder) (A B Is : ND ℂ) : Py (ND ℂ) := do
  let G ← groupTensors O A B
  Is.tensordot G [1] [0]

namespace FMPS

/-- `fMPS.py:907`: `self[(i, j)[lr]] = apply_isometry([self[i], self[i+1]], op)` -/
noncomputable def isometryStep (O : SetOrder) (x : FMPS ℂ) (op : ND ℂ) (i j lr : ℕ) : Py (FMPS ℂ) := do
  let A ← pyGet x.data i
  let B ← pyGet x.data (i + 1)
  let T ← applyIsometry O A B op
  let k ← pyGet [i, j] lr
  .ok { x with data := x.data.set k T }

/-- `fMPS.py:897-911` `apply_two_site_isometry((op, (i, j)), lr)`; the receiver is changed and returned -/
noncomputable def applyTwoSiteIsometry (qr rq : ND ℂ → Py (ND ℂ × ND ℂ)) (svd : Svd) (O : SetOrder) (x : FMPS ℂ) (op : ND ℂ) (i j : ℕ)
    (lr : ℕ := 0) : Py (FMPS ℂ) := do
  guardPy (j != i) .assertionError
  let ks := List.range' (min i j + 1) (max i j - 1 - min i j)
  let x ← ks.reverse.foldlM (fun y k => applyTwoSite qr rq svd O y SWAP [k, k + 1]) x
  let x ← x.isometryStep O op (min i j) (max i j) lr
  ks.foldlM (fun y k => applyTwoSite qr rq svd O y SWAP [k, k + 1]) x

/-- `fMPS.py:425`: one tensor of a random product state -/
noncomputable def blochTensor (real : Bool) (th f : ℝ) : ND ℂ :=
  ⟨[2, 1, 1], fun
    | 0 :: _ => (Real.cos (th / 2) : ℂ)
    | _ => Complex.exp (Complex.I * f * (if real then 0 else 1)) * (Real.sin (th / 2) : ℂ)⟩

/-- `fMPS.py:401-434` `random(L, d, D, real)`.  The random numbers are parameters: the angles of the product state (any reals), the entries of the
arrays (`rnd i`, real and imaginary part).  The attribute `oc` is kept, and with `D = 1` also the two flags. -/
noncomputable def random (ang : ℕ → ℝ × ℝ) (rnd : ℕ → List ℕ → ℝ × ℝ) (x : FMPS ℂ) (L d : ℕ) (D : Option ℕ) (real : Bool := false) : Py (FMPS ℂ) :=
  if D = some 1 then .ok { x with L := L, d := d, D := 1, data := (List.range L).map fun i : ℕ => blochTensor real (ang i).1 (ang i).2 }
  else do
    let st ← createStructure L d D
    let D' ← pyMax (st.map fun p => p.2)
    .ok { x with
      L := L
      d := d
      D := D'
      data := st.zipIdx.map fun p => ⟨[d, p.1.1, p.1.2], fun s => ((rnd p.2 s).1 : ℂ) + (if real then 0 else 1) * Complex.I * ((rnd p.2 s).2 : ℂ)⟩
      canonical := false
      orthogonal := false }

end FMPS

end Xmps
