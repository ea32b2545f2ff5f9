import Verif.Model.Expect
import Verif.Model.NBody

/-!
# Model of `rho_proj`, `product_state_overlap`, `approx_overlap` and `k_local_approx_overlap` (`fMPS.py`)
-/

namespace Xmps.FMPS

open Finset Xmps.Ncon

/-- `fMPS.py:994`: `np.squeeze(A).conj().T @ np.squeeze(B.conj())` for vectors; tensors that do not squeeze to vectors (a local dimension of one, bonds
of `other` larger than one) are an error here -/
def partialDot (A B : ND ℂ) : Py ℂ :=
  match A.squeeze.shape, B.conj.squeeze.shape with
  | [m], [n] => if m = n then .ok (∑ k ∈ range m, star (A.squeeze.val [k]) * B.conj.squeeze.val [k]) else .error .valueError
  | _, _ => .error .valueError

/-- `fMPS.py:986-995` `rho_proj(other, sites, single_string)`; `None` when the bond dimension is not one -/
def rhoProj (O : SetOrder) (x y : FMPS ℂ) (sites : List ℕ) (single : Bool := true) : Py (Option (ND ℂ)) := do
  let D ← bondDimension x.data
  if D = 1 ∧ single = true then do
    let ps ← ((List.range x.L).filter fun i : ℕ => i ∉ sites).mapM fun i : ℕ => do
      let A ← pyGet x.data i
      let B ← pyGet y.data i
      partialDot A B
    let ms ← sites.mapM fun i : ℕ => do
      let A ← pyGet x.data i
      let B ← pyGet y.data i
      nc O [A.squeeze, B.conj.squeeze] [[-1], [-2]]
    let R ← Spin.tensor ms
    .ok (some (R.smul ps.prod))
  else .ok none

/-- `fMPS.py:776-779` `product_state_overlap(other)` -/
def productStateOverlap (O : SetOrder) (x : FMPS ℂ) (ps : List (List ℂ)) : Py (ND ℂ) := do
  let y ← fromProductState ps
  x.overlap O y

/-- the loop of `fMPS.py:752-753`: the objects are changed by `local_overlap` -/
noncomputable def localOverlaps (qr rq : ND ℂ → Py (ND ℂ × ND ℂ)) (O : SetOrder) : FMPS ℂ → FMPS ℂ → List (List ℕ) → Py (List ℝ)
  | _, _, [] => .ok []
  | x, y, S :: Ss => do
    let (v, x, y) ← x.localOverlap qr rq O y S
    let vs ← localOverlaps qr rq O x y Ss
    .ok (v :: vs)

/-- `fMPS.py:752-753` `approx_overlap(other, As)`; `np.mean` of an empty list is nan, here `none` -/
noncomputable def approxOverlap (qr rq : ND ℂ → Py (ND ℂ × ND ℂ)) (O : SetOrder) (x y : FMPS ℂ) (Ss : List (List ℕ)) : Py (Option ℝ) := do
  let vs ← localOverlaps qr rq O x y Ss
  .ok (if vs = [] then none else some (vs.sum / vs.length))

/-- `fMPS.py:745-750` `k_local_approx_overlap(other, k)`; the argument `L` is not used.  The value is real unless `k` is `None`. -/
noncomputable def kLocalApproxOverlap (qr rq : ND ℂ → Py (ND ℂ × ND ℂ)) (O : SetOrder) (x y : FMPS ℂ) (k : Option ℕ) : Py (Option ℂ) :=
  match k with
  | none => do
    let R ← x.overlap O y
    .ok (some (R.val []))
  | some k => do
    let v ← x.approxOverlap qr rq O y ((List.range (x.L + 1 - k)).map fun i : ℕ => List.range' i k)
    .ok (v.map fun r => (r : ℂ))

end Xmps.FMPS
