import Verif.Model.Canonicalise
import Mathlib.Analysis.Complex.Basic
import Mathlib.Analysis.SpecialFunctions.Pow.Real

/-!
# Model of the isometry tools of `tensor.py`

`scipy.linalg.null_space` and `scipy.linalg.qr`/`rq` are parameters; arithmetic is exact.
-/

namespace Xmps

open Finset

/-- `tensor.py:78-81` `direct_sum(A, B)`: the zero blocks have shapes `(a2, b1)` and `(b1, a2)`, so `block` raises unless both matrices are square. -/
def directSum (A B : ND ℂ) : Py (ND ℂ) :=
  match A.shape, B.shape with
  | [a1, a2], [b1, b2] =>
    if a1 = a2 ∧ b1 = b2 then
      .ok ⟨[a1 + b1, a2 + b2], fun idx =>
        if idx.getD 0 0 < a1 then (if idx.getD 1 0 < a2 then A.val idx else 0)
        else if idx.getD 1 0 < a2 then 0 else B.val [idx.getD 0 0 - a1, idx.getD 1 0 - a2]⟩
    else .error .valueError
  | _, _ => .error .valueError

/-- `tensor.py:93-98`: the three cases of `unitary_extension` -/
def squareUp (Q N1 N2 : ND ℂ) : Py (ND ℂ) :=
  if Q.dim 0 > Q.dim 1 then Q.concat N2 1
  else if Q.dim 0 < Q.dim 1 then do
    let t ← Q.hc.concat N1 1
    .ok t.hc
  else .ok Q

/-- `tensor.py:86-104` `unitary_extension(Q, D)` for a matrix `Q` -/
def unitaryExtension (null : ND ℂ → Py (ND ℂ)) (Q : ND ℂ) (D : Option ℕ := none) : Py (ND ℂ) := do
  let N1 ← null Q
  let N2 ← null Q.hc
  let R ← squareUp Q N1 N2
  match D with
  | none => .ok R
  | some D => if D > R.dim 0 then directSum R (eyeND (D - R.dim 0)) else .ok R

/-- `numpy.linalg.norm(v)` of any array: the 2-norm of its entries -/
noncomputable def ND.norm (v : ND ℂ) : ℝ := Real.sqrt (sumIdx v.shape fun idx => Complex.normSq (v.val idx))

/-- `tensor.py:36-47` `embed(v)`; a zero `v` (for which the code divides by zero) gives `inv 0 = 0` here, the theorems exclude it. -/
noncomputable def embed (null : ND ℂ → Py (ND ℂ)) (v : ND ℂ) : Py (ND ℂ) := do
  let r ← v.reshape [1, v.size]
  let r := r.smul ((v.norm : ℂ)⁻¹)
  let vs ← null r
  let t ← r.concat vs.hc 0
  t.transpose [1, 0]

/-- `tensor.py:49-58` `deembed(u)`: the first column of a matrix with four columns, as a 2 by 2 matrix -/
def deembed (u : ND ℂ) : Py (ND ℂ) := do
  match u.shape with
  | [m, 4] =>
    let w : ND ℂ := ⟨[m], fun idx => u.val [idx.getD 0 0, 0]⟩
    w.reshape [2, 2]
  | _ => .error .valueError

/-- `numpy.sign` of a complex number (numpy 1): the sign of the real part, of the imaginary part when the real part vanishes -/
noncomputable def npSign (z : ℂ) : ℂ :=
  if z.re ≠ 0 then (SignType.sign z.re : ℝ) else (SignType.sign z.im : ℝ)

/-- `diag(sign(diag(r)))` -/
noncomputable def signDiag (r : ND ℂ) : Py (ND ℂ) :=
  match r.shape with
  | [m, n] => .ok ⟨[min m n, min m n], fun idx => if idx.getD 0 0 = idx.getD 1 0 then npSign (r.val [idx.getD 0 0, idx.getD 0 0]) else 0⟩
  | _ => .error .valueError

/-- `tensor.py:60-64` `uqr(A)` -/
noncomputable def uqr (qr : ND ℂ → Py (ND ℂ × ND ℂ)) (A : ND ℂ) : Py (ND ℂ × ND ℂ) := do
  let (q, r) ← qr A
  let O ← signDiag r
  let a ← q.matmul O
  let b ← O.matmul r
  .ok (a, b)

/-- `tensor.py:66-71` `urq(A)`; the second factorisation is computed and dropped -/
noncomputable def urq (qr rq : ND ℂ → Py (ND ℂ × ND ℂ)) (A : ND ℂ) : Py (ND ℂ × ND ℂ) := do
  let (r, q) ← rq A
  let _ ← qr A
  let O ← signDiag r
  let a ← r.matmul O
  let b ← O.matmul q
  .ok (a, b)

end Xmps
