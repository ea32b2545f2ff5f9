import Verif.Model.JacFix
import Verif.Model.ExactDiag
import Mathlib.Analysis.SpecialFunctions.Log.Basic

/-!
# Model of `tangent_space_basis('F2')` (`fMPS.py:1960-1984`) and of `lyapunov`, `ts_int` (`fTDVP.py:283-432`)

`expm` and `expm_multiply` of `scipy` are the exact matrix exponential.  `svd`, `qr` are `scipy.linalg.svd`, `numpy.linalg.qr`.
`numpy.allclose(norm(X), 0)` is a parameter `close` of the array `X`.
-/

namespace Xmps

open Xmps.Ncon

/-- `scipy.sparse.linalg.expm_multiply(A, B)` for a matrix `B` -/
noncomputable def expmMat (A B : ND ℂ) : Py (ND ℂ) :=
  match A.shape, B.shape with
  | [n, m], [k, c] => if n = m ∧ m = k then .ok (ofM (NormedSpace.exp (toM n n A) * toM n c B)) else .error .valueError
  | _, _ => .error .valueError

namespace FMPS

variable (chol inv null : ND ℂ → Py (ND ℂ))

/-- `fMPS.py:1965-1966`: the antisymmetric and the symmetric part of the real form -/
noncomputable def jacHalves (J1 J2 : ND ℂ) : Py (ND ℂ × ND ℂ) := do
  let (Sx, Sy, Sz) := Spin.paulis 1
  let A ← (kron (eyeND 2) J1.re).zipNd (· + ·) (kron ((mat2 Sy).smul (-Complex.I)) J1.im)
  let B ← (kron (mat2 Sz) J2.re).zipNd (· + ·) (kron (mat2 Sx) J2.im)
  .ok (A, B)

/-- `fMPS.py:1960-1984` `tangent_space_basis('F2', H)` for a state without `old_vL`.  Lines 1980-1982 compute arrays nothing uses. -/
noncomputable def basisF2 (svd : ND ℂ → Py (ND ℂ × List ℝ × ND ℂ)) (close : ND ℂ → Bool) (O : SetOrder) (x : FMPS ℂ) (H : List (ND ℂ)) : Py (ND ℂ) := do
  let (J1, J2, _) ← jacParts chol inv null O x H
  let (J1, J2) ← jacHalves J1 J2
  let J ← jac chol inv null O x H
  let W := sympmat (J.dim 1 / 2)
  let A ← W.matmul J
  let M ← Tdvp.expmND (J.smul ((1 / 10 : ℝ) : ℂ))
  let X ← A.zipNd (· - ·) A.tr
  guardPy (close X) .assertionError
  let MW ← M.tr.matmul W
  let MWM ← MW.matmul M
  let X ← MWM.zipNd (· - ·) W
  guardPy (close X) .assertionError
  let X ← J2.zipNd (· - ·) J2.tr
  guardPy (close X) .assertionError
  let X ← J1.zipNd (· + ·) J1.tr
  guardPy (close X) .assertionError
  let (V, _, _) ← svd M
  .ok V

end FMPS

namespace Tdvp

/-- an operation on arrays of rank 1, with broadcasting -/
noncomputable def bcast (f : ℝ → ℝ → ℝ) (a b : List ℝ) : Py (List ℝ) :=
  if a.length = b.length then .ok (List.zipWith f a b)
  else if a.length = 1 then .ok (b.map (f (a.getD 0 0)))
  else if b.length = 1 then .ok (a.map fun t => f t (b.getD 0 0))
  else .error .valueError

/-- `log(abs(diag(R)))` -/
noncomputable def logDiag (R : ND ℂ) : List ℝ := (List.range (min (R.dim 0) (R.dim 1))).map fun i => Real.log ‖R.val [i, i]‖

/-- the variables of the loop of `lyapunov`; a name with `B` is the code's with `_` at the end. -/
structure LyAcc where
  Q : ND ℂ
  QB : ND ℂ
  lys : List (List ℝ)
  exps : List (List ℝ)
  lysB : List (List ℝ)
  expsB : List (List ℝ)
  conv : List ℝ

/-- `fTDVP.py:353`, `361`: the running mean -/
noncomputable def runMean (exps : List (List ℝ)) (ly : List ℝ) (n : ℕ) : Py (List ℝ) := do
  let last ← FMPS.pyLast exps
  let s ← bcast (· + ·) (last.map fun t => t * n) ly
  .ok (s.map fun t => t / (n + 1))

/-- `fTDVP.py:350-363`: the round `n` of the loop for the matrix `J`, `just_max` being false.  `conv` is the criterion of line 354, a function of `exps`
(an error where numpy refuses the list, whose first entry has length 1); `conv_`, `paired`, `paired_` are not modelled. -/
noncomputable def lyStep (qr : ND ℂ → Py (ND ℂ × ND ℂ)) (conv : List (List ℝ) → Py ℝ) (J : ND ℂ) (dt : ℝ) (n : ℕ) (a : LyAcc) : Py LyAcc := do
  let M ← expmMat (J.smul (dt : ℂ)) a.Q
  let (Q, R) ← qr M
  let ly := logDiag R
  let ex ← runMean a.exps ly n
  let c ← conv (a.exps ++ [ex])
  let MB ← expmMat ((J.tr.smul (-1)).smul (dt : ℂ)) a.QB
  let (QB, RB) ← qr MB
  let s ← bcast (· + ·) ly (logDiag RB)
  let lyB := s.map fun t => t / 2
  let exB ← runMean a.expsB lyB n
  .ok ⟨Q, QB, a.lys ++ [ly], a.exps ++ [ex], a.lysB ++ [lyB], a.expsB ++ [exB], a.conv ++ [c]⟩

/-- `fTDVP.py:365`: `thresh is not None and conv[-1] < thresh` -/
noncomputable def lyStop (thresh : Option ℝ) (a : LyAcc) : Bool :=
  match thresh, a.conv.getLast? with
  | some t, some c => decide (c < t)
  | _, _ => false

/-- `fTDVP.py:341-387`: the loop, from the round `n` on, for a state `x` with `old_vL` (`none`: no such attribute).  `jac` is `self.mps.jac(H)` with the
attribute `new_vL` it sets, `evolve` is the step to the next state (lines 371-374 or 381-383).  The last component is the value of `n` at the end. -/
noncomputable def lyLoop (qr : ND ℂ → Py (ND ℂ × ND ℂ)) (conv : List (List ℝ) → Py ℝ) (thresh : Option ℝ)
    (jac : FMPS ℂ → Option (List (ND ℂ)) → Py (ND ℂ × List (ND ℂ))) (evolve : FMPS ℂ → Py (FMPS ℂ)) (dt : ℝ) :
    ℕ → ℕ → FMPS ℂ → Option (List (ND ℂ)) → LyAcc → Py (LyAcc × ℕ)
  | 0, n, _, _, a => .ok (a, n - 1)
  | k + 1, n, x, old, a => do
    let (J, vs) ← jac x old
    let a ← lyStep qr conv J dt n a
    if lyStop thresh a then .ok (a, n) else do
      let y ← evolve x
      lyLoop qr conv thresh jac evolve dt k (n + 1) y (some vs) a

/-- the step of time, `T[1]-T[0]` -/
def lyDt (T : List ℝ) : Py ℝ := do
  let t1 ← pyGet T 1
  let t0 ← pyGet T 0
  .ok (t1 - t0)

/-- `fTDVP.py:316-404` `lyapunov(T, initial_basis=Q, ..)` with `D=None` on a trajectory without attributes `Q`, `lys`: `exps`, `lys`, `exps_`, `lys_`.
`T` is a numpy array, so that `exps[..]/dt` is one. -/
noncomputable def lyapunov (qr : ND ℂ → Py (ND ℂ × ND ℂ)) (conv : List (List ℝ) → Py ℝ) (thresh : Option ℝ)
    (jac : FMPS ℂ → Option (List (ND ℂ)) → Py (ND ℂ × List (ND ℂ))) (evolve : FMPS ℂ → Py (FMPS ℂ)) (x : FMPS ℂ) (Q : ND ℂ) (T : List ℝ) (k : ℕ) :
    Py (List (List ℝ) × List (List ℝ) × List (List ℝ) × List (List ℝ)) := do
  let dt ← lyDt T
  let (a, n) ← lyLoop qr conv thresh jac evolve dt T.length 0 x none ⟨Q, Q, [], [[0]], [], [[0]], []⟩
  let cut (l : List (List ℝ)) := ((l.drop (k + 1)).take (n + 2 - (k + 1))).map fun e => e.map fun t => t / dt
  .ok (cut a.exps, a.lys, cut a.expsB, a.lysB)

/-- `norm(q)` of a vector -/
noncomputable def normV (q : ND ℂ) : ℝ := Real.sqrt (∑ i ∈ Finset.range (q.dim 0), ‖q.val [i]‖ ^ 2)

/-- `fTDVP.py:345-348`, `371-387`: the loop for `just_max=True`: the vector and `lys` -/
noncomputable def lyMaxLoop (jac : FMPS ℂ → Option (List (ND ℂ)) → Py (ND ℂ × List (ND ℂ))) (evolve : FMPS ℂ → Py (FMPS ℂ)) (dt : ℝ) :
    ℕ → FMPS ℂ → Option (List (ND ℂ)) → ND ℂ → Py (ND ℂ × List ℝ)
  | 0, _, _, q => .ok (q, [])
  | k + 1, x, old, q => do
    let (J, vs) ← jac x old
    let q ← expmMul (J.smul (dt : ℂ)) q
    let ly := Real.log |normV q|
    let q := q.smul (((normV q)⁻¹ : ℝ) : ℂ)
    let y ← evolve x
    let (q, lys) ← lyMaxLoop jac evolve dt k y (some vs) q
    .ok (q, ly :: lys)

/-- `Q[0]`: the first row -/
def row0 (Q : ND ℂ) : Py (ND ℂ) :=
  match Q.shape with
  | [m, n] => if 0 < m then .ok ⟨[n], fun idx => Q.val (0 :: idx)⟩ else .error .indexError
  | _ => .error .indexError

/-- `fTDVP.py:316-404` `lyapunov(T, initial_basis=Q, just_max=True)`: `exps`, `lys`, `q`.  Nothing is appended to `exps`, which starts as `[array([0])]`. -/
noncomputable def lyapunovMax (jac : FMPS ℂ → Option (List (ND ℂ)) → Py (ND ℂ × List (ND ℂ))) (evolve : FMPS ℂ → Py (FMPS ℂ)) (x : FMPS ℂ) (Q : ND ℂ) (T : List ℝ)
    (k : ℕ) : Py (List (List ℝ) × List ℝ × ND ℂ) := do
  let q ← row0 Q
  let dt ← lyDt T
  let (q, lys) ← lyMaxLoop jac evolve dt T.length x none q
  let exps : List (List ℝ) := [[0]]
  .ok (((exps.drop (k + 1)).take (T.length - 1 + 2 - (k + 1))).map fun e => e.map fun t => t / dt, lys, q)

/-- `fTDVP.py:419-430`: the loop of `ts_int`: what is appended to `Ms` -/
noncomputable def tsLoop (jac : FMPS ℂ → Option (List (ND ℂ)) → Py (ND ℂ × List (ND ℂ))) (evolve : FMPS ℂ → Py (FMPS ℂ)) (dt : ℝ) :
    ℕ → FMPS ℂ → Option (List (ND ℂ)) → ND ℂ → Py (List (ND ℂ))
  | 0, _, _, _ => .ok []
  | k + 1, x, old, M => do
    let (J, vs) ← jac x old
    let M ← expmMat (J.smul (dt : ℂ)) M
    let y ← evolve x
    let Ms ← tsLoop jac evolve dt k y (some vs) M
    .ok (M :: Ms)

/-- `fTDVP.py:410-432` `ts_int(T)`: `Ms`; `evolve` is `invfree4` or `invfree`. -/
noncomputable def tsInt (jac : FMPS ℂ → Option (List (ND ℂ)) → Py (ND ℂ × List (ND ℂ))) (evolve : FMPS ℂ → Py (FMPS ℂ)) (x : FMPS ℂ) (T : List ℝ) :
    Py (List (ND ℂ)) := do
  let dt ← lyDt T
  let (J, _) ← jac x none
  let Q := eyeND (J.dim 0)
  let Ms ← tsLoop jac evolve dt T.length x none Q
  .ok (Q :: Ms)

end Tdvp

end Xmps
