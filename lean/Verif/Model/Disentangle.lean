import Verif.Model.Ncon
import Verif.Model.Imps
import Verif.Base.NpOps
import Mathlib.Analysis.SpecialFunctions.Complex.Log

/-!
# Model of `E2`, `renyi` and `renyi_2_disentangler` of `peps_tools.py`

`scipy.linalg.polar` and `numpy.linalg.qr` are parameters, the matrices of random numbers are a sequence `rnd`.  The two nested `while` loops of
`renyi_2_disentangler` are written as one loop over the same states (`go` and `m` say which loop the code is in); `fuel` bounds the number of rounds of
both, and running out of it is `diverges`.  The logarithm of 0 is 0 here and `-inf` in numpy; the argument is not 0 in the theorems.  The two `print`
lines are left out.
-/

namespace Xmps.Disent

open Xmps.Ncon

/-- `peps_tools.py:67-71` `E2(U, θ)` -/
def E2 (O : SetOrder) (U θ : ND ℂ) : Py (ND ℂ) := do
  let W ← U.tensordot θ [2, 3] [0, 1]
  ncon O (.many [U.conj, W, W.conj, W, W.conj]) (.nested [[7, 8, -1, -2], [7, 8, 1, 2], [3, -4, 4, 2], [3, 5, 4, 6], [-3, 5, 1, 6]])

/-- `peps_tools.py:74-75`: the trace under the logarithm of `renyi` -/
noncomputable def purity (O : SetOrder) (U θ : ND ℂ) : Py ℂ := do
  guardPy (θ.shape.length == 4) .valueError
  let n := θ.dim 0 * θ.dim 1
  let E ← E2 O U θ
  let R ← ncon O (.many [U, E]) (.nested [[-1, -2, 1, 2], [1, 2, -3, -4]])
  let M ← R.reshape [n, n]
  M.tr2

/-- `peps_tools.py:73-75` `renyi(U, θ)` -/
noncomputable def renyi (O : SetOrder) (U θ : ND ℂ) : Py ℝ := do
  let z ← purity O U θ
  .ok (-(Complex.log z).re)

/-- the variables of `renyi_2_disentangler` -/
structure St where
  U : ND ℂ
  Ss : List ℝ
  m : ℕ
  go : Bool
  /-- the number of random matrices drawn so far -/
  draws : ℕ

/-- `peps_tools.py:107` (and `:108`): `polar(E2(U.reshape(d1, d2, d1, d2), psi).reshape(d1*d2, d1*d2))[0]` -/
def polarStep (O : SetOrder) (polar : ND ℂ → Py (ND ℂ × ND ℂ)) (psi U : ND ℂ) : Py (ND ℂ) := do
  let U4 ← U.reshape [psi.dim 0, psi.dim 1, psi.dim 0, psi.dim 1]
  let E ← E2 O U4 psi
  let E' ← E.reshape [psi.dim 0 * psi.dim 1, psi.dim 0 * psi.dim 1]
  let (Unew, _) ← polar E'
  .ok Unew

/-- `peps_tools.py:114-116`: the new value of `go`; `Ss` is the list after the append -/
noncomputable def newGo (eps : ℝ) (m : ℕ) (go : Bool) (Ss : List ℝ) : Bool :=
  if m > 1 then decide (|Ss.getD (Ss.length - 2) 0 - Ss.getD (Ss.length - 1) 0| > eps) else go

/-- `peps_tools.py:107-117`: one round of the inner loop -/
noncomputable def innerRound (O : SetOrder) (polar : ND ℂ → Py (ND ℂ × ND ℂ)) (psi : ND ℂ) (eps : ℝ) (s : St) : Py St := do
  let U1 ← polarStep O polar psi s.U
  let U2 ← polarStep O polar psi U1
  let U4 ← U2.reshape [psi.dim 0, psi.dim 1, psi.dim 0, psi.dim 1]
  let S ← renyi O U4 psi
  .ok { U := U2, Ss := s.Ss ++ [S], m := s.m + 1, go := newGo eps s.m s.go (s.Ss ++ [S]), draws := s.draws }

/-- `H + H.conj().T` -/
noncomputable def addHc (H : ND ℂ) : ND ℂ := ⟨H.shape, fun idx => H.val idx + H.hc.val idx⟩

/-- `peps_tools.py:119-123`: the restart from a random unitary -/
noncomputable def restart (qr : ND ℂ → Py (ND ℂ × ND ℂ)) (rnd : ℕ → ND ℂ) (s : St) : Py St := do
  let (Q, _) ← qr (addHc (rnd s.draws))
  .ok { s with U := Q, m := 0, draws := s.draws + 1 }

/-- `peps_tools.py:105-125`: the loops -/
noncomputable def loop (O : SetOrder) (polar qr : ND ℂ → Py (ND ℂ × ND ℂ)) (rnd : ℕ → ND ℂ) (psi : ND ℂ) (eps : ℝ) (maxIter : ℕ) :
    ℕ → St → Py (ND ℂ × List ℝ)
  | 0, _ => .error .diverges
  | fuel + 1, s =>
    if s.m < maxIter ∧ s.go = true then do
      let s' ← innerRound O polar psi eps s
      loop O polar qr rnd psi eps maxIter fuel s'
    else if s.go = true then do
      let s' ← restart qr rnd s
      loop O polar qr rnd psi eps maxIter fuel s'
    else .ok (s.U, s.Ss)

/-- `peps_tools.py:95-127` `renyi_2_disentangler(psi, eps, max_iter)` -/
noncomputable def disentangler (O : SetOrder) (polar qr : ND ℂ → Py (ND ℂ × ND ℂ)) (rnd : ℕ → ND ℂ) (psi : ND ℂ) (eps : ℝ) (maxIter fuel : ℕ) :
    Py (ND ℂ × List ℝ) := do
  guardPy (psi.shape.length == 4) .valueError
  loop O polar qr rnd psi eps maxIter fuel ⟨eyeND (psi.dim 0 * psi.dim 1), [], 0, true, 0⟩

end Xmps.Disent
