import Verif.Model.ExactDiag
import Verif.Model.ExpectCanon
import Verif.Model.Envs
import Mathlib.Analysis.SpecialFunctions.Complex.Log

/-!
# Model of what `xmps/fTDVP.py` reads off a trajectory: `schmidts`, `loschmidt`, `von_neumann`, `renyi`, `mps_evs`, `mps_energies`

`ed` is the attribute `ed_history` (`none` if `edint` has not run).
-/

namespace Xmps.Tdvp

open Xmps.Ncon

/-- `diag(A)` of a matrix: the vector on its diagonal -/
def diagVec (A : ND ℂ) : List ℂ := (List.range (min (A.dim 0) (A.dim 1))).map fun i => A.val [i, i]

/-- `fTDVP.py:533`, `540`: `[diag(x) for x in mps.left_canonicalise().Ls]` -/
noncomputable def schmidtRow (svd : Svd) (eig : Eig) (x : FMPS ℂ) : Py (List (List ℂ)) := do
  let r ← x.leftCanonicalise svd eig
  match r.2 with
  | none => .error .attributeError
  | some Ls => .ok (Ls.map diagVec)

/-- `fTDVP.py:531-532`: the chain of an entry of `ed_history` -/
noncomputable def edChain (svd : Svd) (tr : Traj) (x : ND ℂ) : Py (FMPS ℂ) := do
  let state ← x.reshape (List.replicate tr.mps.L tr.mps.d)
  let y ← FMPS.leftFromState svd state
  .ok y.1

/-- `fTDVP.py:539`: the chain of an entry of `mps_history` -/
noncomputable def histChain (tr : Traj) (p : ℕ × List ℝ) : Py (FMPS ℂ) :=
  FMPS.deserializeReal p.2 (some tr.mps.L) (some tr.mps.d) (some p.1) none

/-- `fTDVP.py:525-541` `schmidts()` -/
noncomputable def schmidts (svd : Svd) (eig : Eig) (tr : Traj) (ed : Option (List (ND ℂ))) : Py (List (List (List ℂ))) :=
  match ed with
  | some l => l.mapM fun x => do
      let mps ← edChain svd tr x
      schmidtRow svd eig mps
  | none => do
      guardPy (!tr.history.isEmpty) .assertionError
      (tr.Ds.zip tr.history).mapM fun (p : ℕ × List ℝ) => do
        let mps ← histChain tr p
        schmidtRow svd eig mps

/-- `fTDVP.py:550-559`: the second branch of `loschmidt()`.  All entries are read with the bond dimension the trajectory has now. -/
noncomputable def loschmidtHist (O : SetOrder) (tr : Traj) : Py (List ℝ) := do
  guardPy (!tr.history.isEmpty) .assertionError
  let v0 ← pyGet tr.history 0
  let psi0 ← histChain tr (tr.mps.D, v0)
  tr.history.mapM fun v => do
    let psi ← histChain tr (tr.mps.D, v)
    let o ← psi0.overlap O psi
    .ok ‖o.val []‖

/-- `fTDVP.py:543-559` `loschmidt()`: overlaps, or (after `edint`) whatever `schmidts` returns. -/
noncomputable def loschmidt (svd : Svd) (eig : Eig) (O : SetOrder) (tr : Traj) (ed : Option (List (ND ℂ))) :
    Py (List (List (List ℂ)) ⊕ List ℝ) :=
  match ed with
  | some l => do
      let s ← schmidts svd eig tr (some l)
      .ok (.inl s)
  | none => do
      let l ← loschmidtHist O tr
      .ok (.inr l)

/-- the nested list is rectangular -/
def rectangular (rows : List (List (List ℂ))) : Bool :=
  match rows with
  | [] => true
  | r :: _ => rows.all fun r' => r'.length == r.length &&
    match r with
    | [] => true
    | s :: _ => r'.all fun s' => s'.length == s.length

/-- `numpy.array(rows)`: from numpy 1.24 on (`strict`) nested lists that are not rectangular are refused with a `ValueError`; before that the
result is an array of objects, over which the loops below run in the same way. -/
def npArray (strict : Bool) (rows : List (List (List ℂ))) : Py (List (List (List ℂ))) :=
  if strict && !rectangular rows then .error .valueError else .ok rows

/-- `max` of a list of floats (`numpy.max`: `ValueError` for an empty list) -/
noncomputable def maxR : List ℝ → Py ℝ
  | [] => .error .valueError
  | a :: l => .ok (l.foldl max a)

/-- `-re(s@log(s))` -/
noncomputable def vnEntropy (s : List ℂ) : ℝ := -((s.map fun x => x * Complex.log x).sum).re

/-- `fTDVP.py:561-564` `von_neumann()` -/
noncomputable def vonNeumann (strict : Bool) (svd : Svd) (eig : Eig) (tr : Traj) (ed : Option (List (ND ℂ))) : Py (List ℝ) := do
  let rows ← schmidts svd eig tr ed
  let sch ← npArray strict rows
  sch.mapM fun S => maxR (S.map vnEntropy)

/-- `numpy.max` of two complex numbers: by real part, then by imaginary part -/
noncomputable def maxC (a b : ℂ) : ℂ := open Classical in if a.re < b.re ∨ (a.re = b.re ∧ a.im < b.im) then b else a

/-- `max` of a list of complex numbers -/
noncomputable def maxCs : List ℂ → Py ℂ
  | [] => .error .valueError
  | a :: l => .ok (l.foldl maxC a)

/-- `1/(1-α)*log(sum(s**α))` for an integer `α`; `1/0` of Python numbers raises (`ZeroDivisionError`, here `exception`). -/
noncomputable def renyiEntropy (α : ℕ) (s : List ℂ) : Py ℂ :=
  if α = 1 then .error .exception else .ok (1 / (1 - (α : ℂ)) * Complex.log (s.map fun x => x ^ α).sum)

/-- `fTDVP.py:566-569` `renyi(α)` -/
noncomputable def renyi (strict : Bool) (svd : Svd) (eig : Eig) (tr : Traj) (ed : Option (List (ND ℂ))) (α : ℕ) : Py (List ℂ) := do
  let rows ← schmidts svd eig tr ed
  let sch ← npArray strict rows
  sch.mapM fun S => do
    let l ← S.mapM (renyiEntropy α)
    maxCs l

/-- `fTDVP.py:504-506`: `mps_evs(ops, site)` on a trajectory with a `mps_history`. -/
noncomputable def mpsEvs (svd : Svd) (eig : Eig) (tr : Traj) (ops : List (ND ℂ)) (site : ℕ) : Py (List (List ℝ)) := do
  guardPy (!tr.history.isEmpty) .assertionError
  (tr.Ds.zip tr.history).mapM fun (p : ℕ × List ℝ) => do
    let mps ← histChain tr p
    let r ← mps.Es svd eig ops site
    .ok r.1

/-- `mps.energy(self.H, fullH=self.fullH)` -/
noncomputable def energyOf (O : SetOrder) (H : EdH) (y : FMPS ℂ) : Py ℝ :=
  match H with
  | .terms hs => y.energy O hs
  | .full h => y.energyFull O h

/-- `fTDVP.py:508-511` `mps_energies()` -/
noncomputable def mpsEnergies (svd : Svd) (eig : Eig) (O : SetOrder) (H : EdH) (tr : Traj) : Py (List ℝ) := do
  guardPy (!tr.history.isEmpty) .assertionError
  let l ← mpsList tr
  l.mapM fun x => do
    let r ← x.leftCanonicalise svd eig
    energyOf O H r.1

end Xmps.Tdvp
