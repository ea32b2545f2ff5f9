import Verif.Model.Structure

/-!
# Model of `xmps/fTDVP.py` and `xmps/iTDVP.py`: time steps, the `Trajectory` bookkeeping, run directories

`dA_dt` and the canonicalisations are parameters.
-/

namespace Xmps.Tdvp

variable {K : Type}

/-! ### one step -/

/-- `fTDVP.py:69-74` `euler` (without the bookkeeping): `f` is `dA_dt`, `canon` is `left_canonicalise(mps.D)`. -/
def euler [Add K] [Mul K] (f canon : FMPS K → Py (FMPS K)) (mps : FMPS K) (dt : K) : Py (FMPS K) := do
  let k ← f mps
  let k ← k.mulItem dt
  let y ← mps.addItem k
  canon y

/-- `fTDVP.py:76-86` `rk4` (without the bookkeeping): `f` is `dA_dt`, `canon` is `left_canonicalise()`. -/
def rk4 [Field K] (f canon : FMPS K → Py (FMPS K)) (mps : FMPS K) (dt : K) : Py (FMPS K) := do
  let k1 ← (← f mps).mulItem dt
  let k2 ← (← f (← mps.addItem (← k1.truediv 2))).mulItem dt
  let k3 ← (← f (← mps.addItem (← k2.truediv 2))).mulItem dt
  let k4 ← (← f (← mps.addItem k3)).mulItem dt
  let s ← k1.addItem (← k2.mulItem 2)
  let s ← s.addItem (← k3.mulItem 2)
  let s ← s.addItem k4
  canon (← mps.addItem (← s.truediv 6))

/-- `iTDVP.py:65-75` `rk4` (without the bookkeeping).  The arithmetic of `iMPS` (`iMPS.py:213-252`) is the itemwise
arithmetic of `fMPS`. -/
def rk4i [Field K] (f canon : FMPS K → Py (FMPS K)) (mps : FMPS K) (dt : K) : Py (FMPS K) := do
  let k1 ← f mps
  let k2 ← f (← mps.addItem (← (← k1.truediv 2).mulItem dt))
  let k3 ← (← f (← mps.addItem (← (← k2.truediv 2).mulItem dt))).mulItem dt
  let k4 ← f (← mps.addItem (← k3.mulItem dt))
  let s ← k1.addItem (← k2.mulItem 2)
  let s ← s.addItem (← k3.mulItem 2)
  let s ← s.addItem k4
  canon (← mps.addItem (← (← s.mulItem dt).truediv 6))

/-! ### the trajectory -/

/-- The attributes `mps_0`, `mps`, `Ds`, `mps_history` of `Trajectory`. -/
structure Traj where
  mps0 : FMPS ℂ
  mps : FMPS ℂ
  Ds : List ℕ
  history : List (List ℝ)

/-- `fTDVP.py:49-67` `__init__`. -/
def Traj.new (mps0 : FMPS ℂ) : Traj := ⟨mps0, mps0, [mps0.D], []⟩

/-- `fTDVP.py:71-73`, `78-80`, ...: the bookkeeping of one step, for a state `mps`. -/
def record (tr : Traj) (mps : FMPS ℂ) : Py Traj := do
  let v ← mps.serializeReal
  .ok { tr with history := tr.history ++ [v], Ds := tr.Ds ++ [mps.D] }

/-- `for t in T: mps = self.step(mps, T[1]-T[0])`; the third component is the list of states that were passed to the
step (not in the code; it is what the history is compared with). -/
noncomputable def loop (step : FMPS ℂ → ℝ → Py (FMPS ℂ)) (T : List ℝ) : List ℝ → Traj → FMPS ℂ → Py (Traj × FMPS ℂ × List (FMPS ℂ))
  | [], tr, mps => .ok (tr, mps, [])
  | _ :: ts, tr, mps => do
    let t1 ← pyGet T 1
    let t0 ← pyGet T 0
    let tr ← record tr mps
    let mps' ← step mps (t1 - t0)
    let r ← loop step T ts tr mps'
    .ok (r.1, r.2.1, mps :: r.2.2)

/-- `fTDVP.py:117-129` `eulerint`, `131-143` `rk4int`, `145-166` `invfreeint`. -/
noncomputable def integrate (step : FMPS ℂ → ℝ → Py (FMPS ℂ)) (canon : FMPS ℂ → Py (FMPS ℂ)) (T : List ℝ) (tr : Traj) :
    Py (Traj × List (FMPS ℂ)) := do
  let mps ← canon tr.mps
  let r ← loop step T T tr mps
  let last ← FMPS.pyLast r.1.history
  let y ← FMPS.deserializeReal last (some mps.L) (some mps.d) (some mps.D) none
  .ok ({ r.1 with mps := y }, r.2.2)

/-- `self.Ds[-1] = D` -/
def setLast (l : List ℕ) (D : ℕ) : Py (List ℕ) := if l = [] then .error .indexError else .ok (l.dropLast ++ [D])

/-- `fTDVP.py:168-171` `expand`, `181-184` `contract`; `resize` is `mps.expand` or `mps.left_canonicalise`, both act in place. -/
def resizeTo (resize : ℕ → FMPS ℂ → Py (FMPS ℂ)) (D : ℕ) (tr : Traj) : Py Traj := do
  let mps ← resize D tr.mps
  let Ds ← setLast tr.Ds D
  .ok { tr with mps := mps, Ds := Ds }

/-- `fTDVP.py:575-579` `clear` (`lys` is not modelled). -/
def clear (tr : Traj) : Traj := { tr with history := [], mps := tr.mps0 }

/-- `fTDVP.py:487-495` `mps_list` without an exact-diagonalisation history. -/
noncomputable def mpsList (tr : Traj) : Py (List (FMPS ℂ)) := do
  guardPy (!tr.history.isEmpty) .assertionError
  (tr.Ds.zip tr.history).mapM fun (p : ℕ × List ℝ) => FMPS.deserializeReal p.2 (some tr.mps.L) (some tr.mps.d) (some p.1) none

/-- What a user does with a trajectory. -/
inductive Ev where
  | integrate (T : List ℝ)
  | resize (which : Bool) (D : ℕ)
  | clear

/-- A sequence of operations; the second component lists the states integrated since the last `clear`. -/
noncomputable def runEvs (step : FMPS ℂ → ℝ → Py (FMPS ℂ)) (canon : FMPS ℂ → Py (FMPS ℂ)) (resize : Bool → ℕ → FMPS ℂ → Py (FMPS ℂ)) :
    List Ev → Traj × List (FMPS ℂ) → Py (Traj × List (FMPS ℂ))
  | [], s => .ok s
  | .integrate T :: evs, s => do
    let r ← integrate step canon T s.1
    runEvs step canon resize evs (r.1, s.2 ++ r.2)
  | .resize w D :: evs, s => do
    let tr ← resizeTo (resize w) D s.1
    runEvs step canon resize evs (tr, s.2)
  | .clear :: evs, s => runEvs step canon resize evs (clear s.1, [])

/-! ### run directories -/

/-- A decimal digit character, `int(x)`: `ValueError` for anything else. -/
def digit (c : Char) : Py ℕ := if c.isDigit then .ok (c.toNat - '0'.toNat) else .error .valueError

/-- `x[:-2]` -/
def dropLast2 (x : List Char) : List Char := x.dropLast.dropLast

/-- `max(l)` -/
def maxNat : List ℕ → Py ℕ := pyMax

/-- `fTDVP.py:603-615`: the choice of the directory in `stop`, and `os.makedirs`.  The file system is the list of
existing directories under `loc`, names relative to the path prefix; `glob(run_dir + '_*')` returns the ones that
start with `run_dir_` (names without glob metacharacters). -/
def stopDir (dirs : List (List Char)) (run : List Char) : Py (List Char × List (List Char)) := do
  let found := dirs.filter fun x => (run ++ ['_']).isPrefixOf x
  let name ←
    if run ∉ found.map dropLast2 then (.ok (run ++ ['_', '1']) : Py (List Char))
    else do
      let ns ← found.mapM fun x => do
        let c ← pyGetI x (-1)
        digit c
      let n ← maxNat ns
      .ok (run ++ ['_'] ++ Nat.toDigits 10 (n + 1))
  guardPy (name ∉ dirs) .fileExists
  .ok (name, dirs ++ [name])

/-- `stop` called `n` times. -/
def stops (run : List Char) : ℕ → List (List Char) → Py (List (List Char) × List (List Char))
  | 0, dirs => .ok ([], dirs)
  | n + 1, dirs => do
    let r ← stopDir dirs run
    let rs ← stops run n r.2
    .ok (r.1 :: rs.1, rs.2)

end Xmps.Tdvp
