import Mathlib.LinearAlgebra.Matrix.Trace
import Mathlib.Analysis.Real.Sqrt
import Mathlib.Analysis.SpecialFunctions.Trigonometric.Basic
import Verif.Base.Py

/-!
# Model of the spin matrices and of the generators of su(N) (`xmps/spin.py`)

Square arrays are Mathlib matrices; `@` is the matrix product.  A spin `S` is given by `n = 2 S`, a
natural number: the ranges `arange(j-1, -j-1, -1)` and `arange(j, -j, -1)` then have `n` elements, exactly
representable as floats.  Other values of `S` are not modelled.
-/

namespace Xmps.Spin

open Matrix

/-! ### `Nsphere` -/

/-- `spin.py:25-27` `cs(v)`; an empty `v` does not occur. -/
noncomputable def cs (v : List ℝ) : ℝ := ((v.dropLast.map Real.sin) ++ (v.getLast?.toList.map Real.cos)).prod

/-- `spin.py:28-30` `ss(v)`. -/
noncomputable def ss (v : List ℝ) : ℝ := (v.map Real.sin).prod

/-- `spin.py:22-24` `sts(v)`. -/
def sts (v : List ℝ) : List (List ℝ) := (List.range' 1 v.length).map fun b => v.take b

/-- `spin.py:20-31` `Nsphere(v)`. -/
noncomputable def nsphere (v : List ℝ) : List ℝ := (sts v).map cs ++ [ss v]

/-! ### spin matrices -/

/-- `numpy.diag(v, 1)` for a list of `n` numbers. -/
noncomputable def diagUp (n : ℕ) (v : List ℝ) : Matrix (Fin (n + 1)) (Fin (n + 1)) ℂ :=
  fun a b => if b.val = a.val + 1 then (v.getD a.val 0 : ℝ) else 0

/-- `numpy.diag(v, -1)` for a list of `n` numbers. -/
noncomputable def diagDown (n : ℕ) (v : List ℝ) : Matrix (Fin (n + 1)) (Fin (n + 1)) ℂ :=
  fun a b => if a.val = b.val + 1 then (v.getD b.val 0 : ℝ) else 0

/-- `spin.py:207` `Cp` -/
noncomputable def Cp (j m : ℝ) : ℝ := Real.sqrt ((j - m) * (j + m + 1))

/-- `spin.py:208` `Cm` -/
noncomputable def Cm (j m : ℝ) : ℝ := Real.sqrt ((j + m) * (j - m + 1))

/-- `spin.py:209` `Sp` with `j = n/2` -/
noncomputable def Sp (n : ℕ) : Matrix (Fin (n + 1)) (Fin (n + 1)) ℂ :=
  diagUp n ((List.range n).map fun i : ℕ => Cp (n / 2) (n / 2 - 1 - i))

/-- `spin.py:210` `Sm` -/
noncomputable def Sm (n : ℕ) : Matrix (Fin (n + 1)) (Fin (n + 1)) ℂ :=
  diagDown n ((List.range n).map fun i : ℕ => Cm (n / 2) (n / 2 - i))

/-- `spin.py:212` `Sx` -/
noncomputable def Sx (n : ℕ) : Matrix (Fin (n + 1)) (Fin (n + 1)) ℂ := (2 : ℂ)⁻¹ • (Sp n + Sm n)

/-- `spin.py:213` `Sy` -/
noncomputable def Sy (n : ℕ) : Matrix (Fin (n + 1)) (Fin (n + 1)) ℂ := (2 * Complex.I)⁻¹ • (Sp n - Sm n)

/-- `spin.py:214` `Sz` -/
noncomputable def Sz (n : ℕ) : Matrix (Fin (n + 1)) (Fin (n + 1)) ℂ :=
  fun a b => if a = b then (((n : ℝ) / 2 - a.val : ℝ) : ℂ) else 0

/-- `spin.py:150-216` `spins(S)` -/
noncomputable def spins (n : ℕ) : Matrix (Fin (n + 1)) (Fin (n + 1)) ℂ × Matrix (Fin (n + 1)) (Fin (n + 1)) ℂ ×
    Matrix (Fin (n + 1)) (Fin (n + 1)) ℂ := (Sx n, Sy n, Sz n)

/-- `spin.py:252-254` `paulis(S)`: the argument is ignored. -/
noncomputable def paulis (_S : ℕ) : Matrix (Fin 2) (Fin 2) ℂ × Matrix (Fin 2) (Fin 2) ℂ × Matrix (Fin 2) (Fin 2) ℂ :=
  ((2 : ℂ) • (spins 1).1, (2 : ℂ) • (spins 1).2.1, (2 : ℂ) • (spins 1).2.2)

/-- `spin.py:291-292` `comm` -/
def comm {m : ℕ} (A B : Matrix (Fin m) (Fin m) ℂ) : Matrix (Fin m) (Fin m) ℂ := A * B - B * A

/-- `spin.py:225-249` `ladder(S, 1)`: a table for S = 1/2, 1, 3/2; `None` otherwise. -/
noncomputable def ladderUp : (n : ℕ) → Option (Matrix (Fin (n + 1)) (Fin (n + 1)) ℂ)
  | 1 => some !![0, 1; 0, 0]
  | 2 => some ((Real.sqrt 2 : ℂ) • !![0, 1, 0; 0, 0, 1; 0, 0, 0])
  | 3 => some !![0, (Real.sqrt 3 : ℂ), 0, 0; 0, 0, 2, 0; 0, 0, 0, (Real.sqrt 3 : ℂ); 0, 0, 0, 0]
  | _ => none

/-- `spin.py:225-249` `ladder(S, -1)` -/
noncomputable def ladderDown : (n : ℕ) → Option (Matrix (Fin (n + 1)) (Fin (n + 1)) ℂ)
  | 1 => some !![0, 0; 1, 0]
  | 2 => some ((Real.sqrt 2 : ℂ) • !![0, 0, 0; 1, 0, 0; 0, 1, 0])
  | 3 => some !![0, 0, 0, 0; (Real.sqrt 3 : ℂ), 0, 0, 0; 0, 2, 0, 0; 0, 0, (Real.sqrt 3 : ℂ), 0]
  | _ => none

/-- `spin.py:218-250` `ladders(S)`: the order is `[S_-, S_+]`. -/
noncomputable def ladders (n : ℕ) : List (Option (Matrix (Fin (n + 1)) (Fin (n + 1)) ℂ)) := [ladderDown n, ladderUp n]

/-! ### su(N) -/

/-- `spin.py:538-539` -/
def suSym (N i j : ℕ) : Matrix (Fin N) (Fin N) ℂ :=
  fun a b => if (a.val = i ∧ b.val = j) ∨ (a.val = j ∧ b.val = i) then 1 else 0

/-- `spin.py:541` -/
noncomputable def suAnti (N i j : ℕ) : Matrix (Fin N) (Fin N) ℂ :=
  fun a b => if a.val = i ∧ b.val = j then -Complex.I else if a.val = j ∧ b.val = i then Complex.I else 0

/-- `spin.py:544-547`: before normalisation -/
def suDiag0 (N i : ℕ) : Matrix (Fin N) (Fin N) ℂ :=
  fun a b => if a = b then (if a.val < i then 1 else if a.val = i then -(i : ℂ) else 0) else 0

/-- `spin.py:548` -/
noncomputable def suDiag (N i : ℕ) : Matrix (Fin N) (Fin N) ℂ :=
  (((Real.sqrt 2 / Real.sqrt (∑ a : Fin N, ‖suDiag0 N i a a‖ ^ 2) : ℝ)) : ℂ) • suDiag0 N i

/-- `spin.py:531-552` `su(N)` -/
noncomputable def su (N : ℕ) : List (Matrix (Fin N) (Fin N) ℂ) :=
  ((List.range N).flatMap fun i => (List.range i).flatMap fun j => [suSym N i j, suAnti N i j]) ++
    (List.range' 1 (N - 1)).map (suDiag N)

/-- `spin.py:597-601` `components(Q)` -/
noncomputable def components {N : ℕ} (Q : Matrix (Fin N) (Fin N) ℂ) : List ℂ := (su N).map fun u => trace (Q * u) / 2

end Xmps.Spin
