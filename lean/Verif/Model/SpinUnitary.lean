import Mathlib.Analysis.Normed.Algebra.MatrixExponential
import Mathlib.LinearAlgebra.Matrix.Kronecker
import Mathlib.Analysis.SpecialFunctions.Complex.Arg
import Verif.Model.SpinOps
import Verif.Model.Gates

/-!
# Model of the parametrised unitaries of `xmps/spin.py` (lines 388-618)

Square arrays are pairs of a size and a Mathlib matrix (`Sq`), so that shape errors are visible.  `scipy.sparse.linalg.expm` is the
exponential of Mathlib.  `U1` and `U2` (`spin.py:509-517`) are not modelled: they subscript the function `locals` and raise `TypeError`
for every argument.
-/

namespace Xmps.Spin

open Matrix

/-- A square complex array. -/
abbrev Sq := Σ n : ℕ, Matrix (Fin n) (Fin n) ℂ

/-- `A @ B`: `ValueError` if the sizes differ. -/
noncomputable def Sq.mul (A B : Sq) : Py Sq := if h : B.1 = A.1 then .ok ⟨A.1, A.2 * (h ▸ B.2)⟩ else .error .valueError

/-- `numpy.kron` of two square matrices. -/
def kronF {m n : ℕ} (A : Matrix (Fin m) (Fin m) ℂ) (B : Matrix (Fin n) (Fin n) ℂ) : Matrix (Fin (m * n)) (Fin (m * n)) ℂ :=
  fun a b => A a.divNat b.divNat * B a.modNat b.modNat

/-- `numpy.kron` -/
def Sq.kron (A B : Sq) : Sq := ⟨A.1 * B.1, kronF A.2 B.2⟩

/-- `numpy.eye(n)` -/
def Sq.eye (n : ℕ) : Sq := ⟨n, 1⟩

/-- `tensordot(v, gens, [0, 0])`: `ValueError` if the lengths differ. -/
noncomputable def tdot {n : ℕ} (v : List ℂ) (gens : List (Matrix (Fin n) (Fin n) ℂ)) : Py (Matrix (Fin n) (Fin n) ℂ) :=
  if v.length = gens.length then .ok (List.zipWith (· • ·) v gens).sum else .error .valueError

/-- `expm(-1j*tensordot(v, gens, [0, 0]))` -/
noncomputable def expGen {n : ℕ} (v : List ℂ) (gens : List (Matrix (Fin n) (Fin n) ℂ)) : Py (Matrix (Fin n) (Fin n) ℂ) := do
  let Q ← tdot v gens
  .ok (NormedSpace.exp ((-Complex.I) • Q))

/-! ### generators -/

/-- `numpy.block([[A, O], [O, O]])` for 2 × 2 blocks. -/
def blockUL (A : Matrix (Fin 2) (Fin 2) ℂ) : Matrix (Fin 4) (Fin 4) ℂ :=
  !![A 0 0, A 0 1, 0, 0; A 1 0, A 1 1, 0, 0; 0, 0, 0, 0; 0, 0, 0, 0]

/-- `spin.py:388-449` `lambdas()` (the default spin 1/2; any other value raises `NotImplementedError`). -/
noncomputable def lambdas : List (Matrix (Fin 4) (Fin 4) ℂ) :=
  let i := Complex.I
  [blockUL (paulis 1).1,
   blockUL (paulis 1).2.1,
   blockUL (paulis 1).2.2,
   !![0, 0, 1, 0; 0, 0, 0, 0; 1, 0, 0, 0; 0, 0, 0, 0],
   !![0, 0, -i, 0; 0, 0, 0, 0; i, 0, 0, 0; 0, 0, 0, 0],
   !![0, 0, 0, 0; 0, 0, 1, 0; 0, 1, 0, 0; 0, 0, 0, 0],
   !![0, 0, 0, 0; 0, 0, -i, 0; 0, i, 0, 0; 0, 0, 0, 0],
   ((1 / Real.sqrt 3 : ℝ) : ℂ) • !![1, 0, 0, 0; 0, 1, 0, 0; 0, 0, -2, 0; 0, 0, 0, 0],
   !![0, 0, 0, 1; 0, 0, 0, 0; 0, 0, 0, 0; 1, 0, 0, 0],
   !![0, 0, 0, -i; 0, 0, 0, 0; 0, 0, 0, 0; i, 0, 0, 0],
   !![0, 0, 0, 0; 0, 0, 0, 1; 0, 0, 0, 0; 0, 1, 0, 0],
   !![0, 0, 0, 0; 0, 0, 0, -i; 0, 0, 0, 0; 0, i, 0, 0],
   !![0, 0, 0, 0; 0, 0, 0, 0; 0, 0, 0, 1; 0, 0, 1, 0],
   !![0, 0, 0, 0; 0, 0, 0, 0; 0, 0, 0, -i; 0, 0, i, 0],
   ((1 / Real.sqrt 6 : ℝ) : ℂ) • !![1, 0, 0, 0; 0, 1, 0, 0; 0, 0, 1, 0; 0, 0, 0, -3]]

/-- `spin.py:451-470` `slambdas()` (the default spin 1/2; any other value raises `NotImplementedError`). -/
noncomputable def slambdas : List (Matrix (Fin 4) (Fin 4) ℂ) :=
  let x := (paulis 1).1
  let y := (paulis 1).2.1
  let z := (paulis 1).2.2
  let i : Matrix (Fin 2) (Fin 2) ℂ := 1
  [kronF x x, kronF y y, kronF z z, kronF x y + kronF y x, kronF x z + kronF z x, kronF y z + kronF z y,
    kronF x i + kronF i x, kronF y i + kronF i y, kronF z i + kronF i z]

/-- `spin.py:502-507` `locals()` -/
noncomputable def localSpinors : List (Matrix (Fin 4) (Fin 4) ℂ) :=
  let i : Matrix (Fin 2) (Fin 2) ℂ := 1
  [kronF i (spins 1).1, kronF i (spins 1).2.1, kronF i (spins 1).2.2, kronF (spins 1).1 i, kronF (spins 1).2.1 i, kronF (spins 1).2.2 i]

/-! ### two spinors -/

/-- `n_body(op, 1, 2)` (`spin.py:130-148`) of a 2 × 2 matrix -/
def onFirst (A : Matrix (Fin 2) (Fin 2) ℂ) : Matrix (Fin 4) (Fin 4) ℂ := kronF A (1 : Matrix (Fin 2) (Fin 2) ℂ)

/-- `n_body(op, 2, 2)` -/
def onSecond (A : Matrix (Fin 2) (Fin 2) ℂ) : Matrix (Fin 4) (Fin 4) ℂ := kronF (1 : Matrix (Fin 2) (Fin 2) ℂ) A

/-- `spin.py:480-489` `antiferro()`: `ladders` returns `[S_-, S_+]`, so `sp1` is the lowering operator of the first spin. -/
noncomputable def antiferro : List (Matrix (Fin 4) (Fin 4) ℂ) :=
  match ladders 1 with
  | [some p, some m] =>
    let sp1 := onFirst p
    let sm1 := onFirst m
    let sp2 := onSecond p
    let sm2 := onSecond m
    [sp1 * sm2 + sm1 * sp2, (-Complex.I) • (sp1 * sm2 - sm1 * sp2), -(onFirst (Sz 1) - onSecond (Sz 1))]
  | _ => []

/-- `spin.py:491-500` `ferro()` -/
noncomputable def ferro : List (Matrix (Fin 4) (Fin 4) ℂ) :=
  match ladders 1 with
  | [some p, some m] =>
    let sp1 := onFirst p
    let sm1 := onFirst m
    let sp2 := onSecond p
    let sm2 := onSecond m
    [sp1 * sp2 + sm1 * sm2, Complex.I • (sp1 * sp2 - sm1 * sm2), (2 : ℂ)⁻¹ • (onFirst (Sz 1) + onSecond (Sz 1))]
  | _ => []

/-! ### unitaries -/

/-- `spin.py:519-523` `U4(v)` -/
noncomputable def U4 (v : List ℂ) : Py (Matrix (Fin 4) (Fin 4) ℂ) := expGen v lambdas

/-- `spin.py:525-528` `U4s(v)` -/
noncomputable def U4s (v : List ℂ) : Py (Matrix (Fin 4) (Fin 4) ℂ) := expGen v slambdas

/-- `spin.py:554-556` `SU4(v)` -/
noncomputable def SU4 (v : List ℂ) : Py (Matrix (Fin 4) (Fin 4) ℂ) := expGen v (su 4)

/-- `spin.py:558-560` `SU8(v)` -/
noncomputable def SU8 (v : List ℂ) : Py (Matrix (Fin 8) (Fin 8) ℂ) := expGen v (su 8)

/-- the argument `where` of `insu2N`; `other` is any other string -/
inductive Where | left | mid | right | other

/-- `reduce(kron, [eye(2)]*(k) + [swap()])` (`spin.py:574`), `k = n_qubits - 1` -/
noncomputable def swapEnd (k : ℕ) : Sq := match List.replicate k (Sq.eye 2) ++ [(⟨4, Gates.swap⟩ : Sq)] with
  | [] => ⟨0, 0⟩
  | A :: As => As.foldl Sq.kron A

/-- `spin.py:570-580` `expand(X, where)`; with another string the function returns `None` and the product of the caller raises
`TypeError`. -/
noncomputable def expandGen (nQubits : ℕ) (X : Sq) : Where → Py Sq
  | .mid => do
    let S12 := swapEnd (nQubits - 1)
    let Y ← S12.mul (X.kron (Sq.eye 2))
    Y.mul S12
  | .right => .ok (X.kron (Sq.eye 2))
  | .left => .ok ((Sq.eye 2).kron X)
  | .other => .error .typeError

/-- `spin.py:586` -/
noncomputable def gammaEntry (U V : Sq) : Py ℂ := do
  let W ← U.mul V
  .ok (trace W.2 / 2)

/-- `spin.py:582-586`: the array `γ`, row by row -/
noncomputable def gammaRows (n : ℕ) (wh : Where) : Py (List (List ℂ)) :=
  (su n).mapM fun X => do
    let Ui ← expandGen (Nat.log 2 n) ⟨n, X⟩ wh
    (su (2 * n)).mapM fun Vj => gammaEntry Ui ⟨2 * n, Vj⟩

/-- `spin.py:562-587` `insu2N(v, where)`; `int(sqrt(len(v)+1))` is the integer square root, `int(log2(n))` the integer logarithm.  A
length that is not of the form n² - 1 makes `v@γ` raise `ValueError`. -/
noncomputable def insu2N (v : List ℂ) (wh : Where) : Py (List ℂ) := do
  let n := Nat.sqrt (v.length + 1)
  let γ ← gammaRows n wh
  if v.length = n ^ 2 - 1 then
    .ok ((List.range ((2 * n) ^ 2 - 1)).map fun j => (List.zipWith (fun x row => x * row.getD j 0) v γ).sum)
  else .error .valueError

/-- `spin.py:589-594` `SU(v, N)` (`rep='adj'`) -/
noncomputable def SU (v : List ℂ) (N : ℕ) : Py (Matrix (Fin N) (Fin N) ℂ) := expGen v (su N)

/-- `spin.py:589-594` `SU(v, N, '2N')`; `insu2N` is called with its default `where='mid'` -/
noncomputable def SU2N (v : List ℂ) (N : ℕ) : Py (Matrix (Fin (2 * N)) (Fin (2 * N)) ℂ) := do
  let w ← insu2N v .mid
  expGen w (su (2 * N))

/-- `spin.py:603-606` `equal_up_to_phase(U, V)`; `allclose` is equality -/
def equalUpToPhase {n : ℕ} (U V : Matrix (Fin (n + 1)) (Fin (n + 1)) ℂ) : Prop :=
  Complex.exp (-Complex.I * Complex.arg (U 0 0)) • U = Complex.exp (-Complex.I * Complex.arg (V 0 0)) • V

/-- `spin.py:608-612` `extractv(U)`; `scipy.linalg.logm` is a parameter -/
noncomputable def extractv (logm : ∀ n : ℕ, Matrix (Fin n) (Fin n) ℂ → Matrix (Fin n) (Fin n) ℂ) {N : ℕ} (U : Matrix (Fin N) (Fin N) ℂ) :
    List ℂ :=
  let Q := Complex.I • logm N U
  components (Q - (trace Q / N) • (1 : Matrix (Fin N) (Fin N) ℂ))

/-- `spin.py:614-618` `to_new_v(v)` -/
noncomputable def toNewV (logm : ∀ n : ℕ, Matrix (Fin n) (Fin n) ℂ → Matrix (Fin n) (Fin n) ℂ) (v : List ℂ) : Py (List ℂ) := do
  let U ← SU v (Nat.sqrt (v.length + 1))
  .ok (extractv logm U)

end Xmps.Spin
