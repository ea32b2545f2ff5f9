import Mathlib.Data.Complex.Basic
import Mathlib.Algebra.Order.Floor.Ring
import Mathlib.Data.Real.Archimedean
import Verif.Model.Fmps

/-!
# Model of `xmps/fMPS.py`: bond structure, (de)serialisation, files; `tensor.py`: `mps_pad`

The file system is a map from file names to stored vectors.  `np.save` appends `.npy` to a name that
does not end in `.npy`; `np.load` opens exactly the given name.
-/

namespace Xmps

open Finset

variable {K : Type}

namespace FMPS

/-- `l[-1]`: `IndexError` on an empty list. -/
def pyLast {α : Type} (l : List α) : Py α := pyGetI l (-1)

/-- `fMPS.py:436-461` `create_structure` with `phys=False`; `D=None` means `D = d**L`. -/
def createStructure (L d : ℕ) (D : Option ℕ) : Py (List (ℕ × ℕ)) := do
  let D := D.getD (d ^ L)
  let left := (List.range (L / 2)).map fun n => (min (d ^ n) D, min (d ^ (n + 1)) D)
  let transposed := left.reverse.map fun t => (t.2, t.1)
  if L % 2 = 0 then .ok (left ++ transposed)
  else do
    let a ← pyLast left
    let b ← pyGet transposed 0
    .ok (left ++ [(a.2, b.1)] ++ transposed)

/-- `fMPS.py:1014-1018` `serialize(real=False)`: `np.concatenate` raises `ValueError` on no arrays. -/
def serialize (x : FMPS K) : Py (List K) :=
  if x.data.isEmpty then .error .valueError else .ok (x.data.map ND.flat).flatten

/-- `fMPS.py:1014-1020` `serialize(real=True)`. -/
def serializeReal (x : FMPS ℂ) : Py (List ℝ) := do
  let v ← x.serialize
  .ok (v.map Complex.re ++ v.map Complex.im)

/-- `fMPS.py:1036-1039`: the loop of `deserialize`. -/
def cutUp [Zero K] : List K → List (List ℕ) → Py (List (ND K))
  | _, [] => .ok []
  | vec, shape :: st => do
    guardPy ((vec.take shape.prod).length == shape.prod) .valueError
    let rest ← cutUp (vec.drop shape.prod) st
    .ok (ND.ofFlat shape (vec.take shape.prod) :: rest)

/-- `fMPS.py:1022-1040` `deserialize(vec, L, d, D, structure=structure)` for complex vectors: without a
structure and with one of `L`, `d`, `D` missing the loop runs over `None` (`TypeError`). -/
def deserialize [Zero K] (vec : List K) (L d D : Option ℕ) (struct : Option (List (List ℕ))) : Py (FMPS K) := do
  let st ← match struct, L, d, D with
    | some st, _, _, _ => (.ok st : Py (List (List ℕ)))
    | none, some L, some d, some D => do
      let st ← createStructure L d (some D)
      .ok (st.map fun p => [d, p.1, p.2])
    | none, _, _, _ => .error .typeError
  let data ← cutUp vec st
  init data

/-- `fMPS.py:1032-1033`: `np.split(vec, 2)` (`ValueError` for an odd length) and `x + 1j*y`. -/
def joinReal (vec : List ℝ) : Py (List ℂ) := do
  guardPy (vec.length % 2 == 0) .valueError
  .ok (List.zipWith (fun (x y : ℝ) => (x : ℂ) + Complex.I * (y : ℂ)) (vec.take (vec.length / 2)) (vec.drop (vec.length / 2)))

/-- `deserialize(vec, L, d, D, real=True, structure=structure)`. -/
noncomputable def deserializeReal (vec : List ℝ) (L d D : Option ℕ) (struct : Option (List (List ℕ))) : Py (FMPS ℂ) := do
  let v ← joinReal vec
  deserialize v L d D struct

/-! ### files -/

/-- The stored vectors by file name. -/
abbrev Files := List Char → Option (List ℂ)

/-- The extension `np.save` adds. -/
def npy : List Char := ['.', 'n', 'p', 'y']

/-- `np.save(name, v)` -/
def npSave (fs : Files) (name : List Char) (v : List ℂ) : Files :=
  let name' := if npy <:+ name then name else name ++ npy
  fun f => if f = name' then some v else fs f

/-- `np.load(name)` -/
def npLoad (fs : Files) (name : List Char) : Py (List ℂ) :=
  match fs name with
  | some v => .ok v
  | none => .error .fileNotFound

/-- `int(re(x))` for the non-negative values stored by `store` (`int` truncates towards zero). -/
noncomputable def intRe (z : ℂ) : ℕ := ⌊z.re⌋₊

/-- `fMPS.py:1042-1054` `store`. -/
noncomputable def store (fs : Files) (x : FMPS ℂ) (filename : List Char) (structured : Bool) : Py Files := do
  let v ← x.serialize
  if !structured then
    .ok (npSave fs filename ([(x.L : ℂ), (x.d : ℂ), (x.D : ℂ)] ++ v))
  else
    let st := (x.data.map ND.shape).flatten
    .ok (npSave fs filename (((st.length :: st).map fun (n : ℕ) => (n : ℂ)) ++ v))

/-- `[tuple(st[3*i:3*(i+1)]) for i in range(n)]` -/
def triples (st : List ℕ) (n : ℕ) : List (List ℕ) := (List.range n).map fun i => (st.drop (3 * i)).take 3

/-- `fMPS.py:1056-1070` `load`. -/
noncomputable def load (fs : Files) (filename : List Char) (structured : Bool) : Py (FMPS ℂ) := do
  let ψ ← npLoad fs filename
  if structured then
    let z ← pyGet ψ 0
    let L := intRe z
    let st := ((ψ.drop 1).take L).map intRe
    deserialize (ψ.drop (L + 1)) none none none (some (triples st (L / 3)))
  else
    let params := ψ.take 3
    match params with
    | [a, b, c] => deserialize (ψ.drop 3) (some (intRe a)) (some (intRe b)) (some (intRe c)) none
    | _ => .error .valueError

/-! ### padding -/

/-- `np.pad(A, [(0, p_0), (0, p_1), ...], 'constant')`: `ValueError` for a negative width. -/
def padEnd [Zero K] (A : ND K) (p : List ℤ) : Py (ND K) := do
  guardPy (p.all (0 ≤ ·)) .valueError
  guardPy (p.length == A.rank) .valueError
  .ok ⟨List.zipWith (fun n k => n + k.toNat) A.shape p, fun idx => if InB A.shape idx then A.val idx else 0⟩

/-- `tensor.py:319-337`: one site of the loop in `mps_pad`. -/
def padPair [Zero K] (a b : ND K) : Py (ND K × ND K) := do
  let sa ← a.slice0 0
  let sb ← b.slice0 0
  guardPy (sa.rank == sb.rank) .valueError
  let pads : List ℤ := 0 :: List.zipWith (fun (y x : ℕ) => (y : ℤ) - x) sb.shape sa.shape
  if pads.any (· < 0) then
    if pads.any (0 < ·) then do
      let a' ← padEnd a (pads.map fun p => if 0 < p then p else 0)
      let b' ← padEnd b (pads.map fun p => if p < 0 then -p else 0)
      .ok (a', b')
    else do
      let b' ← padEnd b (pads.map fun p => -p)
      .ok (a, b')
  else do
    let a' ← padEnd a pads
    .ok (a', b)

/-- The loop of `mps_pad` (`zip` stops at the shorter chain). -/
def padSites [Zero K] : List (ND K) → List (ND K) → Py (List (ND K) × List (ND K))
  | a :: as, b :: bs => do
    let p ← padPair a b
    let q ← padSites as bs
    .ok (p.1 :: q.1, p.2 :: q.2)
  | as, bs => .ok (as, bs)

/-- `tensor.py:306-339` `mps_pad`: the two objects are changed in place (only their tensors). -/
def mpsPad [Zero K] (x y : FMPS K) : Py (FMPS K × FMPS K) := do
  let sx ← structure_ x.data
  let sy ← structure_ y.data
  if sx = sy then .ok (x, y)
  else do
    let q ← padSites x.data y.data
    .ok ({ x with data := q.1 }, { y with data := q.2 })

/-- `fMPS.py:1111-1113`: the padding loop of `expand` (before the canonicalisation). -/
def expandPad [Zero K] (x : FMPS K) (D : ℕ) : Py (FMPS K) := do
  let st ← structure_ x.data
  let st' ← createStructure x.L x.d (some D)
  let ts ← (x.data.zip (st.zip st')).mapM fun (A, s, t) =>
    padEnd A (0 :: List.zipWith (fun (n : ℕ) (m : ℕ) => (n : ℤ) - m) [t.1, t.2] s)
  .ok { x with data := ts ++ x.data.drop ts.length, D := D }

end FMPS

end Xmps
