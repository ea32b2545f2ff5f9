import Verif.Model.Structure

/-!
# Model of `iMPS`: unit cells, indexing, (de)serialisation, files

The file system and the name handling of `np.save`/`np.load` are those of `Model/Structure`.
-/

namespace Xmps

/-- `fMPS.py:173-178` `__call__(k)` -/
def FMPS.call {K : Type} (x : FMPS K) (k : ℤ) : Py (ND K) := pyGetI x.data (k + 1)

/-- `fMPS.py:180-185` `__getitem__(k)` for an integer -/
def FMPS.getItem {K : Type} (x : FMPS K) (k : ℤ) : Py (ND K) := pyGetI x.data k

/-- `iMPS.py:161-174`: the attributes set by `__init__`, `random` and `deserialize` -/
structure Cell where
  data : List (ND ℂ)
  period : ℕ
  d : ℕ
  D : ℕ

namespace Cell

/-- `iMPS.py:161-174` `iMPS(data)`: `data[0]` of an empty list raises `IndexError`; `D` is the last leg of the first tensor. -/
def init (data : List (ND ℂ)) : Py Cell := do
  let a ← pyGet data 0
  .ok ⟨data, data.length, a.dim 0, a.shape.getLastD 0⟩

/-- `iMPS.py:176-181` `__call__(k)` -/
def call (x : Cell) (k : ℤ) : Py (ND ℂ) := pyGetI x.data (k + 1)

/-- `iMPS.py:183-188` `__getitem__(k)` -/
def getItem (x : Cell) (k : ℤ) : Py (ND ℂ) := pyGetI x.data k

/-- `iMPS.py:397-398` `create_structure` -/
def createStructure (d D p : ℕ) : List (List ℕ) := List.replicate p [d, D, D]

/-- `iMPS.py:497-503` `serialize(real=False)`: `np.concatenate` raises `ValueError` on no arrays. -/
def serialize (x : Cell) : Py (List ℂ) :=
  if x.data.isEmpty then .error .valueError else .ok (x.data.map ND.flat).flatten

/-- `iMPS.py:497-503` `serialize(real=True)` -/
def serializeReal (x : Cell) : Py (List ℝ) := do
  let v ← x.serialize
  .ok (v.map Complex.re ++ v.map Complex.im)

/-- `iMPS.py:505-522` `deserialize(vec, d, D, p)`: the loop is the one of `fMPS.deserialize`. -/
def deserialize (vec : List ℂ) (d D p : ℕ) : Py Cell := do
  let data ← FMPS.cutUp vec (createStructure d D p)
  .ok ⟨data, p, d, D⟩

/-- `iMPS.py:505-522` `deserialize(vec, d, D, p, real=True)` -/
noncomputable def deserializeReal (vec : List ℝ) (d D p : ℕ) : Py Cell := do
  let v ← FMPS.joinReal vec
  deserialize v d D p

/-- `iMPS.py:524-528` `store` -/
noncomputable def store (fs : FMPS.Files) (x : Cell) (filename : List Char) : Py FMPS.Files := do
  let v ← x.serialize
  .ok (FMPS.npSave fs filename ([(x.d : ℂ), (x.D : ℂ), (x.period : ℂ)] ++ v))

/-- `iMPS.py:530-537` `load` -/
noncomputable def load (fs : FMPS.Files) (filename : List Char) : Py Cell := do
  let ψ ← FMPS.npLoad fs filename
  match ψ.take 3 with
  | [a, b, c] => deserialize (ψ.drop 3) (FMPS.intRe a) (FMPS.intRe b) (FMPS.intRe c)
  | _ => .error .valueError

end Cell

end Xmps
