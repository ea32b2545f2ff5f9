import Verif.Model.NBody
import Verif.Model.SpinOps

/-!
# Model of `xmps/Hamiltonians.py`

A Python dictionary is a list of (key, value) pairs in insertion order with distinct keys; a key is the list of
its characters; values are complex numbers.
-/

namespace Xmps.Ham

open Xmps.Spin

/-- dictionary from strings to numbers -/
abbrev Dict := List (List Char × ℂ)

/-- `d.get(k)` -/
noncomputable def dget (d : Dict) (k : List Char) : Option ℂ := d.lookup k

/-- `d[k] = v`: in place when the key exists, otherwise at the end -/
noncomputable def dset (d : Dict) (k : List Char) (v : ℂ) : Dict :=
  if k ∈ d.map (·.1) then d.map fun p => if p.1 = k then (k, v) else p else d ++ [(k, v)]

/-- `d.pop(k)` for an existing key -/
def dpop (d : Dict) (k : List Char) : Dict := d.filter fun p => p.1 ≠ k

/-- one round of the loop `Hamiltonians.py:22-26` -/
noncomputable def initStep (d : Dict) (p : List Char × ℂ) : Dict :=
  if p.1.length = 1 then dpop (dset (dset d ('I' :: p.1) p.2) (p.1 ++ ['I']) p.2) p.1 else d

/-- `Hamiltonians.py:19-26` `Hamiltonian(strings).strings`; it is also what the caller's dictionary contains
afterwards, `self.strings` being the same object. -/
noncomputable def init (strings : Dict) : Dict := strings.foldl initStep strings

/-- a matrix as an array -/
def ofMat {n : ℕ} (M : Matrix (Fin n) (Fin n) ℂ) : ND ℂ :=
  ⟨[n, n], fun
    | [a, b] => if h : a < n ∧ b < n then M ⟨a, h.1⟩ ⟨b, h.2⟩ else 0
    | _ => 0⟩

/-- `Hamiltonians.py:8-10` the dictionary `S` -/
noncomputable def S (c : Char) : Py (ND ℂ) :=
  if c = 'I' then .ok (eyeND 2) else if c = 'X' then .ok (ofMat (paulis 1).1) else if c = 'Y' then .ok (ofMat (paulis 1).2.1)
  else if c = 'Z' then .ok (ofMat (paulis 1).2.2) else .error .keyError

/-- `Hamiltonians.py:55-57` `_squeeze`: `allclose(val, 0)` is `|val| ≤ 1e-8`. -/
noncomputable def squeeze (d : Dict) : Dict := open Classical in d.filter fun p => ¬ ‖p.2‖ ≤ 1e-8

/-- one round of the loop `Hamiltonians.py:63-65` -/
noncomputable def addTerm (h : ND ℂ) (p : List Char × ℂ) : Py (ND ℂ) := do
  let ops ← p.1.mapM S
  let m ← tensor ops
  if m.shape = [4, 4] then .ok ⟨[4, 4], fun idx => h.val idx + p.2 * m.val idx⟩ else .error .valueError

/-- `Hamiltonians.py:59-67` `to_matrix` -/
noncomputable def toMatrix (d : Dict) : Py (ND ℂ) := d.foldlM addTerm (zerosND [4, 4])

/-- `d[k] = d[k]/2` -/
noncomputable def halve (d : Dict) (k : List Char) : Dict := d.map fun p => if p.1 = k then (p.1, p.2 / 2) else p

/-- one round of the loop `Hamiltonians.py:106-112`; the state is `(h_0, h_i, h_L)`. -/
noncomputable def halveStep (x : Dict × Dict × Dict) (c : Char) : Dict × Dict × Dict :=
  let x := if [c, 'I'] ∈ x.2.1.map (·.1) then (x.1, halve x.2.1 [c, 'I'], halve x.2.2 [c, 'I']) else x
  if ['I', c] ∈ x.2.1.map (·.1) then (halve x.1 ['I', c], halve x.2.1 ['I', c], x.2.2) else x

/-- `Hamiltonians.py:101-122` `to_matrices(L)` -/
noncomputable def toMatrices (d : Dict) (L : ℕ) : Py (List (ND ℂ)) :=
  let x := ['X', 'Y', 'Z'].foldl halveStep (d, d, d)
  let h0 := toMatrix (squeeze (init x.1))
  let hi := toMatrix (squeeze (init x.2.1))
  let hL := toMatrix (squeeze (init x.2.2))
  if L = 2 then do
    let a ← hi
    return [a]
  else if L = 3 then do
    let a ← h0
    let b ← hL
    return [a] ++ [b]
  else do
    let a ← h0
    let b ← hi
    let c ← hL
    return [a] ++ List.replicate (L - 3) b ++ [c]

/-- the object: `strings`, `matrices` and `d` are attributes that may be missing -/
structure Obj where
  /-- `self.strings` -/
  strings : Option Dict
  /-- `self.matrices` -/
  matrices : Option (List (ND ℂ))
  /-- `self.d` -/
  d : Option ℕ

/-- `Hamiltonians.py:19-29` the constructor -/
noncomputable def mk (strings : Option Dict) (matrices : Option (List (ND ℂ))) (d : ℕ) : Obj :=
  ⟨strings.map init, matrices, matrices.map fun _ => d⟩

/-- `Hamiltonians.py:39-45` the property `k` when there are matrices `ms`; `ilog p d` stands for
`int(math.log(p, d))`, and the assertion that the logarithm is close to an integer is `d ^ k = p`. -/
def kOf (ilog : ℕ → ℕ → ℕ) (ms : List (ND ℂ)) (d : Option ℕ) : Py ℕ := do
  let m ← pyGet ms 0
  match d with
  | none => .error .attributeError
  | some d => if d ^ ilog (m.dim 0) d = m.dim 0 then .ok (ilog (m.dim 0) d) else .error .assertionError

/-- one round of the loop `Hamiltonians.py:140-141` -/
noncomputable def fullStep (L k : ℕ) (total : ND ℂ) (p : ND ℂ × ℕ) : Py (ND ℂ) := do
  let t ← tensor (List.replicate p.2 (eyeND 2) ++ [p.1] ++ List.replicate (L - k - p.2) (eyeND 2))
  if t.shape = [2 ^ L, 2 ^ L] then .ok ⟨[2 ^ L, 2 ^ L], fun idx => total.val idx + t.val idx⟩ else .error .valueError

/-- `Hamiltonians.py:131-142` `to_full(L)`; the attribute `matrices` it sets is not returned. -/
noncomputable def toFull (ilog : ℕ → ℕ → ℕ) (x : Obj) (L : Option ℕ) : Py (ND ℂ) := do
  let ms ← match x.matrices with
    | some ms => .ok ms
    | none => match x.strings with
      | some d => match L with
        | some L => toMatrices d L
        | none => .error .assertionError
      | none => .error .exception
  let k ← kOf ilog ms x.d
  let n := ms.length + k - 1
  ms.zipIdx.foldlM (fullStep n k) (zerosND [2 ^ n, 2 ^ n])

/-- the Pauli matrices written out in `Hamiltonians.py:73-75` -/
noncomputable def sx : Matrix (Fin 2) (Fin 2) ℂ := !![0, 1; 1, 0]
/-- as above -/
noncomputable def sy : Matrix (Fin 2) (Fin 2) ℂ := !![0, -Complex.I; Complex.I, 0]
/-- as above -/
noncomputable def sz : Matrix (Fin 2) (Fin 2) ℂ := !![1, 0; 0, -1]

/-- `Hamiltonians.py:71-91` `heis_mpo` -/
noncomputable def heisMpo (Jx Jy Jz hx hy hz : ℂ) : ND ℂ :=
  ⟨[5, 5, 2, 2], fun
    | [0, 0, a, b] => (eyeND 2 : ND ℂ).val [a, b]
    | [0, 1, a, b] => (ofMat sz).val [a, b]
    | [0, 2, a, b] => (ofMat sy).val [a, b]
    | [0, 3, a, b] => (ofMat sx).val [a, b]
    | [0, 4, a, b] => hz * (ofMat sz).val [a, b] + hy * (ofMat sy).val [a, b] + hx * (ofMat sx).val [a, b]
    | [1, 4, a, b] => Jz * (ofMat sz).val [a, b]
    | [2, 4, a, b] => Jy * (ofMat sy).val [a, b]
    | [3, 4, a, b] => Jx * (ofMat sx).val [a, b]
    | [4, 4, a, b] => (eyeND 2 : ND ℂ).val [a, b]
    | _ => 0⟩

/-- `Hamiltonians.py:93` -/
def heisKeys : List (List Char) := [['X', 'X'], ['Y', 'Y'], ['Z', 'Z'], ['I', 'X'], ['I', 'Y'], ['I', 'Z']]

/-- `self.strings.get(key, 0)` -/
noncomputable def get0 (d : Dict) (k : List Char) : ℂ := (dget d k).getD 0

/-- `Hamiltonians.py:69-99` `to_mpo(L)` -/
noncomputable def toMpo (d : Dict) (L : ℕ) : Py (List (ND ℂ)) := do
  (d.map (·.1)).forM fun key =>
    open Classical in
    if ¬ (key ∈ heisKeys ∨ key.reverse ∈ heisKeys) then .error .notImplemented
    else if get0 d key.reverse ≠ get0 d key then .error .notImplemented
    else .ok ()
  return List.replicate L (heisMpo (get0 d ['X', 'X']) (get0 d ['Y', 'Y']) (get0 d ['Z', 'Z']) (get0 d ['I', 'X']) (get0 d ['I', 'Y']) (get0 d ['I', 'Z']))

end Xmps.Ham
