import Verif.Base.NpMore
import Verif.Spec.EinSum

/-!
# Model of the index tools in `xmps/tensor.py`, `xmps/peps_tools.py` and `xmps/fMPS.py:67-103`

Index arguments are natural numbers (negative Python indices are not modelled).
-/

namespace Xmps

open Finset

variable {K : Type}

/-! ### integer factors -/

/-- `fMPS.py:98-103` `factors`.  `int(n**0.5)` is modelled as the exact integer square root (the
floating point square root agrees for `n < 2^52`). -/
def factors (n : ℕ) : Py (ℕ × ℕ) :=
  go (Nat.sqrt n + 1)
where
  /-- the loop `for i in range(int(n**0.5)+1, 0, -1)` -/
  go : ℕ → Py (ℕ × ℕ)
    | 0 => .error .exception
    | i + 1 => if n % (i + 1) = 0 then .ok (i + 1, n / (i + 1)) else go i

/-! ### loc and split_up -/

/-- `np.kron(A, B)` of two matrices. -/
def kron [Mul K] (A B : ND K) : ND K :=
  ⟨[A.dim 0 * B.dim 0, A.dim 1 * B.dim 1], fun idx =>
    A.val [idx.getD 0 0 / B.dim 0, idx.getD 1 0 / B.dim 1] * B.val [idx.getD 0 0 % B.dim 0, idx.getD 1 0 % B.dim 1]⟩

/-- `H[i, j]` for a matrix: `IndexError` when out of range. -/
def ND.get2 (H : ND K) (i j : ℕ) : Py K :=
  match H.shape with
  | [m, n] => if i < m ∧ j < n then .ok (H.val [i, j]) else .error .indexError
  | _ => .error .indexError

/-- `tensor.py:373-389` `loc`. -/
def loc (st uv : ℕ × ℕ) (d p q : Option ℕ) : Py (ℕ × ℕ) :=
  let (p, q) := match d with
    | some d => (some d, some d)
    | none => (p, q)
  match p, q with
  | some p, some q => .ok (p * st.1 + uv.1, q * st.2 + uv.2)
  | none, none => .error .exception
  | _, _ => .error .typeError

/-- `tensor.py:394-412` `loc_3` with `d` given; note the order of the three arguments. -/
def loc3 (rs tu vw : ℕ × ℕ) (d : ℕ) : ℕ × ℕ :=
  (d ^ 2 * rs.1 + d * vw.1 + tu.1, d ^ 2 * rs.2 + d * vw.2 + tu.2)

/-- `tensor.py:425-444` `split_up`: with `d=None` the call `zeros((d, d, p, q))` raises `TypeError`. -/
def splitUp [Zero K] (H : ND K) (d p q : Option ℕ) : Py (ND K) :=
  match d with
  | some d => do
    let h ← ND.build [d, d, d, d] fun idx => do
      let (r, c) ← loc (idx.getD 0 0, idx.getD 1 0) (idx.getD 2 0, idx.getD 3 0) none (some d) (some d)
      H.get2 r c
    h.transpose [2, 0, 3, 1]
  | none =>
    match p, q with
    | none, none => .error .exception
    | _, _ => .error .typeError

/-- `tensor.py:414-423` `split_up_3`: the dimension passed to `loc_3` is the literal 2. -/
def splitUp3 [Zero K] (H : ND K) (d : ℕ) : Py (ND K) :=
  ND.build [d, d, d, d, d, d] fun idx =>
    let l := loc3 (idx.getD 0 0, idx.getD 1 0) (idx.getD 2 0, idx.getD 3 0) (idx.getD 4 0, idx.getD 5 0) 2
    H.get2 l.1 l.2

/-! ### grouping legs -/

/-- `peps_tools.py:34-39` `inverse_transpose`. -/
def inverseTranspose (perm : List ℕ) : Py (List ℕ) :=
  perm.zipIdx.foldlM (fun (inv : List ℕ) (p : ℕ × ℕ) =>
    if p.1 < inv.length then .ok (inv.set p.1 p.2) else .error .indexError) (List.replicate perm.length 0)

/-- `peps_tools.py:21-29`: the loop collecting `new_shape` and `old_shape` from the remaining shape;
`np.prod` of an empty slice is the float `1.0`, which `reshape` refuses with `TypeError`. -/
def groupShapes : List (List ℕ) → List ℕ → Py (List ℕ × List (List ℕ))
  | [], _ => .ok ([], [])
  | leg :: legs, sh => do
    guardPy (leg.length != 0) .typeError
    let (ns, os) ← groupShapes legs (sh.drop leg.length)
    .ok ((sh.take leg.length).prod :: ns, sh.take leg.length :: os)

/-- `peps_tools.py:5-32` `group_legs`; returns the array and `pipe = (perm, old_shape)`. -/
def groupLegs (T : ND K) (legs : List (List ℕ)) : Py (ND K × (List ℕ × List (List ℕ))) := do
  let perm := legs.flatten
  let T' ← T.transpose perm
  let (ns, os) ← groupShapes legs T'.shape
  let R ← T'.reshape ns
  .ok (R, (perm, os))

/-- `peps_tools.py:54-60`: the shape to ungroup to. -/
def ungroupShape : List (List ℕ) → List ℕ → List ℕ
  | os :: oss, n :: ns => (if os.length = 1 then [n] else os) ++ ungroupShape oss ns
  | _, _ => []

/-- `peps_tools.py:41-65` `ungroup_legs`. -/
def ungroupLegs (T : ND K) (pipe : List ℕ × List (List ℕ)) : Py (ND K) := do
  guardPy (pipe.2.length == T.rank) .valueError
  let R ← T.reshape (ungroupShape pipe.2 T.shape)
  let inv ← inverseTranspose pipe.1
  R.transpose inv

/-! ### partial traces -/

/-- `np.einsum` with label lists and implicit output (labels that occur once, in increasing order):
the sum over the repeated labels of the product of the entries.  `ValueError` on a wrong number of
labels or extents that differ for one label (numpy would broadcast extent 1; not modelled, nor is
numpy's limit of 52 labels). -/
def einsumImplicit [CommSemiring K] (AA : List (ND K)) (v : List (List ℕ)) : Py (ND K) :=
  let all := v.flatten
  let labels := (List.range (all.foldl max 0 + 1)).filter (· ∈ all)
  let out := labels.filter fun x => all.count x = 1
  let rep := labels.filter fun x => all.count x ≠ 1
  let pairs := (AA.zip v).flatMap fun (A, l) => l.zip A.shape
  let dim : ℤ → ℕ := fun x => (pairs.lookup x.toNat).getD 0
  let v' : List (List ℤ) := v.map fun l => l.map fun (n : ℕ) => (n : ℤ)
  if AA.length = v.length ∧ (List.zipWith (fun (A : ND K) (l : List ℤ) => decide (A.shape = l.map dim)) AA v').all id = true then
    .ok ⟨out.map fun (x : ℕ) => dim (x : ℤ), fun idx =>
      Spec.labelSum (rep.map fun (n : ℕ) => (n : ℤ)) dim (Spec.netTerm AA v') (Spec.assign (out.map fun (n : ℕ) => (n : ℤ)) idx)⟩
  else .error .valueError

/-- `dims[keep]` for index lists: `IndexError` when out of range or (float index array) empty. -/
def takeDims (dims keep : List ℕ) : Py (List ℕ) := do
  guardPy (keep.length != 0) .indexError
  keep.mapM (pyGet dims)

/-- `np.outer(u, u.conj())` -/
def outerConj [Mul K] [Star K] (u : ND K) : ND K :=
  ⟨[u.size, u.size], fun
    | [i, j] => u.val (unravel u.shape i) * star (u.val (unravel u.shape j))
    | idx => u.val idx⟩

/-- `tensor.py:106-141` `ρA`. -/
def rhoA [CommSemiring K] [Star K] (u : ND K) (keep dims : List ℕ) : Py (ND K) := do
  if keep.isEmpty then .ok (outerConj u)
  else
    let kd ← takeDims dims keep
    let idx1 := List.range dims.length
    let idx2 := (List.range dims.length).map fun i => if i ∈ keep then dims.length + i else i
    let u ← u.reshape dims
    let r ← einsumImplicit [u, u.conj] [idx1, idx2]
    r.reshape [kd.prod, kd.prod]

/-- `tensor.py:143-176` `partial_trace`. -/
def partialTrace [CommSemiring K] (rho : ND K) (keep dims : List ℕ) : Py (ND K) := do
  let kd ← takeDims dims keep
  let idx1 := List.range dims.length
  let idx2 := (List.range dims.length).map fun i => if i ∈ keep then dims.length + i else i
  let r ← rho.reshape (dims ++ dims)
  let r ← einsumImplicit [r] [idx1 ++ idx2]
  r.reshape [kd.prod, kd.prod]

/-! ### symplectic matrices -/

/-- `fMPS.py:67-72` `sympmat`: `[[O, I], [-I, O]]`. -/
def sympmat [Zero K] [One K] [Neg K] (N : ℕ) : ND K :=
  ⟨[2 * N, 2 * N], fun
    | [i, j] =>
      if i < N then (if j < N then 0 else if i = j - N then 1 else 0)
      else if j < N then (if i - N = j then -1 else 0) else 0
    | _ => 0⟩

/-- `m[i, j] = x` -/
def ND.set2 (A : ND K) (i j : ℕ) (x : K) : ND K :=
  ⟨A.shape, fun idx => if idx = [i, j] then x else A.val idx⟩

/-- `fMPS.py:74-81` `changebasis`. -/
def changebasis [Zero K] [One K] (n : ℕ) : ND K :=
  (List.range n).foldl (fun m i => (m.set2 (2 * i) i 1).set2 (2 * i + 1) (i + n) 1) (zerosND [2 * n, 2 * n])

end Xmps
