import Verif.Base.NpMore
import Verif.Model.TensorTools

/-!
# Model of `tensor` and `n_body` (`xmps/spin.py`)

`numpy.kron` is only modelled on matrices.
-/

namespace Xmps.Spin

variable {K : Type}

/-- `spin.py:127-128` `tensor(ops)`, `functools.reduce(kron, ops)`: `TypeError` on an empty list. -/
def tensor [Mul K] : List (ND K) → Py (ND K)
  | [] => .error .typeError
  | A :: As => .ok (As.foldl kron A)

/-- `list.insert(i, x)` -/
def pyInsert {α : Type} (l : List α) (i : ℤ) (x : α) : List α :=
  let k := if i < 0 then (l.length + i).toNat else i.toNat
  l.take k ++ x :: l.drop k

/-- one entry of the list comprehension `spin.py:141`: `identity(d)*(1-m) + op*m` -/
def siteFactor [CommRing K] (op : ND K) (p : ℕ) (m : K) : ND K :=
  ⟨[p, p], fun idx => (eyeND p : ND K).val idx * (1 - m) + op.val idx * m⟩

/-- `spin.py:130-148` `n_body(op, i, n, d)`.  `ilog p d` stands for `int(math.log(p, d))`.  With `d=None` a
non-square `op` is an error here (numpy would broadcast a `p × 1` array). -/
def nBody [CommRing K] (ilog : ℕ → ℕ → ℕ) (op : ND K) (i : ℤ) (n : ℕ) (d : Option ℕ) : Py (ND K) :=
  match op.shape with
  | [p, q] => do
    let i := i - 1
    let l ← match d with
      | none => if q = p then .ok ((List.range n).map fun j : ℕ => siteFactor op p (if i - j = 0 then 1 else 0)) else .error .valueError
      | some d => .ok (pyInsert (List.replicate (n + 1 - ilog p d) (eyeND d)) (i + 1) op)
    if i < n then tensor l else .error .exception
  | _ => .error .valueError

end Xmps.Spin
