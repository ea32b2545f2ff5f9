import Verif.Base.NpMore

/-!
# Model of `xmps/spin.py`

Matrices are arrays of shape `[n, n]`.
-/

namespace Xmps.Spin

open Finset

variable {K : Type}

/-! ### `levi_civita` -/

/-- `spin.py:107-111`: the `while a` loop of `perm_parity`; `b.index` raises `ValueError` when absent. -/
def inversions : List ℕ → List ℕ → ℕ → Py ℕ
  | [], _, n => .ok n
  | first :: a, b, n =>
    if first ∈ b then inversions a (b.erase first) (n + b.idxOf first) else .error .valueError

/-- `spin.py:98-111` `perm_parity`. -/
def permParity (a b : List ℕ) : Py ℤ :=
  if a.mergeSort (· ≤ ·) ≠ b.mergeSort (· ≤ ·) then .ok 0
  else do
    let n ← inversions a b 0
    .ok (if n % 2 ≠ 0 then -1 else 1)

/-- `spin.py:113-119` `loop_recursive`; `k = dim - n` is the number of positions still to fill.  The
list `q` (an array, changed in place) and the list `s` are threaded through. -/
def loopRecursive (dim : ℕ) : ℕ → List ℕ × List ℤ → Py (List ℕ × List ℤ)
  | k + 1, qs => (List.range dim).foldlM (fun qs x => loopRecursive dim k (qs.1.set (dim - (k + 1)) x, qs.2)) qs
  | 0, qs => do
    let p ← permParity qs.1 (List.range dim)
    .ok (qs.1, qs.2 ++ [p])

/-- `spin.py:92-125` `levi_civita`. -/
def leviCivita (dim : ℕ) : Py (ND ℤ) := do
  let qs ← loopRecursive dim dim (List.replicate dim 0, [])
  (ND.ofFlat [qs.2.length] qs.2).reshape (List.replicate dim dim)

end Xmps.Spin
