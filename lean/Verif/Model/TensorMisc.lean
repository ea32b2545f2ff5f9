import Verif.Model.Canonicalise

/-!
# Model of `direct_sum`, `haar_unitary`, `tr_svd` and `get_null_space` of `tensor.py`

`qr` is `scipy.linalg.qr` with the default `mode='full'`, `svd` is `scipy.linalg.svd(., full_matrices=False)`.
-/

namespace Xmps.TensorMisc

/-- `numpy.zeros((m, n))` -/
def zeros2 (m n : ℕ) : ND ℂ := ⟨[m, n], fun _ => 0⟩

/-- the transpose of a matrix -/
def trans2 (A : ND ℂ) : ND ℂ := ⟨A.shape.reverse, fun idx => A.val idx.reverse⟩

/-- `tensor.py:78-81` `direct_sum(A, B)`.  `numpy.block` joins the blocks of each row along the last axis and then the rows; the unpacking of the
shapes raises `ValueError` unless both have rank 2. -/
def directSum (A B : ND ℂ) : Py (ND ℂ) := do
  guardPy (A.shape.length == 2 && B.shape.length == 2) .valueError
  let O := zeros2 (A.dim 1) (B.dim 0)
  let top ← A.concat O 1
  let bot ← (trans2 O).concat B 1
  top.concat bot 0

/-- `M[:, a:b]` of a matrix -/
def cols (M : ND ℂ) (a b : ℕ) : ND ℂ := ⟨[M.dim 0, min b (M.dim 1) - a], fun idx => M.val [idx.getD 0 0, a + idx.getD 1 0]⟩

/-- `M[:a, :]` of a matrix -/
def topRows (M : ND ℂ) (a : ℕ) : ND ℂ := ⟨[min a (M.dim 0), M.dim 1], M.val⟩

/-- `tensor.py:83-84` `haar_unitary(n)`; `X` is the random matrix. -/
def haarUnitary (qr : ND ℂ → Py (ND ℂ × ND ℂ)) (X : ND ℂ) : Py (ND ℂ) := do
  let (Q, _) ← qr X
  .ok Q

/-- `tensor.py:234-236` `tr_svd(A, D)` -/
def trSvd (svd : ND ℂ → Py (ND ℂ × List ℝ × ND ℂ)) (A : ND ℂ) (D : ℕ) : Py (ND ℂ × ND ℂ × ND ℂ) := do
  let (U, s, V) ← svd A
  .ok (cols U 0 D, diagND ((s.take D).map fun x : ℝ => (x : ℂ)), topRows V D)

/-- `tensor.py:363-371` `get_null_space(A)` for a matrix -/
def getNullSpace (qr : ND ℂ → Py (ND ℂ × ND ℂ)) (A : ND ℂ) : Py (ND ℂ) := do
  let (Q, _) ← qr A.hc
  .ok (cols Q (A.dim 0) (Q.dim 1))

end Xmps.TensorMisc
