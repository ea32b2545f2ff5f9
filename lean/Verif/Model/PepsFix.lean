import Verif.Model.PepsIso

/-!
# Model of `fPEPS.fix_neighbours` (`fPEPS.py:447-473`)

The nested list `data`, `rows` lists of `cols` tensors, is a function of row and column; the site is counted from zero.  The attributes `Lx` and `Ly` need
not be `cols` and `rows`.
-/

namespace Xmps.FPEPS

/-- `data[j][i] = A` -/
def put (g : ℕ → ℕ → ND ℂ) (j i : ℕ) (A : ND ℂ) : ℕ → ℕ → ND ℂ := fun a b => if a = j ∧ b = i then A else g a b

/-- `fPEPS.py:450-454` (also `456-460`, `462-466`, `468-472`): the leg `k` of the site and the leg `k'` of its neighbour are cut to the smaller dimension;
`own` is the dimension at the start -/
def meet (rows cols : ℕ) (g : ℕ → ℕ → ND ℂ) (j i k j' i' k' own : ℕ) : Py (ℕ → ℕ → ND ℂ) := do
  guardPy (decide (j' < rows ∧ i' < cols)) .indexError
  guardPy ((g j' i').shape.length == 5) .valueError
  let D := min own ((g j' i').dim k')
  let g := put g j' i' (cut (g j' i') k' D)
  let g := put g j i (cut (g j i) k D)
  guardPy ((g j' i').dim k' == (g j i).dim k) .assertionError
  .ok g

/-- `fPEPS.py:447-473` `fix_neighbours(i, j)` -/
def fixNeighbours (rows cols Lx Ly : ℕ) (g : ℕ → ℕ → ND ℂ) (i j : ℕ) : Py (ℕ → ℕ → ND ℂ) := do
  guardPy (decide (j < rows ∧ i < cols)) .indexError
  guardPy ((g j i).shape.length == 5) .valueError
  let A := g j i
  let g ← (if 1 ≤ j then meet rows cols g j i 1 (j - 1) i 3 (A.dim 1) else .ok g)
  let g ← (if i + 1 < Lx then meet rows cols g j i 2 j (i + 1) 4 (A.dim 2) else .ok g)
  let g ← (if j + 1 < Ly then meet rows cols g j i 3 (j + 1) i 1 (A.dim 3) else .ok g)
  if 1 ≤ i then meet rows cols g j i 4 j (i - 1) 2 (A.dim 4) else .ok g

end Xmps.FPEPS
