import Verif.Model.Canonicalise

/-!
# Model of `fMPS.left_from_state` and `fMPS.right_from_state` (`fMPS.py:284-345`)

The constructor `fMPS()` without tensors sets nothing that these methods read, so the model starts
from the state tensor alone.
-/

namespace Xmps.FMPS

variable (svd : Svd)

/-- `reshape(-1, c)`: the other extent; numpy refuses `-1` next to an empty axis. -/
def otherExtent (Psi : ND ℂ) (c : ℕ) : Py ℕ := if c = 0 then .error .valueError else .ok (Psi.size / c)

/-- `fMPS.py:295-299`: `split(Psi, n)` of `left_from_state`, `m = L-(n+1)`. -/
noncomputable def leftSplit (d m : ℕ) (Psi : ND ℂ) : Py (ND ℂ × ND ℂ × ND ℂ) := do
  let rows ← otherExtent Psi (d ^ m)
  let M ← Psi.reshapeF [rows, d ^ m]
  let (U, S, V) ← svd M
  let A ← chopRows U d
  let P ← (diagC S).matmul V
  .ok (A, P, diagC S)

/-- `fMPS.py:301-303`: the loop, `m` sites to go; returns the tensors, the last `Psi` (which the code
drops) and `Ls`. -/
noncomputable def leftSplits (d : ℕ) : ℕ → ND ℂ → Py (List (ND ℂ) × ND ℂ × List (ND ℂ))
  | 0, Psi => .ok ([], Psi, [])
  | m + 1, Psi => do
    let (A, P, L) ← leftSplit svd d m Psi
    let (As, P, Ls) ← leftSplits d m P
    .ok (A :: As, P, L :: Ls)

/-- `fMPS.py:308`: `max([max(shape[1:]) for shape in self.structure()])`; `structure()` lists the
shapes of the matrices `A[0]`. -/
def maxRight (As : List (ND ℂ)) : ℕ := (As.map fun A => A.dim 2).foldl max 0

/-- `fMPS.py:284-313` `left_from_state(state)`; second component: the attribute `Ls`. -/
noncomputable def leftFromState (state : ND ℂ) : Py (FMPS ℂ × List (ND ℂ)) := do
  let d ← pyGet state.shape 0
  let L := state.rank
  let (As, _, Ls) ← leftSplits svd d L state
  .ok (⟨As, L, d, maxRight As, false, true, some L, none⟩, Ls)

/-- `fMPS.py:325-329`: `split(Psi, n)` of `right_from_state`, with `n-1` written `n`. -/
noncomputable def rightSplit (d n : ℕ) (Psi : ND ℂ) : Py (ND ℂ × ND ℂ × ND ℂ) := do
  let cols ← otherExtent Psi (d ^ n)
  let M ← Psi.reshape [d ^ n, cols]
  let (U, S, V) ← svd M
  let P ← U.matmul (diagC S)
  let B ← chopCols V d
  .ok (P, B, diagC S)

/-- `fMPS.py:331-335`: the loop from the right; `n` sites to go. -/
noncomputable def rightSplits (d : ℕ) : ℕ → ND ℂ → Py (List (ND ℂ) × ND ℂ × List (ND ℂ))
  | 0, Psi => .ok ([], Psi, [])
  | n + 1, Psi => do
    let (P, B, L) ← rightSplit svd d n Psi
    let (As, P, Ls) ← rightSplits d n P
    .ok (As ++ [B], P, Ls ++ [L])

/-- `fMPS.py:315-345` `right_from_state(state)`. -/
noncomputable def rightFromState (state : ND ℂ) : Py (FMPS ℂ × List (ND ℂ)) := do
  let d ← pyGet state.shape 0
  let L := state.rank
  let (As, _, Ls) ← rightSplits svd d L state
  .ok (⟨As, L, d, maxRight As, false, true, some 0, none⟩, Ls)

end Xmps.FMPS
