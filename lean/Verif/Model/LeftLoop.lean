import Verif.Model.Envs

/-!
# Model of the loops of `left_transfer` (`left_transfer.pyx:3-8`, `fMPS.py:41-46`, `fMPS.py:815-820`)

`FMPS.leftTransferList` (`Model/Envs.lean`) is a recursion; here are the loops as they are written: the compiled one and its copy in `fMPS.py` that is used,
which append to a list and turn it round, and the one inside the method, which is not used and inserts in front.  Sites are natural numbers (the compiled
function takes C integers).
-/

namespace Xmps.LeftLoop

variable {K : Type} [AddCommMonoid K] [Mul K] [Star K]

/-- `left_transfer.pyx:5`, `fMPS.py:43`: `range(i-1, j-1, -1)` -/
def sites (j i : ℕ) : List ℕ := (List.range (i - j)).map fun k => i - 1 - k

/-- `left_transfer.pyx:5-7`, `fMPS.py:43-45`: the loop, over the sites that are left; `Ls[-1]` is the last entry -/
def loopAppend (As : List (ND K)) : List ℕ → List (ND K) → Py (List (ND K))
  | [], Ls => .ok Ls
  | m :: ms, Ls => do
    let A ← pyGet As m
    let L ← pyGetI Ls (-1)
    let W ← FMPS.transferStep A L
    loopAppend As ms (Ls ++ [W])

/-- `left_transfer.pyx:3-8` `lt(op, As, j, i)`, and `fMPS.py:41-46` `lt_`, the same text -/
def lt (op : ND K) (As : List (ND K)) (j i : ℕ) : Py (List (ND K)) := do
  let Ls ← loopAppend As (sites j i) [op]
  .ok Ls.reverse

/-- `fMPS.py:817-819`: the loop of the inner function -/
def loopInsert (As : List (ND K)) : List ℕ → List (ND K) → Py (List (ND K))
  | [], Ls => .ok Ls
  | m :: ms, Ls => do
    let A ← pyGet As m
    let L ← pyGet Ls 0
    let W ← FMPS.transferStep A L
    loopInsert As ms (W :: Ls)

/-- `fMPS.py:815-820`: the inner function `lt(op, As, j, i)` of `left_transfer`; `reversed(range(j, i))` -/
def ltInner (op : ND K) (As : List (ND K)) (j i : ℕ) : Py (List (ND K)) := loopInsert As (List.range' j (i - j)).reverse [op]

end Xmps.LeftLoop
