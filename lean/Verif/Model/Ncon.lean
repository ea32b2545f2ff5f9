import Mathlib.Data.Finset.Basic
import Mathlib.Data.Finset.Range
import Verif.Base.NpOps

/-!
# Model of `xmps/ncon.py`

Simplifications: tensors are plain `numpy.ndarray`s (the `try`/`except AttributeError` branches for
other tensor classes are not modelled); the printed text of an error is not modelled.
Python `set`s of tensor positions are `Finset`s; what `set.pop` and `list(set)` return is a
parameter `SetOrder`, so that the theorems hold for every iteration order.
-/

namespace Xmps.Ncon

open Xmps

variable {K : Type}

/-- The iteration order of Python sets: `s.pop()` and `list(s)` (unspecified by the language). -/
structure SetOrder where
  pop : Finset ℕ → ℕ
  pop_mem : ∀ s : Finset ℕ, s.Nonempty → pop s ∈ s
  list : Finset ℤ → List ℤ
  nodup_list : ∀ s, (list s).Nodup
  mem_list : ∀ s x, x ∈ list s ↔ x ∈ s

/-- `ncon.py:89-95` `create_order`: unique positive indices, ascending. -/
def createOrder (v : List (List ℤ)) : List ℤ :=
  ((v.flatten.filter (fun i => decide (0 < i))).dedup).mergeSort (fun a b => decide (a ≤ b))

/-- `ncon.py:98-106` `create_forder`: unique negative indices, descending. -/
def createForder (v : List (List ℤ)) : List ℤ :=
  ((v.flatten.filter (fun i => decide (i < 0))).dedup).mergeSort (fun a b => decide (b ≤ a))

/-- `ncon.py:131-132`: positions of the tensors sharing an index with tensor `i`
(`i` itself included when it has an index). -/
def neighs (v : List (List ℤ)) (vi : List ℤ) : List ℕ :=
  (List.range v.length).filter fun j => vi.any fun x => decide (x ∈ v.getD j [])

/-- `ncon.py:125-135`: the inner `while to_visit` loop of `connect_graph`.
State: `unvisited`, `visited`, `component`, `to_visit`. -/
def innerLoop (O : SetOrder) (v : List (List ℤ)) :
    ℕ → Finset ℕ → Finset ℕ → Finset ℕ → Finset ℕ → Py (Finset ℕ × Finset ℕ × Finset ℕ)
  | 0, un, vis, comp, tv => if tv = ∅ then .ok (un, vis, comp) else .error .diverges
  | fuel + 1, un, vis, comp, tv =>
    if tv = ∅ then .ok (un, vis, comp)
    else do
      let i := O.pop tv
      let vi ← pyGet v i
      let vis' := insert i vis
      let tv' := (neighs v vi).foldl (fun t j => if j ∈ vis' then t else insert j t) (tv.erase i)
      innerLoop O v fuel (un.erase i) vis' (insert i comp) tv'

/-- `ncon.py:121-136`: the outer `while unvisited` loop of `connect_graph`; returns `ccomponents`. -/
def outerLoop (O : SetOrder) (v : List (List ℤ)) (n : ℕ) :
    ℕ → Finset ℕ → Finset ℕ → List (Finset ℕ) → Py (List (Finset ℕ))
  | 0, un, _, acc => if un = ∅ then .ok acc else .error .diverges
  | fuel + 1, un, vis, acc =>
    if un = ∅ then .ok acc
    else do
      let next := O.pop un
      let (un', vis', comp) ← innerLoop O v (n + 1) (un.erase next) vis ∅ {next}
      outerLoop O v n fuel un' vis' (acc ++ [comp])

/-- `np.expand_dims(A, ax)` for `0 ≤ ax` (`AxisError` past the end). -/
def expandDims (A : ND K) (ax : ℕ) : Py (ND K) :=
  if ax ≤ A.rank then
    .ok ⟨A.shape.take ax ++ 1 :: A.shape.drop ax, fun idx => A.val (idx.take ax ++ idx.drop (ax + 1))⟩
  else .error .valueError

/-- `ncon.py:156-159`: `max(order)+1`, or 1 for an empty order. -/
def dimNum : List ℤ → ℤ
  | [] => 1
  | x :: xs => xs.foldl max x + 1

/-- The three lists that `connect_graph` modifies in place. -/
structure Net (K : Type) where
  AA : List (ND K)
  v : List (List ℤ)
  order : List ℤ

/-- `ncon.py:143-162`: connect tensors `c` and `d` by a new index of extent 1. -/
def link (N : Net K) (c d : ℕ) : Py (Net K) := do
  let Ac ← pyGet N.AA c
  let Ad ← pyGet N.AA d
  let vc ← pyGet N.v c
  let vd ← pyGet N.v d
  let Ac' ← expandDims Ac vc.length
  let Ad' ← expandDims Ad vd.length
  let x := dimNum N.order
  let v1 := N.v.set c (vc ++ [x])
  let vd1 ← pyGet v1 d
  .ok ⟨(N.AA.set c Ac').set d Ad', v1.set d (vd1 ++ [x]), N.order ++ [x]⟩

/-- `ncon.py:142-162`: `while ccomponents`.  The list is given last component first
(`ccomponents.pop()` takes the last one). -/
def linkLoop (O : SetOrder) (c : ℕ) : List (Finset ℕ) → Net K → Py (Net K)
  | [], N => .ok N
  | s :: rest, N => do
    let N' ← link N c (O.pop s)
    linkLoop O c rest N'

/-- `ncon.py:109-163` `connect_graph`: returns the modified `AA`, `v` and `order`. -/
def connectGraph (O : SetOrder) (N : Net K) : Py (Net K) := do
  let n := N.AA.length
  let cc ← outerLoop O N.v n (n + 1) (Finset.range n) ∅ []
  match cc.reverse with
  | [] => .error .indexError            -- `ccomponents.pop()` of an empty list
  | s :: rest => linkLoop O (O.pop s) rest N

/-- `ncon.py:166-191` `get_tcon`. -/
def getTcon (v : List (List ℤ)) (index : ℤ) : Py (List ℕ) :=
  let tcon := (List.range v.length).filter fun i => decide (index ∈ v.getD i [])
  if tcon.length > 2 then .error .valueError
  else if tcon.length < 1 then .error .valueError
  else if tcon.length = 1 then
    if (v.getD (tcon.getD 0 0) []).count index ≠ 2 then .error .valueError else .ok tcon
  else .ok tcon

/-- `ncon.py:194-201` `get_icon`. -/
def getIcon (O : SetOrder) (v0 v1 : List ℤ) : List ℤ := O.list (v0.toFinset ∩ v1.toFinset)

/-- `ncon.py:208` `[i for i, x in enumerate(l) if x == e]`. -/
def positions (l : List ℤ) (e : ℤ) : List ℕ :=
  (List.range l.length).filter fun i => decide (l.getD i 0 = e)

/-- `ncon.py:204-215` `get_pos` for one tensor. -/
def getPos (l : List ℤ) (icon : List ℤ) : List ℕ := icon.flatMap (positions l)

/-- `ncon.py:218-227` `find_newv` (`l` is `v[tcon[0]] + v[tcon[1]]`, or `v[tcon[0]]` for a trace). -/
def findNewv (l : List ℤ) (icon : List ℤ) : List ℤ := l.filter (· ∉ icon)

/-- `ncon.py:230-232` `renew_order`. -/
def renewOrder (order icon : List ℤ) : List ℤ := order.filter (· ∉ icon)

/-- `ncon.py:74-79`: `for i in sorted(tcon, reverse=True): del l[i]` (`tcon` is ascending). -/
def delAll {α : Type} (tcon : List ℕ) (l : List α) : List α :=
  tcon.reverse.foldl (fun l i => l.eraseIdx i) l

/-- `ncon.py:55-80`: one pass of the main loop, `o` being `order[0]`. -/
def step [AddCommMonoid K] [Mul K] (O : SetOrder) (N : Net K) (o : ℤ) : Py (Net K) := do
  let tcon ← getTcon N.v o
  let t0 ← pyGet tcon 0
  let v0 ← pyGet N.v t0
  if tcon.length = 1 then do
    let icon := [o]
    let pos1 := getPos v0 icon
    let a1 ← pyGet pos1 0
    let a2 ← pyGet pos1 1
    let A0 ← pyGet N.AA t0
    let newA ← A0.trace a1 a2
    .ok ⟨delAll tcon (N.AA ++ [newA]), delAll tcon (N.v ++ [findNewv v0 icon]),
      renewOrder N.order icon⟩
  else do
    let t1 ← pyGet tcon 1
    let v1 ← pyGet N.v t1
    let icon := getIcon O v0 v1
    let A0 ← pyGet N.AA t0
    let A1 ← pyGet N.AA t1
    let newA ← A0.tensordot A1 (getPos v0 icon) (getPos v1 icon)
    .ok ⟨delAll tcon (N.AA ++ [newA]), delAll tcon (N.v ++ [findNewv (v0 ++ v1) icon]),
      renewOrder N.order icon⟩

/-- `ncon.py:54-80`: `while len(order) > 0`. -/
def mainLoop [AddCommMonoid K] [Mul K] (O : SetOrder) : ℕ → Net K → Py (Net K)
  | fuel, N =>
    match N.order with
    | [] => .ok N
    | o :: _ =>
      match fuel with
      | 0 => .error .diverges
      | fuel + 1 => do
        let N' ← step O N o
        mainLoop O fuel N'

/-- `v.index(i)` (`ValueError` when absent). -/
def indexOf (v : List ℤ) (i : ℤ) : Py ℕ := if i ∈ v then .ok (v.idxOf i) else .error .valueError

/-- `ncon.py:235-244` `permute_final`. -/
def permuteFinal (A : ND K) (v forder : List ℤ) : Py (ND K) := do
  let perm ← forder.mapM (indexOf v)
  A.transpose perm

/-- `ncon.py:280`: the `(tensor, leg)` pairs carrying label `e`, in order. -/
def occurrences (v : List (List ℤ)) (e : ℤ) : List (ℕ × ℕ) :=
  (List.range v.length).flatMap fun i => (positions (v.getD i []) e).map fun j => (i, j)

/-- `ncon.py:283-299`: check of one contracted index. -/
def checkContracted (AA : List (ND K)) (v : List (List ℤ)) (e : ℤ) : Py Unit :=
  match occurrences v e with
  | [(a0, i0), (a1, i1)] => do
    let A0 ← pyGet AA a0
    let A1 ← pyGet AA a1
    let d0 ← pyGet A0.shape i0
    let d1 ← pyGet A1.shape i1
    if d0 = d1 then .ok () else .error .valueError
  | _ => .error .valueError

/-- `ncon.py:247-306` `do_check_indices`. -/
def doCheckIndices (AA : List (ND K)) (v : List (List ℤ)) (order forder : List ℤ) : Py Unit := do
  guardPy (AA.length == v.length) .valueError
  (List.range v.length).forM fun i => do
    let l ← pyGet v i
    let A ← pyGet AA i
    guardPy (l.length == A.rank) .valueError
  order.forM fun e => checkContracted AA v e
  forder.forM fun e => guardPy (v.flatten.count e == 1) .valueError

/-- First argument of `ncon`: one array or an iterable of arrays. -/
inductive TArg (K : Type)
  | one (A : ND K)
  | many (AA : List (ND K))

/-- Second argument of `ncon`: one list of labels or a list of lists. -/
inductive VArg
  | flat (l : List ℤ)
  | nested (v : List (List ℤ))

/-- `ncon.py:30-33` -/
def TArg.toList : TArg K → List (ND K)
  | .one A => [A]
  | .many AA => AA

/-- `ncon.py:34-39`; `v[0]` raises `IndexError` on an empty sequence. -/
def VArg.toList : VArg → Py (List (List ℤ))
  | .flat [] => .error .indexError
  | .flat l => .ok [l]
  | .nested [] => .error .indexError
  | .nested v => .ok v

/-- `ncon.py:41-85`: the body of `ncon` after the arguments have been turned into lists.
The second component is the `order` list object after the call: `connect_graph` appends to it. -/
def nconBody [AddCommMonoid K] [Mul K] (O : SetOrder) (AA : List (ND K)) (v : List (List ℤ))
    (order forder : List ℤ) (check : Bool) : Py (ND K × List ℤ) := do
  if check then doCheckIndices AA v order forder
  let N ← connectGraph O ⟨AA, v, order⟩
  let M ← mainLoop O N.order.length N
  let vlast ← pyGet M.v 0
  let A ← pyGet M.AA 0
  let R ← permuteFinal A vlast forder
  .ok (R, N.order)

/-- `ncon.py:7-85` `ncon`, together with the content of the list passed as `order` after the call
(`none` when none was passed). -/
def nconEff [AddCommMonoid K] [Mul K] (O : SetOrder) (AA : TArg K) (v : VArg)
    (order : Option (List ℤ) := none) (forder : Option (List ℤ) := none) (check : Bool := true) :
    Py (ND K × Option (List ℤ)) := do
  let v ← v.toList
  let ord := order.getD (createOrder v)
  let ford := forder.getD (createForder v)
  let (R, ord') ← nconBody O AA.toList v ord ford check
  .ok (R, order.map fun _ => ord')

/-- `ncon.py:7-85` `ncon(AA, v, order, forder, check_indices)`: the returned array. -/
def ncon [AddCommMonoid K] [Mul K] (O : SetOrder) (AA : TArg K) (v : VArg)
    (order : Option (List ℤ) := none) (forder : Option (List ℤ) := none) (check : Bool := true) :
    Py (ND K) :=
  (nconEff O AA v order forder check).map Prod.fst

end Xmps.Ncon
