import Verif.Model.Orthogonalise
import Verif.Model.Canonicalise
import Verif.Model.TwoSite
import Verif.Model.MatchGauge
import Verif.Model.FromState

/-!
# Model of object identity: arrays, lists and `fMPS` objects in a heap (C40)

The other models treat objects as values.  Here an `fMPS` object refers to a Python list and the list refers to arrays, so that two objects can
share a list (`fMPS(x.data)`) or arrays (`x.copy()`, `x.apply(..)`, `x.mul(..)`, …), and an assignment in place (`self[oc] /= self.norm_`) is
seen through every reference.  The results of `numpy` and `scipy` calls are fresh arrays.  A method that raises keeps the changes made so far.
-/

namespace Xmps

/-- The attributes of an `fMPS` object (`fMPS.py:144-171`); `lst` is the reference to the list `self.data`. -/
structure Obj where
  lst : ℕ
  L : ℕ
  d : ℕ
  D : ℕ
  canonical : Bool := false
  orthogonal : Bool := false
  oc : Option ℕ := none
  norm_ : Option (ND ℂ) := none

/-- arrays, lists of references to arrays, objects; `na`, `nl`, `no` are the next free addresses -/
structure Heap where
  arr : ℕ → ND ℂ
  na : ℕ
  lst : ℕ → List ℕ
  nl : ℕ
  obj : ℕ → Obj
  no : ℕ

/-- a computation that changes the heap and returns or raises -/
def HM (α : Type) : Type := Heap → Py α × Heap

namespace HM

/-- do nothing -/
def ret {α : Type} (a : α) : HM α := fun h => (.ok a, h)

/-- one after the other; an exception ends the computation and the heap stays as it is -/
def andThen {α β : Type} (m : HM α) (f : α → HM β) : HM β := fun h =>
  match m h with
  | (.ok a, h') => f a h'
  | (.error e, h') => (.error e, h')

instance : Monad HM where
  pure := ret
  bind := andThen

/-- a computation on values -/
def lift {α : Type} (p : Py α) : HM α := fun h => (p, h)

/-- an attribute of the object `o` -/
def attr {α : Type} (o : ℕ) (f : Obj → α) : HM α := fun h => (.ok (f (h.obj o)), h)

/-- the reference `self.data[m]` -/
def cell (o m : ℕ) : HM ℕ := fun h => (pyGet (h.lst (h.obj o).lst) m, h)

/-- the array behind a reference -/
def load (a : ℕ) : HM (ND ℂ) := fun h => (.ok (h.arr a), h)

/-- a fresh array -/
def alloc (v : ND ℂ) : HM ℕ := fun h => (.ok h.na, { h with arr := Function.update h.arr h.na v, na := h.na + 1 })

/-- `self.data[m] = a` for a reference `a` -/
def setCell (o m a : ℕ) : HM Unit := fun h =>
  if m < (h.lst (h.obj o).lst).length then
    (.ok (), { h with lst := Function.update h.lst (h.obj o).lst ((h.lst (h.obj o).lst).set m a) })
  else (.error .indexError, h)

/-- `del self.data[m]` -/
def delCell (o m : ℕ) : HM Unit := fun h =>
  if m < (h.lst (h.obj o).lst).length then
    (.ok (), { h with lst := Function.update h.lst (h.obj o).lst ((h.lst (h.obj o).lst).eraseIdx m) })
  else (.error .indexError, h)

/-- write the array behind a reference -/
def poke (a : ℕ) (v : ND ℂ) : HM Unit := fun h => (.ok (), { h with arr := Function.update h.arr a v })

/-- assign attributes of the object `o` -/
def setAttr (o : ℕ) (f : Obj → Obj) : HM Unit := fun h => (.ok (), { h with obj := Function.update h.obj o (f (h.obj o)) })

/-- `self.data[m]` -/
def getItem (o m : ℕ) : HM (ND ℂ) := do
  let a ← cell o m
  load a

/-- `self.data[m] = v` for a fresh array -/
def setItem (o m : ℕ) (v : ND ℂ) : HM Unit := do
  let a ← alloc v
  setCell o m a

/-- `self[m] /= ..` with the result `w`: written into the array, and the same reference assigned again -/
def writeItem (o m : ℕ) (w : ND ℂ) : HM Unit := do
  let a ← cell o m
  poke a w
  setCell o m a

/-- a loop -/
def each {α : Type} (f : α → HM Unit) : List α → HM Unit
  | [] => pure ()
  | m :: l => do
    f m
    each f l

end HM

open HM

/-- the object as a value -/
def Heap.view (h : Heap) (o : ℕ) : FMPS ℂ :=
  { data := (h.lst (h.obj o).lst).map h.arr, L := (h.obj o).L, d := (h.obj o).d, D := (h.obj o).D, canonical := (h.obj o).canonical
    orthogonal := (h.obj o).orthogonal, oc := (h.obj o).oc, norm_ := (h.obj o).norm_ }

namespace HM

/-! ### methods that change the receiver -/

section
variable (qr rq : ND ℂ → Py (ND ℂ × ND ℂ)) (polar : ND ℂ → Py (ND ℂ × ND ℂ)) (svd : Svd) (eig : Eig)
  (O : Ncon.SetOrder)

/-- `fMPS.py:656-662`: the loop body of `right_orthogonalise`. -/
def rightStep (o m : ℕ) : HM Unit := do
  let T ← getItem o m
  let g ← lift (groupLegs T [[1], [0, 2]])
  let RQ ← lift (rq g.1)
  let Q' ← lift (ungroupLegs RQ.2 g.2)
  setItem o m Q'
  if m ≠ 0 then do
    let B ← getItem o (m - 1)
    let t ← lift (B.matmul RQ.1)
    setItem o (m - 1) t
  else setAttr o fun ob => { ob with norm_ := some RQ.1 }

/-- `fMPS.py:650-666` `right_orthogonalise`. -/
def rightOrth (o fr : ℕ) (upTo : Option ℕ) : HM Unit := do
  let L ← attr o Obj.L
  each (rightStep rq o) (List.range' fr (upTo.getD L - fr)).reverse
  if fr = 0 ∧ upTo.getD L = L then setAttr o fun ob => { ob with orthogonal := true, oc := some 0 } else pure ()

/-- `fMPS.py:674-680`: the loop body of `left_orthogonalise`. -/
def leftStep (o m : ℕ) : HM Unit := do
  let T ← getItem o m
  let g ← lift (groupLegs T [[0, 1], [2]])
  let QR ← lift (qr g.1)
  let Q' ← lift (ungroupLegs QR.1 g.2)
  setItem o m Q'
  let L ← attr o Obj.L
  if m + 1 ≠ L then do
    let B ← getItem o (m + 1)
    let t ← lift (QR.2.matmul B)
    setItem o (m + 1) t
  else setAttr o fun ob => { ob with norm_ := some QR.2 }

/-- `fMPS.py:668-684` `left_orthogonalise`. -/
def leftOrth (o fr : ℕ) (upTo : Option ℕ) : HM Unit := do
  let L ← attr o Obj.L
  each (leftStep qr o) (List.range' fr (upTo.getD L - fr))
  if fr = 0 ∧ upTo.getD L = L then setAttr o fun ob => { ob with orthogonal := true, oc := some L } else pure ()

/-- `fMPS.py:686-700` `mixed_orthogonalise`.  `self[oc] /= self.norm_` writes into the array and assigns the same reference again. -/
noncomputable def mixedOrth (o oc : ℕ) (currentOc : Option ℕ) : HM Unit := do
  lift (guardPy currentOc.isNone .notImplemented)
  rightOrth rq o oc none
  leftOrth qr o 0 (some oc)
  let A ← getItem o oc
  setAttr o fun ob => { ob with norm_ := some (scalarND ((ndNorm A : ℝ) : ℂ)) }
  writeItem o oc (A.smul (((ndNorm A : ℝ) : ℂ)⁻¹))
  setAttr o fun ob => { ob with orthogonal := true, oc := some oc }

/-- `fMPS.py:856-863` `post_select`. -/
def postSelect (o site which : ℕ) : HM Unit := do
  if site ≠ 0 then do
    let A ← getItem o (site - 1)
    let B ← getItem o site
    let Bw ← lift (B.slice0 which)
    let t ← lift (A.matmul Bw)
    setItem o (site - 1) t
    delCell o site
  else do
    let A ← getItem o site
    let Aw ← lift (A.slice0 which)
    let B ← getItem o (site + 1)
    let t ← lift (Aw.matmul B)
    setItem o (site + 1) t
    delCell o site

/-- `self[k], self[k+1] = apply_unitary([self[k], self[k+1]], U, which, D)` (`fMPS.py:887-893`) -/
noncomputable def pairStep (which : Side) (o : ℕ) (g : ND ℂ × ℕ × Option ℕ) : HM Unit := do
  let A ← getItem o g.2.1
  let B ← getItem o (g.2.1 + 1)
  let AB ← lift (applyUnitary qr rq svd O A B g.1 which g.2.2)
  setItem o g.2.1 AB.1
  setItem o (g.2.1 + 1) AB.2

/-- `fMPS.py:1260-1265`: the body of the loop of `match_gauge_to`. -/
noncomputable def matchStep (o o' i : ℕ) : HM Unit := do
  let A ← getItem o i
  let B ← getItem o' i
  let t ← lift (A.matmul B.hc)
  let S ← lift t.sum0
  let UP ← lift (polar S)
  let A' ← lift (UP.1.hc.matmul A)
  setItem o i A'
  if 0 < i then do
    let C ← getItem o (i - 1)
    let C' ← lift (C.matmul UP.1)
    setItem o (i - 1) C'
  else pure ()

/-- `fMPS.py:1253-1266` `self.match_gauge_to(mps)`. -/
noncomputable def matchGaugeTo (o o' : ℕ) : HM Unit := do
  let L ← attr o Obj.L
  each (matchStep polar o o') (List.range L).reverse

/-- fresh arrays -/
def allocs : List (ND ℂ) → HM (List ℕ)
  | [] => pure []
  | v :: vs => do
    let a ← alloc v
    let as ← allocs vs
    pure (a :: as)

/-- `self.data = As` for a new list of references, with the other attributes -/
def bindList (o : ℕ) (y : FMPS ℂ) (as : List ℕ) : HM Unit := fun h => (.ok (),
  { h with
    lst := Function.update h.lst h.nl as
    nl := h.nl + 1
    obj := Function.update h.obj o
      { lst := h.nl, L := y.L, d := y.d, D := y.D, canonical := y.canonical, orthogonal := y.orthogonal, oc := y.oc, norm_ := (h.obj o).norm_ } })

/-- `self.data = As` for a new list of fresh arrays -/
def rebind (o : ℕ) (y : FMPS ℂ) : HM Unit := do
  let as ← allocs y.data
  bindList o y as

/-- `fMPS.py:284-313` `left_from_state(state)`; when it raises `L` and `d` may have changed, which is not modelled. -/
noncomputable def leftFromState (o : ℕ) (state : ND ℂ) : HM Unit := do
  let y ← lift (FMPS.leftFromState svd state)
  rebind o y.1

/-- `fMPS.py:314-345` `right_from_state(state)`; when it raises `L` and `d` may have changed, which is not modelled. -/
noncomputable def rightFromState (o : ℕ) (state : ND ℂ) : HM Unit := do
  let y ← lift (FMPS.rightFromState svd state)
  rebind o y.1

/-- `self.data[m] = ..` for all tensors of a result, and its attributes.  A simplification: the methods below assign a fresh array to every cell they
change, some cells more than once; here the cells get the final arrays, and nothing is changed when the method raises. -/
def store (o : ℕ) (y : FMPS ℂ) : HM Unit := do
  each (fun m => do
    let v ← lift (pyGet y.data m)
    setItem o m v) (List.range y.data.length)
  setAttr o fun ob => { ob with D := y.D, canonical := y.canonical, orthogonal := y.orthogonal, oc := y.oc, norm_ := y.norm_ }

/-- `self.D = ..`, `self.canonical = ..`, …; with `setItem` this covers the methods not listed here that assign to `self[m]` and to attributes
(`expand`, `mixed_canonicalise`). -/
def setAttrs (o : ℕ) (D : ℕ) (canonical orthogonal : Bool) (oc : Option ℕ) (norm_ : Option (ND ℂ)) : HM Unit :=
  setAttr o fun ob => { ob with D := D, canonical := canonical, orthogonal := orthogonal, oc := oc, norm_ := norm_ }

/-- `fMPS.py:541-605` `left_canonicalise` (see `store`). -/
noncomputable def leftCan (o : ℕ) (D : Option ℕ) : HM Unit := fun h =>
  (do
    let y ← lift ((h.view o).leftCanonicalise svd eig D)
    store o y.1 : HM Unit) h

/-- `fMPS.py:465-540` `right_canonicalise` (see `store`). -/
noncomputable def rightCan (o : ℕ) (D : Option ℕ) : HM Unit := fun h =>
  (do
    let y ← lift ((h.view o).rightCanonicalise svd eig D)
    store o y.1 : HM Unit) h

/-! ### methods that return a new object -/

/-- `fMPS(data, d)` for a new list of references. -/
def newObj (cells : List ℕ) (d : Option ℕ) : HM ℕ := fun h =>
  match FMPS.init (cells.map h.arr) d with
  | .error e => (.error e, h)
  | .ok y => (.ok h.no, 
    { h with
      lst := Function.update h.lst h.nl cells
      nl := h.nl + 1
      obj := Function.update h.obj h.no { lst := h.nl, L := y.L, d := y.d, D := y.D }
      no := h.no + 1 })

/-- `fMPS(data, d)` for a list of arrays that belong to no object (`fMPS.py:144-171`) -/
def new (data : List (ND ℂ)) (d : Option ℕ) : HM ℕ := do
  let as ← allocs data
  newObj as d

/-- the references of the object -/
def cells (o : ℕ) : HM (List ℕ) := fun h => (.ok (h.lst (h.obj o).lst), h)

/-- `fMPS.py:913-914` `copy`: a new list of the same references. -/
def copy (o : ℕ) : HM ℕ := do
  let cs ← cells o
  newObj cs none

/-- `fMPS.py:850-854` `apply`: a new list, one new array. -/
def apply (o : ℕ) (op : ND ℂ) (site : ℕ) : HM ℕ := do
  let cs ← cells o
  let A ← getItem o site
  let t ← lift (op.tensordot A [1] [0])
  let a ← alloc t
  newObj (cs.set site a) none

/-- `fMPS.py:865-895` `apply_two_site`: a 2×2 operator gives a new object, otherwise the receiver is changed and returned. -/
noncomputable def applyTwoSite (o : ℕ) (op : ND ℂ) (sites : List ℕ) (which : Side) (D : Option ℕ) (truncateSwaps : Bool) : HM ℕ := do
  lift (guardPy (op.dim 0 == op.dim 1) .assertionError)
  if op.dim 0 = 2 then
    match sites with
    | [i] => apply o op i
    | _ => lift (.error .nameError)
  else
    match sites with
    | [i, j] => do
      each (pairStep qr rq svd O which o) (FMPS.gateList op (min i j) (max i j) D (if truncateSwaps then D else none))
      pure o
    | _ => lift (.error .valueError)

/-- `fMPS.py:256-259` `mul`: a new list, the first array is new. -/
def mul (o : ℕ) (c : ℂ) : HM ℕ := do
  let cs ← cells o
  match cs with
  | [] => newObj [] none
  | a :: cs => do
    let A ← load a
    let b ← alloc (A.smul c)
    newObj (b :: cs) none

/-- `fMPS.py:233-234` `append`. -/
def append (o : ℕ) (v : ND ℂ) : HM ℕ := do
  let cs ← cells o
  let a ← alloc v
  newObj (cs ++ [a]) none

/-- `fMPS.py:236-237` `extend`. -/
def extend (o o' : ℕ) : HM ℕ := do
  let cs ← cells o
  let cs' ← cells o'
  newObj (cs ++ cs') none

/-- `fMPS(x.data)`: the new object refers to the list of `x`. -/
def aliasOf (o : ℕ) : HM ℕ := fun h =>
  match FMPS.init (h.view o).data with
  | .error e => (.error e, h)
  | .ok y => (.ok h.no, 
    { h with
      obj := Function.update h.obj h.no { lst := (h.obj o).lst, L := y.L, d := y.d, D := y.D }
      no := h.no + 1 })

end

end HM

/-- the calls to LAPACK, and the order of Python sets -/
structure Ext where
  qr : ND ℂ → Py (ND ℂ × ND ℂ)
  rq : ND ℂ → Py (ND ℂ × ND ℂ)
  polar : ND ℂ → Py (ND ℂ × ND ℂ)
  svd : Svd
  eig : Eig
  order : Ncon.SetOrder

/-- a call of the constructor, or of a method on the object `o` -/
inductive Call
  | new (data : List (ND ℂ)) (d : Option ℕ)
  | setItem (o m : ℕ) (v : ND ℂ)
  | setAttrs (o D : ℕ) (canonical orthogonal : Bool) (oc : Option ℕ) (norm_ : Option (ND ℂ))
  | rightOrth (o fr : ℕ) (upTo : Option ℕ)
  | leftOrth (o fr : ℕ) (upTo : Option ℕ)
  | mixedOrth (o oc : ℕ) (currentOc : Option ℕ)
  | postSelect (o site which : ℕ)
  | matchGaugeTo (o o' : ℕ)
  | leftFromState (o : ℕ) (state : ND ℂ)
  | rightFromState (o : ℕ) (state : ND ℂ)
  | leftCan (o : ℕ) (D : Option ℕ)
  | rightCan (o : ℕ) (D : Option ℕ)
  | applyTwoSite (o : ℕ) (op : ND ℂ) (sites : List ℕ) (which : Side) (D : Option ℕ) (truncateSwaps : Bool)
  | copy (o : ℕ)
  | apply (o : ℕ) (op : ND ℂ) (site : ℕ)
  | mul (o : ℕ) (c : ℂ)
  | append (o : ℕ) (v : ND ℂ)
  | extend (o o' : ℕ)

/-- the receiver, for the methods that change it -/
def Call.changes : Call → Option ℕ
  | .setItem o _ _ | .setAttrs o _ _ _ _ _ | .rightOrth o _ _ | .leftOrth o _ _ | .mixedOrth o _ _ | .postSelect o _ _ | .matchGaugeTo o _ => some o
  | .leftFromState o _ | .rightFromState o _ | .leftCan o _ | .rightCan o _ => some o
  | .applyTwoSite o op _ _ _ _ => if op.dim 0 = 2 then none else some o
  | .new _ _ | .copy _ | .apply _ _ _ | .mul _ _ | .append _ _ | .extend _ _ => none

/-- the objects the call mentions -/
def Call.mentions : Call → List ℕ
  | .new _ _ => []
  | .setItem o _ _ | .setAttrs o _ _ _ _ _ | .rightOrth o _ _ | .leftOrth o _ _ | .mixedOrth o _ _ | .postSelect o _ _ => [o]
  | .leftFromState o _ | .rightFromState o _ | .leftCan o _ | .rightCan o _ | .applyTwoSite o _ _ _ _ _ => [o]
  | .copy o | .apply o _ _ | .mul o _ | .append o _ => [o]
  | .matchGaugeTo o o' | .extend o o' => [o, o']

/-- the heap after the call, whether it returns or raises -/
noncomputable def Call.run (E : Ext) : Call → Heap → Heap
  | .new data d, h => (HM.new data d h).2
  | .setItem o m v, h => (HM.setItem o m v h).2
  | .setAttrs o D c t oc n, h => (HM.setAttrs o D c t oc n h).2
  | .rightOrth o fr upTo, h => (HM.rightOrth E.rq o fr upTo h).2
  | .leftOrth o fr upTo, h => (HM.leftOrth E.qr o fr upTo h).2
  | .mixedOrth o oc c, h => (HM.mixedOrth E.qr E.rq o oc c h).2
  | .postSelect o s w, h => (HM.postSelect o s w h).2
  | .matchGaugeTo o o', h => (HM.matchGaugeTo E.polar o o' h).2
  | .leftFromState o s, h => (HM.leftFromState E.svd o s h).2
  | .rightFromState o s, h => (HM.rightFromState E.svd o s h).2
  | .leftCan o D, h => (HM.leftCan E.svd E.eig o D h).2
  | .rightCan o D, h => (HM.rightCan E.svd E.eig o D h).2
  | .applyTwoSite o op sites which D t, h => (HM.applyTwoSite E.qr E.rq E.svd E.order o op sites which D t h).2
  | .copy o, h => (HM.copy o h).2
  | .apply o op s, h => (HM.apply o op s h).2
  | .mul o c, h => (HM.mul o c h).2
  | .append o v, h => (HM.append o v h).2
  | .extend o o', h => (HM.extend o o' h).2

/-- no objects -/
def Heap.empty : Heap := ⟨fun _ => ⟨[], fun _ => 0⟩, 0, fun _ => [], 0, fun _ => { lst := 0, L := 0, d := 0, D := 0 }, 0⟩

/-- one call after the other; exceptions are caught -/
noncomputable def runs (E : Ext) : List Call → Heap → Heap
  | [], h => h
  | c :: cs, h => runs E cs (c.run E h)

/-- the calls mention only objects that exist -/
def Valid (E : Ext) : List Call → Heap → Prop
  | [], _ => True
  | c :: cs, h => (∀ o ∈ c.mentions, o < h.no) ∧ Valid E cs (c.run E h)

end Xmps
