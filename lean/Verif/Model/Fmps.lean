import Verif.Base.NpMore
import Verif.Model.Ncon

/-!
# Model of `xmps/fMPS.py`: the class `fMPS`, state arithmetic and overlaps

An object is a record of its attributes; an attribute that may be missing is an `Option`.
The memoisation ids (`self.id`, ...) are modelled with the caches, not here.
Site arguments are non-negative (Python's negative indices are not modelled).
`nc` below is `fMPS.py:63-64`: `ncon` with `check_indices=False`.
-/

namespace Xmps

open Finset Xmps.Ncon

variable {K : Type}

/-- The attributes of an `fMPS` object (`fMPS.py:144-171`). -/
structure FMPS (K : Type) where
  data : List (ND K)
  L : ℕ
  d : ℕ
  D : ℕ
  canonical : Bool := false
  orthogonal : Bool := false
  oc : Option ℕ := none
  norm_ : Option (ND K) := none

/-- `max(l)`: `ValueError` on an empty sequence. -/
def pyMax : List ℕ → Py ℕ
  | [] => .error .valueError
  | a :: l => .ok (l.foldl max a)

/-- `fMPS.py:63-64`: `ncon(tensors, labels)` without the index check. -/
def nc [AddCommMonoid K] [Mul K] (O : SetOrder) (AA : List (ND K)) (v : List (List ℤ)) : Py (ND K) :=
  ncon O (.many AA) (.nested v) none none false

namespace FMPS

/-- `fMPS.py:280-282` `bond_dimension`. -/
def bondDimension (data : List (ND K)) : Py ℕ := do
  let ms ← data.mapM fun x => pyMax x.shape.tail
  pyMax ms

/-- `fMPS.py:148-171` `fMPS(data, d)` with `D=None`. -/
def init (data : List (ND K)) (d : Option ℕ := none) : Py (FMPS K) := do
  let d ← match d with
    | some d => .ok d
    | none => do
      let A ← pyGet data 0
      pyGet A.shape 0
  let D ← bondDimension data
  .ok { data := data, L := data.length, d := d, D := D }

/-- `fMPS.py:727-729` `structure`: `x[0].shape` for each tensor. -/
def structure_ (data : List (ND K)) : Py (List (List ℕ)) :=
  data.mapM fun x => do
    let s ← x.slice0 0
    .ok s.shape

/-- `fMPS.py:351-353`: `reduce(dot, map(lambda k_x: k_x[1][ij[k_x[0]]], enumerate(data)))[0][0]`;
`reduce` of an empty sequence raises `TypeError`. -/
def amplitudeAt [AddCommMonoid K] [Mul K] (data : List (ND K)) (ij : List ℕ) : Py K := do
  let ms ← data.zipIdx.mapM fun (x, k) => do
    let i ← pyGet ij k
    x.slice0 i
  match ms with
  | [] => .error .typeError
  | m :: ms => do
    let M ← ms.foldlM (fun acc x => acc.matmul x) m
    let row ← M.slice0 0
    let e ← row.slice0 0
    .ok (e.val [])

/-- `fMPS.py:347-354` `recombine`. -/
def recombine [AddCommMonoid K] [Mul K] (x : FMPS K) : Py (ND K) :=
  ND.build (List.replicate x.L x.d) (amplitudeAt x.data)

/-- `fMPS.py:229-230`: the zero array with the two tensors written into its diagonal blocks.
(numpy would also broadcast a tensor `b` with first extent 1; not modelled.) -/
def blockDiag [Zero K] (a b : ND K) : Py (ND K) :=
  match a.shape, b.shape with
  | [d, l, r], [d', l', r'] =>
    if d = d' then .ok ⟨[d, l + l', r + r'], fun
      | [s, i, j] =>
        if i < l then (if j < r then a.val [s, i, j] else 0)
        else if j < r then 0 else b.val [s, i - l, j - r]
      | _ => 0⟩
    else .error .valueError
  | _, _ => .error .indexError

/-- `fMPS.py:223-230`: the loop of `add`; `first` is `i == 0`, the last site is `i == L-1`. -/
def addSites [Zero K] : Bool → List (ND K) → List (ND K) → Py (List (ND K))
  | _, [], _ => .ok []
  | first, a :: as, b :: bs => do
    let t ← if first then a.concat b 2 else if as.isEmpty then a.concat b 1 else blockDiag a b
    let ts ← addSites false as bs
    .ok (t :: ts)
  | _, _ :: _, [] => .error .indexError

/-- `fMPS.py:219-231` `add`. -/
def add [Zero K] (x y : FMPS K) : Py (FMPS K) := do
  guardPy (x.L ≤ x.data.length) .indexError
  let ts ← addSites true (x.data.take x.L) y.data
  init ts

/-- `fMPS.py:211-217` `__add__` (itemwise). -/
def addItem [Add K] (x y : FMPS K) : Py (FMPS K) := do
  let ts ← (x.data.zip y.data).mapM fun (a, b) => a.zipNd (· + ·) b
  init ts

/-- `fMPS.py:239-245` `__sub__` (itemwise). -/
def subItem [Sub K] (x y : FMPS K) : Py (FMPS K) := do
  let ts ← (x.data.zip y.data).mapM fun (a, b) => a.zipNd (· - ·) b
  init ts

/-- `fMPS.py:233-234` `append`. -/
def append (x : FMPS K) (t : ND K) : Py (FMPS K) := init (x.data ++ [t])

/-- `fMPS.py:236-237` `extend`. -/
def extend (x y : FMPS K) : Py (FMPS K) := init (x.data ++ y.data)

/-- `fMPS.py:247-254` `__mul__` / `__rmul__`. -/
def mulItem [Mul K] (x : FMPS K) (c : K) : Py (FMPS K) := init (x.data.map (ND.smul c)) (some x.d)

/-- `fMPS.py:268-275` `__truediv__`. -/
def truediv [Mul K] [Inv K] (x : FMPS K) (c : K) : Py (FMPS K) := x.mulItem c⁻¹

/-- `fMPS.py:256-259` `mul`. -/
def mul [Mul K] (x : FMPS K) (c : K) : Py (FMPS K) :=
  init (x.data.mapIdx fun i t => if i = 0 then t.smul c else t)

/-- `np.expand_dims(np.expand_dims(A, -1), -1)` for a vector. -/
def column (v : List K) [Zero K] : ND K :=
  ⟨[v.length, 1, 1], fun
    | [s, _, _] => v.getD s 0
    | _ => 0⟩

/-- `fMPS.py:766-769` `from_product_state`. -/
def fromProductState [Zero K] (ps : List (List K)) : Py (FMPS K) := init (ps.map fun v => column v)

/-- `fMPS.py:850-854` `apply`. -/
def apply [AddCommMonoid K] [Mul K] (x : FMPS K) (op : ND K) (site : ℕ) : Py (FMPS K) := do
  let A ← pyGet x.data site
  let t ← op.tensordot A [1] [0]
  init (x.data.set site t)

/-- `fMPS.py:856-863` `post_select`: changes the receiver (`L` is not updated). -/
def postSelect [AddCommMonoid K] [Mul K] (x : FMPS K) (site which : ℕ) : Py (FMPS K) := do
  if site ≠ 0 then
    let A ← pyGet x.data (site - 1)
    let B ← pyGet x.data site
    let Bw ← B.slice0 which
    let t ← A.matmul Bw
    .ok { x with data := (x.data.set (site - 1) t).eraseIdx site }
  else
    let A ← pyGet x.data site
    let Aw ← A.slice0 which
    let B ← pyGet x.data (site + 1)
    let t ← Aw.matmul B
    .ok { x with data := (x.data.set (site + 1) t).eraseIdx site }

/-- `fMPS.py:741-742`: one step of the loop in `overlap`. -/
def overlapStep [AddCommMonoid K] [Mul K] [Star K] (O : SetOrder) (F t b : ND K) : Py (ND K) :=
  nc O [F, t, b.conj] [[1, 2], [3, 1, -1], [3, 2, -2]]

/-- `fMPS.py:731-743` `overlap`. -/
def overlap [AddCommMonoid K] [Mul K] [One K] [Star K] (O : SetOrder) (x y : FMPS K) : Py (ND K) := do
  guardPy (x.data.length == y.data.length) .assertionError
  let F ← (x.data.zip y.data).foldlM (fun F (t, b) => overlapStep O F t b) (onesND [1, 1])
  .ok F.squeeze

/-- `fMPS.py:784-788` `norm`. -/
def norm [AddCommMonoid K] [Mul K] [One K] [Star K] (O : SetOrder) (x : FMPS K) : Py (ND K) := overlap O x x

/-- `fMPS.py:781-782` `full_overlap`; `@` of two vectors needs equal lengths. -/
def fullOverlap [AddCommMonoid K] [Mul K] [Star K] (x y : FMPS K) : Py K := do
  let a ← x.recombine
  let b ← y.recombine
  if a.size = b.size then
    .ok (∑ k ∈ range a.size, star (a.val (unravel a.shape k)) * b.val (unravel b.shape k))
  else .error .valueError

/-- `fMPS.py:913-914` `copy`. -/
def copy (x : FMPS K) : Py (FMPS K) := init x.data

end FMPS

end Xmps
