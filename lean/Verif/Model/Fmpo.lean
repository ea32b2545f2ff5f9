import Verif.Model.Fmps
import Verif.Model.TransferMatrix

/-!
# Model of `fMPO` (`fPEPS.py:161-250`)

Legs of the arrays: up, right, down, left.
-/

namespace Xmps

open Xmps.Ncon

/-- `fMPO`: the attributes -/
structure FMPO where
  data : List (ND ℂ)
  L : ℕ
  d : ℕ
  X : ℕ

namespace FMPO

/-- `fPEPS.py:170-171`: `max([max(x.shape[1:]) for x in data])`, `ValueError` when empty -/
def maxBond (data : List (ND ℂ)) : Py ℕ := do
  let ms ← data.mapM fun x => if x.shape.tail = [] then .error .valueError else .ok (x.shape.tail.foldl max 0)
  if ms = [] then .error .valueError else .ok (ms.foldl max 0)

/-- `fPEPS.py:162-171` `fMPO(data, d, X)` with data -/
def init (data : List (ND ℂ)) (d X : Option ℕ := none) : Py FMPO := do
  let d ← match d with
    | some d => .ok d
    | none => do
      let A ← pyGet data 0
      pyGet A.shape 0
  let X ← match X with
    | some X => .ok X
    | none => maxBond data
  .ok ⟨data, data.length, d, X⟩

/-- `fPEPS.py:180-183`: the tensor of a product -/
def mulTensor (O : SetOrder) (W W' : ND ℂ) : Py (ND ℂ) := do
  let t ← nc O [W, W'] [[1, -3, -4, -6], [-1, -2, 1, -5]]
  t.reshape [W'.dim 0, W.dim 1 * W'.dim 1, W.dim 2, W'.dim (W'.rank - 1) * W.dim (W.rank - 1)]

/-- `fPEPS.py:173-185` `A * B` for two MPOs; `zip` stops at the shorter list. -/
def mul (O : SetOrder) (A B : FMPO) : Py FMPO := do
  let data ← (A.data.zip B.data).mapM fun (W, W') => mulTensor O W W'
  init data (some A.d) (some (A.X * B.X))

/-- `fPEPS.py:238-243` `fMPO().from_mps(mps)`; `np.expand_dims(t, 0)` adds a leg of extent 1 in front. -/
def fromMps (x : FMPS ℂ) : Py FMPO := do
  let data ← x.data.mapM fun A => do
    let t ← A.transpose [2, 0, 1]
    .ok ⟨1 :: t.shape, fun idx => t.val idx.tail⟩
  .ok ⟨data, x.L, x.d, x.D⟩

/-- `fPEPS.py:173-185` `A * x` for an MPO and an MPS -/
def mulMps (O : SetOrder) (A : FMPO) (x : FMPS ℂ) : Py FMPO := do
  let B ← fromMps x
  mul O A B

/-- `fPEPS.py:246-247`: the labels of `recombine` -/
def recLabels (L : ℕ) : List (List ℤ) :=
  [[-1, 1, -(L : ℤ) - 1, (L : ℤ) + 1]] ++
  ((List.range (L - 2)).map fun (n : ℕ) => [-(n : ℤ) - 2, (n : ℤ) + 2, -(L : ℤ) - 2 - n, (n : ℤ) + 1]) ++
  [[-(L : ℤ), (L : ℤ) + 1, -2 * (L : ℤ), (L : ℤ) - 1]]

/-- `fPEPS.py:245-250` `recombine` -/
def recombine (O : SetOrder) (A : FMPO) : Py (ND ℂ) := do
  let M ← nc O A.data (recLabels A.L)
  let M ← M.reshape [(M.shape.take A.L).prod, (M.shape.drop A.L).prod]
  .ok M.conj.tr

/-- `fPEPS.py:187-189` `transpose_ud` -/
def transposeUd (A : FMPO) : Py FMPO := do
  let data ← A.data.mapM (·.transpose [2, 1, 0, 3])
  .ok { A with data := data }

/-- `fPEPS.py:191-193` `transpose_lr` -/
def transposeLr (A : FMPO) : Py FMPO := do
  let data ← A.data.mapM (·.transpose [0, 3, 2, 1])
  .ok { A with data := data }

/-- `fPEPS.py:204-206` `reverse` -/
def reverse (A : FMPO) : FMPO := { A with data := A.data.reverse }

end FMPO

end Xmps
