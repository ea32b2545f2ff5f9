import Verif.Model.Orthogonalise

/-!
# Model of `fMPS.right_canonicalise`, `left_canonicalise`, `mixed_canonicalise` (`fMPS.py:463-648`)

`svd` is `scipy.linalg.svd` as wrapped by `svd_robust`, `eig` is `numpy.linalg.eig`.
The methods change the receiver and return it; the model returns the changed object, together with
the attribute `Ls` where the method sets it.  `testing=True` (consistency checks printed nowhere) is
not modelled.  Rank is counted exactly; in floating point a zero singular value is usually not
exactly zero.
-/

namespace Xmps

open Finset

variable {K : Type}

/-- `concatenate(T, axis=0)` of a site tensor (as `concatenate` of the list of its slices): `(d*l, r)`. -/
def catRows (T : ND K) : Py (ND K) :=
  match T.shape with
  | [0, _, _] => .error .valueError
  | [d, l, r] => .ok ⟨[d * l, r], fun
      | [i, c] => T.val [i / l, i % l, c]
      | idx => T.val idx⟩
  | _ => .error .valueError

/-- `concatenate(T, axis=1)` of a site tensor: `(l, d*r)`. -/
def catCols (T : ND K) : Py (ND K) :=
  match T.shape with
  | [0, _, _] => .error .valueError
  | [d, l, r] => .ok ⟨[l, d * r], fun
      | [a, j] => T.val [j / r, a, j % r]
      | idx => T.val idx⟩
  | _ => .error .valueError

/-- `array(chop(M, d, axis=0))`, `chop = numpy.split`: the sections must be of equal size. -/
def chopRows (M : ND K) (d : ℕ) : Py (ND K) :=
  match M.shape with
  | [m, n] => if d = 0 ∨ m % d ≠ 0 then .error .valueError else .ok ⟨[d, m / d, n], fun
      | [s, a, c] => M.val [s * (m / d) + a, c]
      | idx => M.val idx⟩
  | _ => .error .valueError

/-- `array(chop(M, d, axis=1))`. -/
def chopCols (M : ND K) (d : ℕ) : Py (ND K) :=
  match M.shape with
  | [m, n] => if d = 0 ∨ n % d ≠ 0 then .error .valueError else .ok ⟨[d, m, n / d], fun
      | [s, a, c] => M.val [a, s * (n / d) + c]
      | idx => M.val idx⟩
  | _ => .error .valueError

/-- `A[..., :D, ...]` on axis `ax`. -/
def ND.head (A : ND K) (ax D : ℕ) : ND K := ⟨A.shape.set ax (min D (A.dim ax)), A.val⟩

/-- `tensor.py:185-190` `H` (`cT` in `fMPS.py`): conjugate, last two axes swapped (rank 2 and 3). -/
def ND.hc [Star K] (A : ND K) : ND K :=
  match A.shape with
  | [m, n] => ⟨[n, m], fun
      | [i, j] => star (A.val [j, i])
      | idx => A.val idx⟩
  | [d, m, n] => ⟨[d, n, m], fun
      | [s, i, j] => star (A.val [s, j, i])
      | idx => A.val idx⟩
  | _ => A

open Classical in
/-- `tensor.py:299-304` `rank`: number of non-zero diagonal entries. -/
noncomputable def diagRank [Zero K] (S : ND K) : ℕ :=
  ((range (min (S.dim 0) (S.dim 1))).filter fun i => S.val [i, i] ≠ 0).card

/-- `tensor.py:199-216` `truncate_A`. -/
noncomputable def truncateA [Zero K] (A S V : ND K) (D : Option ℕ) (minD : Bool) : ND K × ND K × ND K :=
  match D, minD with
  | none, false => (A, S, V)
  | none, true => (A.head 2 (diagRank S), (S.head 0 (diagRank S)).head 1 (diagRank S), V.head 0 (diagRank S))
  | some D, _ => (A.head 2 D, (S.head 0 D).head 1 D, V.head 0 D)

/-- `tensor.py:218-232` `truncate_B`. -/
noncomputable def truncateB [Zero K] (U S B : ND K) (D : Option ℕ) (minD : Bool) : ND K × ND K × ND K :=
  match D, minD with
  | none, false => (U, S, B)
  | none, true => (U.head 1 (diagRank S), (S.head 0 (diagRank S)).head 1 (diagRank S), B.head 1 (diagRank S))
  | some D, _ => (U.head 1 D, (S.head 0 D).head 1 D, B.head 1 D)

/-- `diag(S)` of the singular values, as a complex matrix. -/
noncomputable def diagC (S : List ℝ) : ND ℂ := diagND (S.map Complex.ofReal)

/-- `svd` as used here: left vectors, singular values, right vectors, `full_matrices=False`. -/
abbrev Svd := ND ℂ → Py (ND ℂ × List ℝ × ND ℂ)

/-- `numpy.linalg.eig`: eigenvalues, eigenvectors in columns. -/
abbrev Eig := ND ℂ → Py (List ℂ × ND ℂ)

namespace FMPS

/-- `fMPS.py:551-569`: the loop body of the first sweep of `left_canonicalise`.  The code asks for
the full SVD and keeps `u[:, :len(S)]`, `v[:len(S), :]`, that is the economic one. -/
noncomputable def leftSvdStep (svd : Svd) (D : Option ℕ) (minD : Bool) (x : FMPS ℂ) (m : ℕ) : Py (FMPS ℂ) := do
  let T ← pyGet x.data m
  let M ← catRows T
  let (U, S, V) ← svd M
  let A ← chopRows U x.d
  let (A, S, V) := truncateA A (diagC S) V D minD
  let data := x.data.set m A
  let SV ← S.matmul V
  if m + 1 < data.length then
    let B ← pyGet data (m + 1)
    let t ← SV.matmul B
    .ok { x with data := data.set (m + 1) t }
  else .ok { x with data := data, norm_ := some SV }

/-- `fMPS.py:477-490`: the loop body of the first sweep of `right_canonicalise`. -/
noncomputable def rightSvdStep (svd : Svd) (D : Option ℕ) (minD : Bool) (x : FMPS ℂ) (m : ℕ) : Py (FMPS ℂ) := do
  let T ← pyGet x.data m
  let M ← catCols T
  let (U, S, B) ← svd M
  let B ← chopCols B x.d
  let (U, S, B) := truncateB U (diagC S) B D minD
  let data := x.data.set m B
  if m ≠ 0 then
    let A ← pyGet data (m - 1)
    let AU ← A.matmul U
    let t ← AU.matmul S
    .ok { x with data := data.set (m - 1) t }
  else .ok { x with data := data }

/-- `fMPS.py:471-472`, `545-546`: `if D is not None: self.D = min(D, self.D)`. -/
def capD (D : Option ℕ) (x : FMPS ℂ) : FMPS ℂ :=
  match D with
  | some D => { x with D := min D x.D }
  | none => x

/-- `fMPS.py:578-589`: the loop body of the sweep back of `left_canonicalise`.  State: tensors still
to be treated in reverse order, `V`, `S`, finished tensors, `Ls` so far. -/
noncomputable def backLeftStep (eig : Eig) (A V S : ND ℂ) : Py (ND ℂ × ND ℂ × ND ℂ) := do
  let t ← A.matmul V
  let t ← t.matmul S
  let t ← t.matmul V.hc
  let t ← t.tensordot A.hc [2] [1]
  let M ← t.trace 0 2
  let (w, V') ← eig M
  let u ← V'.hc.tensordot A [1] [1]
  let u ← u.matmul V
  let A' ← u.transpose [1, 0, 2]
  .ok (A', V', diagND w)

/-- `fMPS.py:576-589`: the sweep back of `left_canonicalise`; returns the tensors, `V` and `S` on the
left of the first one and the list `Ls`. -/
noncomputable def backLeft (eig : Eig) : List (ND ℂ) → Py (List (ND ℂ) × ND ℂ × ND ℂ × List (ND ℂ))
  | [] => .ok ([], eyeND 1, eyeND 1, [])
  | A :: As => do
    let (As', V, S, Ls) ← backLeft eig As
    let (A', V', S') ← backLeftStep eig A V S
    .ok (A' :: As', V', S', S' :: Ls)

/-- `fMPS.py:499-509`: the loop body of the sweep back of `right_canonicalise`. -/
noncomputable def backRightStep (eig : Eig) (A V S : ND ℂ) : Py (ND ℂ × ND ℂ × ND ℂ) := do
  let t ← A.hc.matmul V
  let t ← t.matmul S
  let t ← t.matmul V.hc
  let t ← t.tensordot A [2] [1]
  let M ← t.trace 0 2
  let (w, V') ← eig M
  let u ← V.hc.tensordot A [1] [1]
  let u ← u.matmul V'
  let A' ← u.transpose [1, 0, 2]
  .ok (A', V', diagND w)

/-- `fMPS.py:498-509`: the sweep back of `right_canonicalise`. -/
noncomputable def backRight (eig : Eig) (V S : ND ℂ) : List (ND ℂ) → Py (List (ND ℂ) × List (ND ℂ))
  | [] => .ok ([], [])
  | A :: As => do
    let (A', V', S') ← backRightStep eig A V S
    let (As', Ls) ← backRight eig V' S' As
    .ok (A' :: As', S' :: Ls)

/-- `concatenate([identity(t), zeros((t, D-t))], axis=1)` -/
def headProj (t D : ℕ) : ND ℂ := ⟨[t, D], fun
  | [i, j] => if i = j then 1 else 0
  | _ => 0⟩

/-- `fMPS.py:513-520`, `593-600`: the loop body of the rank reduction; `data[m-1]` at `m = 0` is the
last tensor. -/
noncomputable def projStep (st : List (ND ℂ) × List (ND ℂ)) (m : ℕ) : Py (List (ND ℂ) × List (ND ℂ)) := do
  let L ← pyGet st.2 m
  let P := headProj (diagRank L) (L.dim 0)
  let prev := if m = 0 then st.1.length - 1 else m - 1
  let A ← pyGet st.1 prev
  let A' ← A.matmul P.hc
  let data := st.1.set prev A'
  let B ← pyGet data m
  let B' ← P.matmul B
  let L' ← P.matmul L
  let L' ← L'.matmul P.hc
  .ok (data.set m B', st.2.set m L')

/-- `fMPS.py:513-520`: the whole loop. -/
noncomputable def project (data Ls : List (ND ℂ)) : Py (List (ND ℂ) × List (ND ℂ)) :=
  (List.range data.length).foldlM projStep (data, Ls)

/-- `ones_like(A)` -/
def onesLike (A : ND ℂ) : ND ℂ := ⟨A.shape, fun _ => 1⟩

/-- `fMPS.py:537-613` `left_canonicalise(D, sweep_back, minD)`; the second component is the attribute
`Ls` if it is set. -/
noncomputable def leftCanonicalise (svd : Svd) (eig : Eig) (x : FMPS ℂ) (D : Option ℕ := none)
    (sweepBack minD : Bool := true) : Py (FMPS ℂ × Option (List (ND ℂ))) := do
  let x := x.capD D
  let y ← (List.range x.data.length).foldlM (leftSvdStep svd D minD) x
  if sweepBack && minD then
    let (data, _, S, Ls) ← backLeft eig y.data
    let (data, Ls) ← project data (Ls ++ [onesLike S])
    .ok ({ y with data := data, canonical := true, orthogonal := true, oc := some x.L }, some Ls)
  else .ok ({ y with canonical := true, orthogonal := true, oc := some x.L }, none)

/-- `fMPS.py:463-535` `right_canonicalise(D, sweep_back, minD)`. -/
noncomputable def rightCanonicalise (svd : Svd) (eig : Eig) (x : FMPS ℂ) (D : Option ℕ := none)
    (sweepBack minD : Bool := true) : Py (FMPS ℂ × Option (List (ND ℂ))) := do
  let x := x.capD D
  let y ← (List.range x.data.length).reverse.foldlM (rightSvdStep svd D minD) x
  if sweepBack && minD then
    let (data, Ls) ← backRight eig (eyeND 1) (eyeND 1) y.data
    let last ← pyGet Ls (Ls.length - 1)
    let (data, Ls) ← project data (onesLike last :: Ls)
    .ok ({ y with data := data, canonical := true, orthogonal := true, oc := some 0 }, some Ls)
  else .ok ({ y with canonical := true, orthogonal := true, oc := some 0 }, none)

/-- `fMPS.py:635-640`: the loop body of `mixed_canonicalise`; at the last site `S V` is dropped. -/
noncomputable def mixedSvdStep (svd : Svd) (D : Option ℕ) (x : FMPS ℂ) (m : ℕ) : Py (FMPS ℂ) := do
  let T ← pyGet x.data m
  let M ← catRows T
  let (U, S, V) ← svd M
  let A ← chopRows U x.d
  let (A, S, V) := truncateA A (diagC S) V D true
  let data := x.data.set m A
  if m + 1 < data.length then
    let SV ← S.matmul V
    let B ← pyGet data (m + 1)
    let t ← SV.matmul B
    .ok { x with data := data.set (m + 1) t }
  else .ok { x with data := data }

/-- `fMPS.py:615-648` `mixed_canonicalise(oc, D)`.  `self.oc = oc` is overwritten with 0 by
`right_canonicalise` and not set again. -/
noncomputable def mixedCanonicalise (svd : Svd) (eig : Eig) (x : FMPS ℂ) (oc : ℕ) (D : Option ℕ := none)
    (sweepBack : Bool := true) : Py (FMPS ℂ) := do
  let (x, _) ← ({ x with oc := some oc } : FMPS ℂ).rightCanonicalise svd eig D sweepBack false
  let y ← ((List.range x.data.length).take oc).foldlM (mixedSvdStep svd D) x
  .ok { y with canonical := true, orthogonal := true }

end FMPS

end Xmps
