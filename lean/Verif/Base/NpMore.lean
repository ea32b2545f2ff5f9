import Verif.Base.NpOps

/-!
# More numpy primitives

`matmul` covers operands of rank 2 and 3 (all that the modelled code uses); `concat` is
`np.concatenate` of two arrays.
-/

namespace Xmps

open Finset

variable {K : Type}

/-- All in-bounds indices of a shape in C order (`itertools.product(*[range(n) for n in shape])`). -/
def allIdx : List ℕ → List (List ℕ)
  | [] => [[]]
  | n :: s => (List.range n).flatMap fun i => (allIdx s).map (i :: ·)

theorem mem_allIdx : ∀ {s idx : List ℕ}, idx ∈ allIdx s ↔ InB s idx
  | [], [] => by simp [allIdx]
  | [], _ :: _ => by simp [allIdx]
  | n :: s, [] => by simp [allIdx]
  | n :: s, i :: is => by
    simp only [allIdx, List.mem_flatMap, List.mem_range, List.mem_map, List.cons.injEq, InB_cons]
    constructor
    · rintro ⟨a, ha, t, ht, rfl, rfl⟩
      exact ⟨ha, mem_allIdx.1 ht⟩
    · rintro ⟨h1, h2⟩
      exact ⟨i, h1, is, mem_allIdx.2 h2, rfl, rfl⟩

/-- `Σ_{k < m·n} f k = Σ_{i<m} Σ_{j<n} f (i·n + j)`. -/
theorem sum_range_mul [AddCommMonoid K] (m n : ℕ) (f : ℕ → K) :
    ∑ k ∈ range (m * n), f k = ∑ i ∈ range m, ∑ j ∈ range n, f (i * n + j) := by
  induction m with
  | zero => simp
  | succ m ih => rw [Nat.succ_mul, Finset.sum_range_add, ih, Finset.sum_range_succ]

/-- A sum over all indices is the sum over the flat positions. -/
theorem sumIdx_eq_range [AddCommMonoid K] : ∀ (s : List ℕ) (f : List ℕ → K),
    sumIdx s f = ∑ k ∈ range s.prod, f (unravel s k)
  | [], f => by rw [List.prod_nil, Finset.sum_range_one]; rfl
  | n :: s, f => by
    simp only [sumIdx_cons, List.prod_cons, unravel_cons]
    rw [sum_range_mul]
    refine Finset.sum_congr rfl fun i _ => ?_
    rw [sumIdx_eq_range s]
    refine Finset.sum_congr rfl fun k hk => ?_
    have hk := Finset.mem_range.1 hk
    have hp : 0 < s.prod := by omega
    rw [Nat.add_comm, Nat.add_mul_div_right _ _ hp, Nat.div_eq_of_lt hk, Nat.zero_add,
      Nat.add_mul_mod_self_right, Nat.mod_eq_of_lt hk]

/-- `mapM` of a function that returns at every element. -/
theorem mapM_ok {α β : Type} {f : α → Py β} {g : α → β} :
    ∀ {l : List α}, (∀ x ∈ l, f x = .ok (g x)) → l.mapM f = .ok (l.map g)
  | [], _ => rfl
  | a :: l, h => by
    rw [List.mapM_cons, h a (by simp), mapM_ok (fun x hx => h x (by simp [hx]))]
    rfl

namespace ND

/-- An array filled entry by entry: raises what the first failing entry raises. -/
def build [Zero K] (sh : List ℕ) (f : List ℕ → Py K) : Py (ND K) := do
  let l ← (allIdx sh).mapM f
  .ok ⟨sh, fun idx => l.getD ((allIdx sh).idxOf idx) 0⟩

theorem build_ok [Zero K] {sh : List ℕ} {f : List ℕ → Py K} {g : List ℕ → K}
    (h : ∀ idx, InB sh idx → f idx = .ok (g idx)) :
    ∃ R, build sh f = .ok R ∧ R.shape = sh ∧ ∀ idx, InB sh idx → R.val idx = g idx := by
  have h' : (allIdx sh).mapM f = .ok ((allIdx sh).map g) := mapM_ok fun x hx => h x (mem_allIdx.1 hx)
  refine ⟨_, by simp only [build, h', ok_bind]; rfl, rfl, fun idx hi => ?_⟩
  have hm : idx ∈ allIdx sh := mem_allIdx.2 hi
  have hlt : (allIdx sh).idxOf idx < (allIdx sh).length := List.idxOf_lt_length_of_mem hm
  simp only
  rw [List.getD_eq_getElem _ _ (by simpa using hlt), List.getElem_map, List.getElem_idxOf hlt]

/-- `A[i]` (first axis), `IndexError` when out of range. -/
def slice0 (A : ND K) (i : ℕ) : Py (ND K) :=
  match A.shape with
  | [] => .error .indexError
  | n :: s => if i < n then .ok ⟨s, fun idx => A.val (i :: idx)⟩ else .error .indexError

theorem slice0_ok {A : ND K} {n i : ℕ} {s : List ℕ} (h : A.shape = n :: s) (hi : i < n) :
    A.slice0 i = .ok ⟨s, fun idx => A.val (i :: idx)⟩ := by
  simp [slice0, h, hi]

/-- `A @ B` for operands of rank 2 or 3 (rank 3 is a stack of matrices; a stack of extent 1 is
broadcast); anything else is reported as `ValueError`. -/
def matmul [AddCommMonoid K] [Mul K] (A B : ND K) : Py (ND K) :=
  match A.shape, B.shape with
  | [m, k], [k', n] =>
    if k = k' then .ok ⟨[m, n], fun
      | [i, j] => ∑ c ∈ range k, A.val [i, c] * B.val [c, j]
      | _ => 0⟩
    else .error .valueError
  | [b, m, k], [k', n] =>
    if k = k' then .ok ⟨[b, m, n], fun
      | [s, i, j] => ∑ c ∈ range k, A.val [s, i, c] * B.val [c, j]
      | _ => 0⟩
    else .error .valueError
  | [m, k], [b, k', n] =>
    if k = k' then .ok ⟨[b, m, n], fun
      | [s, i, j] => ∑ c ∈ range k, A.val [i, c] * B.val [s, c, j]
      | _ => 0⟩
    else .error .valueError
  | [b, m, k], [b', k', n] =>
    if k = k' ∧ (b = b' ∨ b = 1 ∨ b' = 1) then .ok ⟨[if b = 1 then b' else b, m, n], fun
      | [s, i, j] => ∑ c ∈ range k,
          A.val [if b = 1 then 0 else s, i, c] * B.val [if b' = 1 then 0 else s, c, j]
      | _ => 0⟩
    else .error .valueError
  | _, _ => .error .valueError

theorem matmul22 [AddCommMonoid K] [Mul K] {A B : ND K} {m k n : ℕ} (hA : A.shape = [m, k])
    (hB : B.shape = [k, n]) : ∃ R, A.matmul B = .ok R ∧ R.shape = [m, n] ∧
      ∀ i j, R.val [i, j] = ∑ c ∈ range k, A.val [i, c] * B.val [c, j] :=
  ⟨_, by simp [matmul, hA, hB]; rfl, rfl, fun _ _ => rfl⟩

theorem matmul32 [AddCommMonoid K] [Mul K] {A B : ND K} {b m k n : ℕ} (hA : A.shape = [b, m, k])
    (hB : B.shape = [k, n]) : ∃ R, A.matmul B = .ok R ∧ R.shape = [b, m, n] ∧
      ∀ s i j, R.val [s, i, j] = ∑ c ∈ range k, A.val [s, i, c] * B.val [c, j] :=
  ⟨_, by simp [matmul, hA, hB]; rfl, rfl, fun _ _ _ => rfl⟩

theorem matmul23 [AddCommMonoid K] [Mul K] {A B : ND K} {b m k n : ℕ} (hA : A.shape = [m, k])
    (hB : B.shape = [b, k, n]) : ∃ R, A.matmul B = .ok R ∧ R.shape = [b, m, n] ∧
      ∀ s i j, R.val [s, i, j] = ∑ c ∈ range k, A.val [i, c] * B.val [s, c, j] :=
  ⟨_, by simp [matmul, hA, hB]; rfl, rfl, fun _ _ _ => rfl⟩

/-- `np.concatenate([A, B], ax)`. -/
def concatR (A B : ND K) (ax : ℕ) : ND K where
  shape := A.shape.set ax (A.dim ax + B.dim ax)
  val idx := if idx.getD ax 0 < A.dim ax then A.val idx
    else B.val (idx.set ax (idx.getD ax 0 - A.dim ax))

/-- `np.concatenate([A, B], ax)`, `ValueError` when ranks or other extents differ. -/
def concat (A B : ND K) (ax : ℕ) : Py (ND K) :=
  if ax < A.rank ∧ A.rank = B.rank ∧ A.shape.eraseIdx ax = B.shape.eraseIdx ax then
    .ok (A.concatR B ax)
  else .error .valueError

/-- entrywise operation on two arrays of equal shape (broadcasting between different shapes is not
modelled: `ValueError`). -/
def zipNd (f : K → K → K) (A B : ND K) : Py (ND K) :=
  if A.shape = B.shape then .ok ⟨A.shape, fun idx => f (A.val idx) (B.val idx)⟩ else .error .valueError

/-- `np.squeeze(A)` -/
def squeeze (A : ND K) : ND K where
  shape := A.shape.filter (· ≠ 1)
  val idx := A.val (go A.shape idx)
where
  /-- put the index 0 back at axes of extent 1 -/
  go : List ℕ → List ℕ → List ℕ
    | [], _ => []
    | n :: s, idx => if n = 1 then 0 :: go s idx else idx.headD 0 :: go s idx.tail

end ND

/-- `np.diag(v)` for a vector given as a list. -/
def diagND [Zero K] (v : List K) : ND K :=
  ⟨[v.length, v.length], fun
    | [i, j] => if i = j then v.getD i 0 else 0
    | _ => 0⟩

/-- `np.identity(n)` -/
def eyeND [Zero K] [One K] (n : ℕ) : ND K :=
  ⟨[n, n], fun
    | [i, j] => if i = j then 1 else 0
    | _ => 0⟩

/-- `np.ones(sh)` -/
def onesND [One K] (sh : List ℕ) : ND K := ⟨sh, fun _ => 1⟩

/-- `np.zeros(sh)` -/
def zerosND [Zero K] (sh : List ℕ) : ND K := ⟨sh, fun _ => 0⟩

end Xmps
