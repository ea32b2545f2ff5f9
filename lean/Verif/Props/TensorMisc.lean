import Verif.Model.TensorMisc
import Verif.Props.LapackExists
import Verif.Props.LapackSvd
import Verif.Lemmas.CanonBack
import Mathlib.LinearAlgebra.Matrix.NonsingularInverse
import Mathlib.LinearAlgebra.Matrix.ToLin

/-!
# Properties C123, C124: `direct_sum`, `tr_svd`, `get_null_space`, `haar_unitary`
-/

namespace Xmps

open Finset Spec

/-- `scipy.linalg.qr(A)`: `A = Q R` with a unitary `Q` and an upper triangular `R` of the shape of `A` -/
def Spec.QRFullLaw (qr : ND ℂ → Py (ND ℂ × ND ℂ)) : Prop :=
  ∀ (A : ND ℂ) (m n : ℕ), A.shape = [m, n] → 0 < m → 0 < n →
    ∃ Q R, qr A = .ok (Q, R) ∧ Q.shape = [m, m] ∧ R.shape = [m, n] ∧ ColsOrtho Q ∧
      (∀ i < m, ∀ j < n, A.val [i, j] = ∑ k ∈ range m, Q.val [i, k] * R.val [k, j]) ∧
      ∀ k < m, ∀ j < k, j < n → R.val [k, j] = 0

/-- A function meeting the contract exists. -/
theorem qrFullLaw_exists : ∃ qr, QRFullLaw qr := by
  choose q r h1 h2 h3 using qr_exists
  let pad : ND ℂ → ℕ → ℕ → ℂ := fun A i j => if j < A.dim 1 then A.val [i, j] else 0
  refine ⟨fun A => .ok (⟨[A.dim 0, A.dim 0], fun idx => q (A.dim 0) (A.dim 1 + A.dim 0) (pad A) (idx.getD 0 0) (idx.getD 1 0)⟩,
    ⟨[A.dim 0, A.dim 1], fun idx => r (A.dim 0) (A.dim 1 + A.dim 0) (pad A) (idx.getD 0 0) (idx.getD 1 0)⟩), ?_⟩
  intro A m n hA _ _
  have e0 : A.dim 0 = m := by simp [ND.dim, hA]
  have e1 : A.dim 1 = n := by simp [ND.dim, hA]
  have em : min m (n + m) = m := by omega
  have g1 := h1 m (n + m) (pad A)
  have g2 := h2 m (n + m) (pad A)
  have g3 := h3 m (n + m) (pad A)
  rw [em] at g1 g2 g3
  simp only [e0, e1]
  refine ⟨_, _, rfl, rfl, rfl, fun k hk k' hk' => g1 k hk k' hk', fun i hi j hj => ?_, fun k hk j hj _ => g3 k hk j hj⟩
  exact (show A.val [i, j] = pad A i j by simp [pad, e1, hj]).trans (g2 i hi j (by omega))

namespace TensorMisc

/-! ### `direct_sum` -/

/-- **C123** `direct_sum(A, B)` of two square matrices is the block diagonal matrix. -/
theorem directSum_square {A B : ND ℂ} {a b : ℕ} (hA : A.shape = [a, a]) (hB : B.shape = [b, b]) : ∃ R, directSum A B = .ok R ∧ R.shape = [a + b, a + b] ∧
    ∀ i < a + b, ∀ j < a + b, R.val [i, j] = if i < a ∧ j < a then A.val [i, j] else if a ≤ i ∧ a ≤ j then B.val [i - a, j - a] else 0 := by
  refine ⟨ND.concatR (ND.concatR A (zeros2 a b) 1) (ND.concatR (trans2 (zeros2 a b)) B 1) 0, ?_, ?_, ?_⟩
  · simp [directSum, ND.concat, ND.concatR, ND.dim, ND.rank, hA, hB, zeros2, trans2]
  · simp [ND.concatR, ND.dim, hA, hB, zeros2, trans2]
  · intro i hi j hj
    by_cases h1 : i < a
    · by_cases h2 : j < a
      · simp [ND.concatR, ND.dim, hA, hB, zeros2, trans2, h1, h2]
      · simp [ND.concatR, ND.dim, hA, hB, zeros2, trans2, h1, h2]
    · by_cases h2 : j < a
      · simp [ND.concatR, ND.dim, hA, hB, zeros2, trans2, h1, h2]
      · simp [ND.concatR, ND.dim, hA, hB, zeros2, trans2, h1, h2, Nat.not_lt.1 h1, Nat.not_lt.1 h2]

/-- **C123 fails otherwise**: if one of the matrices is not square, `ValueError`. -/
theorem directSum_wrong {A B : ND ℂ} {a1 a2 b1 b2 : ℕ} (hA : A.shape = [a1, a2]) (hB : B.shape = [b1, b2]) (h : ¬ (a1 = a2 ∧ b1 = b2)) :
    directSum A B = .error .valueError := by
  by_cases h1 : a1 = a2
  · have h2 : b1 ≠ b2 := fun e => h ⟨h1, e⟩
    simp [directSum, ND.concat, ND.concatR, ND.dim, ND.rank, hA, hB, zeros2, trans2, h1, h2]
  · simp [directSum, ND.concat, ND.dim, ND.rank, hA, hB, zeros2, h1]

/-! ### `tr_svd` -/

/-- orthonormal columns and rows make the terms of a singular value decomposition orthogonal -/
theorem frob_sum {m n r : ℕ} {u v : ℕ → ℕ → ℂ} {s : ℕ → ℝ} (hu : ∀ k < r, ∀ k' < r, ∑ i ∈ range m, star (u i k) * u i k' = if k = k' then 1 else 0)
    (hv : ∀ k < r, ∀ k' < r, ∑ j ∈ range n, v k j * star (v k' j) = if k = k' then 1 else 0) {T : Finset ℕ} (hT : ∀ k ∈ T, k < r) :
    ∑ i ∈ range m, ∑ j ∈ range n, ‖∑ k ∈ T, u i k * s k * v k j‖ ^ 2 = ∑ k ∈ T, s k ^ 2 := by
  have e : ∀ z : ℂ, ((‖z‖ ^ 2 : ℝ) : ℂ) = star z * z := by
    intro z
    rw [Complex.star_def, ← Complex.normSq_eq_conj_mul_self, Complex.normSq_eq_norm_sq]
  have : ((∑ i ∈ range m, ∑ j ∈ range n, ‖∑ k ∈ T, u i k * s k * v k j‖ ^ 2 : ℝ) : ℂ) = ((∑ k ∈ T, s k ^ 2 : ℝ) : ℂ) := by
    rw [Complex.ofReal_sum]
    simp only [Complex.ofReal_sum, e]
    have : ∀ i j, star (∑ k ∈ T, u i k * s k * v k j) * (∑ k ∈ T, u i k * s k * v k j) =
        ∑ k ∈ T, ∑ k' ∈ T, ((s k : ℂ) * s k') * (star (u i k) * u i k') * (v k' j * star (v k j)) := by
      intro i j
      rw [star_sum, Finset.sum_mul]
      refine Finset.sum_congr rfl fun k _ => ?_
      rw [Finset.mul_sum]
      refine Finset.sum_congr rfl fun k' _ => ?_
      simp only [star_mul', Complex.star_def, Complex.conj_ofReal]
      ring
    simp only [this]
    have c1 : ∀ i, ∑ j ∈ range n, ∑ k ∈ T, ∑ k' ∈ T, ((s k : ℂ) * s k') * (star (u i k) * u i k') * (v k' j * star (v k j)) =
        ∑ k ∈ T, (s k : ℂ) ^ 2 * (star (u i k) * u i k) := by
      intro i
      rw [Finset.sum_comm]
      refine Finset.sum_congr rfl fun k hk => ?_
      rw [Finset.sum_comm]
      rw [Finset.sum_eq_single k]
      · rw [← Finset.mul_sum, hv k (hT k hk) k (hT k hk), if_pos rfl]; ring
      · intro k' hk' hne
        rw [← Finset.mul_sum, hv k' (hT k' hk') k (hT k hk), if_neg hne, mul_zero]
      · exact fun h => absurd hk h
    simp only [c1]
    rw [Finset.sum_comm]
    refine Finset.sum_congr rfl fun k hk => ?_
    rw [← Finset.mul_sum, hu k (hT k hk) k (hT k hk), if_pos rfl]
    push_cast
    ring
  exact_mod_cast this

/-- **C123** `tr_svd(A, D)`: `U` has orthonormal columns, `V` orthonormal rows, at most `D` of them, `S` is diagonal, and the squared Frobenius
distance of `U S V` to `A` is the sum of the squares of the singular values left out; for `D` at least the smaller extent, `U S V = A`. -/
theorem trSvd_spec {svd : ND ℂ → Py (ND ℂ × List ℝ × ND ℂ)} (hsvd : SVDLaw svd) {A : ND ℂ} {m n : ℕ} (hA : A.shape = [m, n]) (hm : 0 < m) (hn : 0 < n)
    (D : ℕ) : ∃ (U S V : ND ℂ) (s : List ℝ), trSvd svd A D = .ok (U, S, V) ∧ U.shape = [m, min D (min m n)] ∧ S.shape = [min D (min m n), min D (min m n)] ∧
      V.shape = [min D (min m n), n] ∧ ColsOrtho U ∧ RowsOrtho V ∧ s.length = min m n ∧ (∀ x ∈ s, (0 : ℝ) ≤ x) ∧ s.Pairwise (· ≥ ·) ∧
      (∑ i ∈ range m, ∑ j ∈ range n, ‖A.val [i, j]‖ ^ 2 = ∑ k ∈ range (min m n), s.getD k 0 ^ 2) ∧
      ∑ i ∈ range m, ∑ j ∈ range n, ‖A.val [i, j] -
        ∑ k ∈ range (min D (min m n)), ∑ k' ∈ range (min D (min m n)), U.val [i, k] * S.val [k, k'] * V.val [k', j]‖ ^ 2 =
          ∑ k ∈ range (min m n), if k < D then 0 else s.getD k 0 ^ 2 := by
  obtain ⟨U, s, V, e, hU, hs, hV, oU, oV, hpos, hsort, hval⟩ := hsvd A m n hA hm hn
  have d0 : U.dim 0 = m := by simp [ND.dim, hU]
  have d1 : U.dim 1 = min m n := by simp [ND.dim, hU]
  have v0 : V.dim 0 = min m n := by simp [ND.dim, hV]
  have v1 : V.dim 1 = n := by simp [ND.dim, hV]
  have hu : ∀ k < min m n, ∀ k' < min m n, ∑ i ∈ range m, star (U.val [i, k]) * U.val [i, k'] = if k = k' then 1 else 0 := by
    have := oU
    unfold ColsOrtho at this
    rwa [d0, d1] at this
  have hv : ∀ k < min m n, ∀ k' < min m n, ∑ j ∈ range n, V.val [k, j] * star (V.val [k', j]) = if k = k' then 1 else 0 := by
    have := oV
    unfold RowsOrtho at this
    rwa [v0, v1] at this
  refine ⟨cols U 0 D, diagND ((s.take D).map fun x : ℝ => (x : ℂ)), topRows V D, s, ?_, ?_, ?_, ?_, ?_, ?_, hs, hpos, hsort, ?_, ?_⟩
  · rw [trSvd, e, ok_bind]
  · simp [cols, d0, d1]
  · simp [diagND, hs]
  · simp [topRows, v0, v1]
  · intro k hk k' hk'
    simp only [cols, ND.dim, List.getD_cons_zero, List.getD_cons_succ] at hk hk' ⊢
    simp only [ND.dim] at d0 d1
    rw [d1] at hk hk'
    rw [d0]
    simpa using hu k (by omega) k' (by omega)
  · intro k hk k' hk'
    simp only [topRows, ND.dim, List.getD_cons_zero, List.getD_cons_succ] at hk hk' ⊢
    simp only [ND.dim] at v0 v1
    rw [v0] at hk hk'
    rw [v1]
    exact hv k (by omega) k' (by omega)
  · rw [← frob_sum (u := fun i k => U.val [i, k]) (v := fun k j => V.val [k, j]) (s := fun k => s.getD k 0) hu hv (T := range (min m n)) (by simp)]
    refine Finset.sum_congr rfl fun i hi => Finset.sum_congr rfl fun j hj => ?_
    rw [hval i (by simpa using hi) j (by simpa using hj)]
  · have hsum : ∑ k ∈ range (min m n), (if k < D then 0 else s.getD k 0 ^ 2) = ∑ k ∈ (range (min m n)).filter (fun k => ¬ k < D), s.getD k 0 ^ 2 := by
      rw [Finset.sum_filter]
      exact Finset.sum_congr rfl fun k _ => by by_cases h : k < D <;> simp [h]
    rw [hsum, ← frob_sum (u := fun i k => U.val [i, k]) (v := fun k j => V.val [k, j]) (s := fun k => s.getD k 0) hu hv
      (T := (range (min m n)).filter fun k => ¬ k < D) (by intro k hk; simp at hk; omega)]
    refine Finset.sum_congr rfl fun i hi => Finset.sum_congr rfl fun j hj => ?_
    rw [hval i (by simpa using hi) j (by simpa using hj)]
    congr 2
    have hin : ∑ k ∈ range (min D (min m n)), ∑ k' ∈ range (min D (min m n)), (cols U 0 D).val [i, k] *
        (diagND ((s.take D).map fun x : ℝ => (x : ℂ))).val [k, k'] * (topRows V D).val [k', j] =
        ∑ k ∈ (range (min m n)).filter (fun k => k < D), U.val [i, k] * (s.getD k 0 : ℝ) * V.val [k, j] := by
      have hr : (range (min m n)).filter (fun k => k < D) = range (min D (min m n)) := by
        ext k; simp; omega
      rw [hr]
      refine Finset.sum_congr rfl fun k hk => ?_
      have hk' := Finset.mem_range.1 hk
      rw [Finset.sum_eq_single k]
      · have : ((s.take D).map fun x : ℝ => (x : ℂ)).getD k 0 = ((s.getD k 0 : ℝ) : ℂ) := by
          rw [List.getD_eq_getElem _ _ (by simp; omega), List.getD_eq_getElem _ _ (by omega)]
          simp
        simp only [cols, diagND, topRows, if_true, this, List.getD_cons_zero, List.getD_cons_succ, zero_add]
      · intro k' _ hne
        simp [diagND, Ne.symm hne]
      · exact fun h => absurd hk h
    rw [hin, ← Finset.sum_filter_add_sum_filter_not (range (min m n)) (fun k => k < D)]
    ring

/-! ### `haar_unitary` and `get_null_space` -/

/-- **C124** `haar_unitary(n)` is unitary, whatever the random numbers are. -/
theorem haarUnitary_unitary {qr : ND ℂ → Py (ND ℂ × ND ℂ)} (hqr : QRFullLaw qr) {X : ND ℂ} {n : ℕ} (hX : X.shape = [n, n]) (hn : 0 < n) :
    ∃ Q, haarUnitary qr X = .ok Q ∧ Q.shape = [n, n] ∧ ColsOrtho Q := by
  obtain ⟨Q, R, e, hQ, -, ho, -⟩ := hqr X n n hX hn hn
  exact ⟨Q, by rw [haarUnitary, e, ok_bind], hQ, ho⟩

/-- the rows of the `k × M` matrix are linearly independent -/
def RowsIndep (k M : ℕ) (A : ND ℂ) : Prop := ∀ x : ℕ → ℂ, (∀ j < M, ∑ i ∈ range k, x i * A.val [i, j] = 0) → ∀ i < k, x i = 0

section
variable {qr : ND ℂ → Py (ND ℂ × ND ℂ)} (hqr : QRFullLaw qr) {A : ND ℂ} {k M : ℕ} (hA : A.shape = [k, M]) (hk : 0 < k) (hM : k ≤ M)
include hqr hA hk hM

/-- **C124** `get_null_space(A)` for a `k × M` matrix with `k ≤ M`: `M - k` orthonormal vectors (`v† v = 1`) that `A` maps to zero, also if the rows
of `A` are dependent; every vector that `A` maps to zero is a combination of them if the rows are independent. -/
theorem getNullSpace_spec : ∃ v, getNullSpace qr A = .ok v ∧ v.shape = [M, M - k] ∧ ColsOrtho v ∧
    (∀ i < k, ∀ c < M - k, ∑ j ∈ range M, A.val [i, j] * v.val [j, c] = 0) ∧
    (RowsIndep k M A → ∀ w : ℕ → ℂ, (∀ i < k, ∑ j ∈ range M, A.val [i, j] * w j = 0) →
      ∀ j < M, w j = ∑ c ∈ range (M - k), v.val [j, c] * ∑ j' ∈ range M, star (v.val [j', c]) * w j') := by
  obtain ⟨hs, hv⟩ := hc2 hA
  obtain ⟨Q, R, e, hQ, hR, ho, hval, htri⟩ := hqr A.hc M k hs (by omega) hk
  have d0 : Q.dim 0 = M := by simp [ND.dim, hQ]
  have d1 : Q.dim 1 = M := by simp [ND.dim, hQ]
  have dA : A.dim 0 = k := by simp [ND.dim, hA]
  have hq : ∀ c < M, ∀ c' < M, ∑ i ∈ range M, star (Q.val [i, c]) * Q.val [i, c'] = if c = c' then 1 else 0 := by
    have := ho
    unfold ColsOrtho at this
    rwa [d0, d1] at this
  -- the rows of `A` in the basis `Q`
  have ha : ∀ i < k, ∀ j < M, A.val [i, j] = ∑ c ∈ range k, star (R.val [c, i]) * star (Q.val [j, c]) := by
    intro i hi j hj
    have h := hval j hj i hi
    rw [hv] at h
    have h' := congrArg star h
    rw [star_star, star_sum] at h'
    rw [h']
    have : range M = range (k + (M - k)) := by rw [Nat.add_sub_cancel' hM]
    rw [this, Finset.sum_range_add]
    rw [Finset.sum_eq_zero (s := range (M - k))]
    · rw [add_zero]
      exact Finset.sum_congr rfl fun c _ => by rw [star_mul', mul_comm]
    · intro c hc
      rw [htri (k + c) (by simp at hc; omega) i (by omega) hi, mul_zero, star_zero]
  -- the action of `A` in the basis `Q`
  have hact : ∀ w : ℕ → ℂ, ∀ i < k, ∑ j ∈ range M, A.val [i, j] * w j =
      ∑ c ∈ range k, star (R.val [c, i]) * ∑ j ∈ range M, star (Q.val [j, c]) * w j := by
    intro w i hi
    rw [Finset.sum_congr rfl fun j hj => by rw [ha i hi j (Finset.mem_range.1 hj), Finset.sum_mul], Finset.sum_comm]
    refine Finset.sum_congr rfl fun c _ => ?_
    rw [Finset.mul_sum]
    exact Finset.sum_congr rfl fun j _ => by ring
  refine ⟨cols Q (A.dim 0) (Q.dim 1), by rw [getNullSpace, e, ok_bind], by simp [cols, d0, d1, dA], ?_, ?_, ?_⟩
  · intro c hc c' hc'
    have e1 : (cols Q (A.dim 0) (Q.dim 1)).dim 1 = M - k := by simp [cols, ND.dim, hQ, hA]
    have e0 : (cols Q (A.dim 0) (Q.dim 1)).dim 0 = M := by simp [cols, ND.dim, hQ]
    rw [e1] at hc hc'
    rw [e0]
    simp only [cols, List.getD_cons_zero, List.getD_cons_succ, dA]
    rw [hq _ (by omega) _ (by omega)]
    by_cases h : c = c' <;> simp [h]
  · intro i hi c hc
    simp only [cols, List.getD_cons_zero, List.getD_cons_succ, dA]
    rw [hact (fun j => Q.val [j, k + c]) i hi]
    refine Finset.sum_eq_zero fun c' hc' => ?_
    rw [hq c' (by simp at hc'; omega) (k + c) (by omega), if_neg (by simp at hc'; omega), mul_zero]
  · intro hind w hw j hj
    simp only [cols, List.getD_cons_zero, List.getD_cons_succ, dA]
    -- `R` cut to its first `k` rows
    let N : Matrix (Fin k) (Fin k) ℂ := Matrix.of fun i c => star (R.val [c.1, i.1])
    have hN : Function.Injective N.vecMul := by
      rw [← Matrix.coe_vecMulLinear, ← LinearMap.ker_eq_bot, LinearMap.ker_eq_bot']
      intro x hx
      have hx' : ∀ c : Fin k, ∑ i : Fin k, x i * star (R.val [c.1, i.1]) = 0 := by
        intro c
        have := congrFun hx c
        simpa [Matrix.vecMul, dotProduct, N] using this
      funext i
      have := hind (fun i => if h : i < k then x ⟨i, h⟩ else 0) ?_ i.1 i.2
      · simpa using this
      · intro j hj
        rw [Finset.sum_range, Finset.sum_congr rfl fun i _ => by rw [ha i.1 i.2 j hj, Finset.mul_sum], Finset.sum_comm]
        refine Finset.sum_eq_zero fun c hc => ?_
        have h := hx' ⟨c, Finset.mem_range.1 hc⟩
        simp only [Fin.is_lt, dite_true]
        rw [Finset.sum_congr rfl fun i _ => (mul_assoc _ _ _).symm, ← Finset.sum_mul]
        simp only [Fin.eta]
        rw [h, zero_mul]
    have hunit : IsUnit N := Matrix.vecMul_injective_iff_isUnit.1 hN
    have hinj : Function.Injective N.mulVec := Matrix.mulVec_injective_iff_isUnit.2 hunit
    have hzero : ∀ c < k, ∑ j ∈ range M, star (Q.val [j, c]) * w j = 0 := by
      intro c hc
      have h0 : N.mulVec (fun c : Fin k => ∑ j ∈ range M, star (Q.val [j, c.1]) * w j) = N.mulVec 0 := by
        funext i
        rw [Matrix.mulVec_zero]
        have := hw i.1 i.2
        rw [hact w i.1 i.2, Finset.sum_range] at this
        simpa [Matrix.mulVec, dotProduct, N] using this
      exact congrFun (hinj h0) ⟨c, hc⟩
    -- completeness of the columns of `Q`
    let P : Matrix (Fin M) (Fin M) ℂ := Matrix.of fun i c => Q.val [i.1, c.1]
    have hP : P.conjTranspose * P = 1 := by
      ext c c'
      rw [Matrix.mul_apply]
      simp only [Matrix.conjTranspose_apply, P, Matrix.of_apply]
      have := hq c.1 c.2 c'.1 c'.2
      rw [Finset.sum_range] at this
      rw [this]
      simp [Matrix.one_apply, Fin.ext_iff]
    have hP' : P * P.conjTranspose = 1 := mul_eq_one_comm.1 hP
    have hexp : w j = ∑ c ∈ range M, Q.val [j, c] * ∑ j' ∈ range M, star (Q.val [j', c]) * w j' := by
      have h2 := congrFun (congrArg (fun X : Matrix (Fin M) (Fin M) ℂ => X.mulVec fun i => w i.1) hP') ⟨j, hj⟩
      simp only [Matrix.one_mulVec, ← Matrix.mulVec_mulVec] at h2
      rw [← h2]
      simp only [Matrix.mulVec, dotProduct, P, Matrix.of_apply, Matrix.conjTranspose_apply, Finset.sum_range]
    rw [hexp]
    have : range M = range (k + (M - k)) := by rw [Nat.add_sub_cancel' hM]
    conv_lhs => rw [this, Finset.sum_range_add, ← this]
    rw [Finset.sum_eq_zero (s := range k), zero_add]
    intro c hc
    rw [hzero c (Finset.mem_range.1 hc), mul_zero]

end

/-! ### the hypotheses can be met -/

/-- `[[0, 1, 1]]` -/
def exRow : ND ℂ := ⟨[1, 3], fun
  | [_, j] => if j = 0 then 0 else 1
  | _ => 0⟩

theorem exRow_indep : RowsIndep 1 3 exRow := by
  intro x h i hi
  obtain rfl : i = 0 := by omega
  simpa [exRow] using h 1 (by omega)

example : ∃ qr, ∃ v, getNullSpace qr exRow = .ok v ∧ v.shape = [3, 2] ∧ ColsOrtho v := by
  obtain ⟨qr, h⟩ := qrFullLaw_exists
  obtain ⟨v, h1, h2, h3, -⟩ := getNullSpace_spec h (A := exRow) (k := 1) (M := 3) rfl (by omega) (by omega)
  exact ⟨qr, v, h1, h2, h3⟩

example : ∃ R, directSum (eyeND 2) (eyeND 1) = .ok R ∧ R.shape = [3, 3] := by
  obtain ⟨R, h1, h2, -⟩ := directSum_square (A := eyeND 2) (B := eyeND 1) rfl rfl
  exact ⟨R, h1, h2⟩

example : directSum exRow (eyeND 1) = .error .valueError := directSum_wrong (a1 := 1) (a2 := 3) rfl rfl (by omega)

example : ∃ svd, SVDLaw svd ∧ ∃ x, trSvd svd exRow 1 = .ok x := by
  obtain ⟨svd, h⟩ := svdLaw_exists
  obtain ⟨U, S, V, s, e, -⟩ := trSvd_spec h (A := exRow) (m := 1) (n := 3) rfl (by omega) (by omega) 1
  exact ⟨svd, h, _, e⟩

end TensorMisc

end Xmps
