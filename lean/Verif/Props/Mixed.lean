import Verif.Model.Mixed
import Verif.Props.ImpsEigs
import Verif.Props.Isometry

/-!
# The mixed canonical form of an infinite MPS
-/

namespace Xmps

open Finset Matrix Spec ComplexOrder

namespace Spec

/-- no vector is sent to zero by all the matrices of the tensor -/
def LeftInjective (d D : ℕ) (A : ND ℂ) : Prop := ∀ v : Fin D → ℂ, (∀ s < d, toM3 D D A s *ᵥ v = 0) → v = 0

/-- no row vector is sent to zero by all the matrices of the tensor -/
def RightInjective (d D : ℕ) (A : ND ℂ) : Prop := ∀ v : Fin D → ℂ, (∀ s < d, v ᵥ* toM3 D D A s = 0) → v = 0

/-- upper triangular first factor of `scipy.linalg.rq` for matrices that are not higher than wide -/
def RQUpper (rq : ND ℂ → Py (ND ℂ × ND ℂ)) : Prop :=
  ∀ (A : ND ℂ) (m n : ℕ), A.shape = [m, n] → m ≤ n → ∀ R Q, rq A = .ok (R, Q) → ∀ k < m, ∀ j < k, R.val [k, j] = 0

/-- Frobenius norm of a matrix -/
noncomputable def fro {m n : ℕ} (M : Matrix (Fin m) (Fin n) ℂ) : ℝ := Real.sqrt (∑ i, ∑ j, Complex.normSq (M i j))

end Spec

section fro

variable {m n : ℕ} {M : Matrix (Fin m) (Fin n) ℂ}

theorem norm_fro {A : ND ℂ} (h : A.shape = [m, n]) : A.norm = fro (toM m n A) := by
  unfold ND.norm fro
  rw [h]
  simp only [sumIdx_cons, sumIdx_nil, Finset.sum_range, toM_apply]

theorem fro_nonneg : 0 ≤ fro M := Real.sqrt_nonneg _

theorem fro_sq_left : ((fro M ^ 2 : ℝ) : ℂ) = (Mᴴ * M).trace := by
  unfold fro
  have h0 : 0 ≤ ∑ i, ∑ j, Complex.normSq (M i j) := Finset.sum_nonneg fun i _ => Finset.sum_nonneg fun j _ => Complex.normSq_nonneg _
  rw [Real.sq_sqrt h0, Finset.sum_comm]
  push_cast
  simp only [Matrix.trace, Matrix.diag, Matrix.mul_apply, conjTranspose_apply]
  refine sum_congr rfl fun j _ => sum_congr rfl fun i _ => ?_
  rw [Complex.normSq_eq_conj_mul_self]
  rfl

theorem fro_sq_right : ((fro M ^ 2 : ℝ) : ℂ) = (M * Mᴴ).trace := by
  rw [fro_sq_left, Matrix.trace_mul_comm]

theorem fro_pos (h : M ≠ 0) : 0 < fro M := by
  refine lt_of_le_of_ne fro_nonneg fun e => h ?_
  have := fro_sq_left (M := M)
  rw [← e] at this
  simp only [ne_eq, OfNat.ofNat_ne_zero, not_false_eq_true, zero_pow, Complex.ofReal_zero] at this
  exact Matrix.trace_conjTranspose_mul_self_eq_zero_iff.1 this.symm

theorem fro_smul (c : ℂ) : fro (c • M) = ‖c‖ * fro M := by
  unfold fro
  simp only [Matrix.smul_apply, smul_eq_mul, Complex.normSq_mul, ← Finset.mul_sum]
  rw [Real.sqrt_mul (Complex.normSq_nonneg _)]
  rfl

theorem fro_normalise (h : M ≠ 0) : fro (((fro M : ℝ) : ℂ)⁻¹ • M) = 1 := by
  have := fro_pos h
  rw [fro_smul, norm_inv, Complex.norm_real, Real.norm_of_nonneg this.le, inv_mul_cancel₀ this.ne']

theorem isUnit_smul' {D : ℕ} {c : ℂ} (hc : c ≠ 0) {M : Matrix (Fin D) (Fin D) ℂ} (h : IsUnit M) : IsUnit (c • M) := by
  rw [Matrix.isUnit_iff_isUnit_det] at h ⊢
  rw [det_smul]
  exact (IsUnit.mk0 _ (pow_ne_zero _ hc)).mul h

end fro

namespace IMPS

variable {qr rq : ND ℂ → Py (ND ℂ × ND ℂ)} {d D : ℕ} {A : ND ℂ}

/-- the matrix whose columns are those of a tensor with the physical index joined to the left bond -/
theorem stack_indep {B M : ND ℂ} (hB : ∀ s < d, ∀ a < D, ∀ b < D, M.val [s * D + a, b] = B.val [s, a, b]) (hi : LeftInjective d D B) :
    ColsIndep M (d * D) D := by
  intro c hc j hj
  have := hi (fun i => c i) (by
    intro s hs
    funext a
    have := hc (s * D + a) (mul_add_lt hs a.2)
    rw [Finset.sum_range] at this
    simp only [mulVec, dotProduct, toM3_apply, Pi.zero_apply]
    rw [← this]
    exact sum_congr rfl fun b _ => by rw [hB s hs a a.2 b b.2])
  exact congrFun this ⟨j, hj⟩

theorem LeftInjective.mul {B : ND ℂ} {L : Matrix (Fin D) (Fin D) ℂ} (hu : IsUnit L) (h : LeftInjective d D A)
    (hB : ∀ s, toM3 D D B s = L * toM3 D D A s) : LeftInjective d D B := by
  intro v hv
  refine h v fun s hs => ?_
  have := hv s hs
  rw [hB, ← mulVec_mulVec] at this
  exact (Matrix.mulVec_injective_iff_isUnit.2 hu) (by rw [this, mulVec_zero])

/-- one round of the left sweep -/
theorem lmixedStep_ok (hqr : QRLaw qr) (hd : 0 < d) (hD : 0 < D) (hA : A.shape = [d, D, D]) (hi : LeftInjective d D A) {L : ND ℂ} (hL : L.shape = [D, D])
    (hu : IsUnit (toM D D L)) : ∃ Q L' lam, lmixedStep qr A L = .ok (Q, L', lam) ∧ Q.shape = [d * D, D] ∧ L'.shape = [D, D] ∧ IsUnit (toM D D L') ∧
      ColsOrtho Q ∧ 0 < lam ∧ fro (toM D D L') = 1 ∧
      ∀ s < d, ∀ a < D, ∀ b < D, ∑ c ∈ range D, L.val [a, c] * A.val [s, c, b] = lam * ∑ c ∈ range D, Q.val [s * D + a, c] * L'.val [c, b] := by
  obtain ⟨B, b1, b2, b3⟩ := matmul23M hL hA
  obtain ⟨M, hM⟩ : ∃ M, M = B.reshapeR [d * D, D] := ⟨_, rfl⟩
  have m1 : B.reshape [d * D, D] = .ok M := by rw [hM]; exact ND.reshape_ok_any (by simp [b2, mul_assoc])
  have m2 : M.shape = [d * D, D] := by rw [hM]; rfl
  have m3 : ∀ s < d, ∀ a < D, ∀ b < D, M.val [s * D + a, b] = B.val [s, a, b] := by
    intro s hs a ha b hb
    rw [hM]
    refine ND.reshapeR_val_any ?_ ?_
    · rw [b2]
      exact ⟨hs, ha, hb, trivial⟩
    · rw [b2]
      simp only [ravel_cons, ravel_nil, List.prod_cons, List.prod_nil]
      ring
  have hle : D ≤ d * D := Nat.le_mul_of_pos_left D hd
  have hmin : min (d * D) D = D := by omega
  have hc : ColsIndep M (d * D) D := stack_indep m3 (LeftInjective.mul hu hi b3)
  obtain ⟨Q0, R0, e, h0⟩ := QRLaw.fact hqr m2 (by positivity) hD
  obtain ⟨Q, R, e', h, -⟩ := uqr_fact e h0 (by rw [hmin]; exact h0.diag_ne hle hc)
  have hQ := h.q
  have hR := h.r
  rw [hmin] at hQ hR
  have hRu : IsUnit (toM D D R) := by
    rw [← Matrix.mulVec_injective_iff_isUnit]
    refine (injective_iff_map_eq_zero (Matrix.mulVecLin (toM D D R))).2 fun v hv => ?_
    have := hc (fun j => if hj : j < D then v ⟨j, hj⟩ else 0) (by
      intro i hi
      rw [sum_congr rfl fun j hj => by rw [h.prod i hi j (mem_range.1 hj), hmin, Finset.sum_mul], Finset.sum_comm]
      refine Finset.sum_eq_zero fun k hk => ?_
      have hk := mem_range.1 hk
      have hv := congrFun hv ⟨k, hk⟩
      simp only [mulVecLin_apply, mulVec, dotProduct, toM_apply, Pi.zero_apply] at hv
      rw [sum_congr rfl fun j _ => mul_assoc _ _ _, ← Finset.mul_sum, Finset.sum_range]
      simp only [Fin.is_lt, dite_true]
      rw [hv, mul_zero])
    funext j
    simpa using this j j.2
  have hR0 : toM D D R ≠ 0 := by
    intro e0
    have : Nonempty (Fin D) := ⟨⟨0, hD⟩⟩
    rw [e0] at hRu
    exact not_isUnit_zero hRu
  have hn : R.norm = fro (toM D D R) := norm_fro hR
  have hp : 0 < R.norm := hn ▸ fro_pos hR0
  have hp' : (R.norm : ℂ) ≠ 0 := by exact_mod_cast hp.ne'
  refine ⟨Q, R.smul ((R.norm : ℂ)⁻¹), R.norm, ?_, hQ, hR, ?_, h.ortho, hp, ?_, ?_⟩
  · unfold lmixedStep
    simp only [ND.dim, hA, List.getD_cons_zero, List.getD_cons_succ, b1, ok_bind, m1, e']
  · rw [toM_smul]
    exact isUnit_smul' (inv_ne_zero hp') hRu
  · rw [toM_smul, hn]
    exact fro_normalise hR0
  · intro s hs a ha b hb
    have e1 := m3 s hs a ha b hb
    rw [h.prod _ (mul_add_lt hs ha) b hb, hmin] at e1
    have e2 := congrFun (congrFun (b3 s) ⟨a, ha⟩) ⟨b, hb⟩
    simp only [toM3_apply, Matrix.mul_apply, toM_apply] at e2
    rw [Finset.sum_range, ← e2, ← e1, Finset.mul_sum]
    refine sum_congr rfl fun c _ => ?_
    simp only [ND.smul]
    field_simp

theorem dist_ok {L L' : ND ℂ} (h : L.shape = [D, D]) (h' : L'.shape = [D, D]) : dist L L' = .ok (fro (toM D D L - toM D D L')) := by
  unfold dist ND.zipNd
  rw [if_pos (by rw [h, h']), ok_bind, norm_fro (m := D) (n := D) (by exact h)]
  rfl

/-- the loop: it goes on, or ends with two iterates that are close -/
theorem lmixedLoop_ok (hqr : QRLaw qr) (hd : 0 < d) (hD : 0 < D) (hA : A.shape = [d, D, D]) (hi : LeftInjective d D A) (eta : ℝ) :
    ∀ (fuel : ℕ) (L : ND ℂ), L.shape = [D, D] → IsUnit (toM D D L) → fro (toM D D L) = 1 → lmixedLoop qr eta A fuel L = .error .diverges ∨
      ∃ Q L' Lp lam, lmixedLoop qr eta A fuel L = .ok (Q, L', lam) ∧ Q.shape = [d * D, D] ∧ L'.shape = [D, D] ∧ IsUnit (toM D D L') ∧
      IsUnit (toM D D Lp) ∧ ColsOrtho Q ∧ 0 < lam ∧ fro (toM D D L') = 1 ∧ fro (toM D D Lp) = 1 ∧ fro (toM D D L' - toM D D Lp) ≤ eta ∧
      ∀ s < d, ∀ a < D, ∀ b < D, ∑ c ∈ range D, Lp.val [a, c] * A.val [s, c, b] = lam * ∑ c ∈ range D, Q.val [s * D + a, c] * L'.val [c, b]
  | 0, _, _, _, _ => .inl rfl
  | fuel + 1, L, hL, hu, h1 => by
    obtain ⟨Q, L', lam, e, q, l, u, o, p, f, h⟩ := lmixedStep_ok hqr hd hD hA hi hL hu
    unfold lmixedLoop
    simp only [e, ok_bind, dist_ok l hL]
    split_ifs with hδ
    · exact lmixedLoop_ok hqr hd hD hA hi eta fuel L' l u f
    · exact .inr ⟨Q, L', L, lam, rfl, q, l, u, hu, o, p, f, h1, not_lt.1 hδ, h⟩

/-- `_lmixed` raises nothing.  When it ends, `AL` is a left isometry, and `L_ A = lam AL L` for matrices of norm one with `L` the one returned and
`L_` within `eta` of it. -/
theorem lmixed_spec (hqr : QRLaw qr) (hd : 0 < d) (hD : 0 < D) (hA : A.shape = [d, D, D]) (hi : LeftInjective d D A) (fuel : ℕ) (eta : ℝ) {L0 : ND ℂ}
    (h0 : L0.shape = [D, D]) (hu : IsUnit (toM D D L0)) : lmixed qr fuel eta A L0 = .error .diverges ∨
      ∃ AL L Lp lam, lmixed qr fuel eta A L0 = .ok (AL, L, lam) ∧ AL.shape = [d, D, D] ∧ LeftIso AL ∧ L.shape = [D, D] ∧ IsUnit (toM D D L) ∧
      IsUnit (toM D D Lp) ∧ 0 < lam ∧ fro (toM D D L) = 1 ∧ fro (toM D D Lp) = 1 ∧ fro (toM D D L - toM D D Lp) ≤ eta ∧
      ∀ s < d, toM D D Lp * toM3 D D A s = (lam : ℂ) • (toM3 D D AL s * toM D D L) := by
  have h00 : toM D D L0 ≠ 0 := by
    intro e0
    have : Nonempty (Fin D) := ⟨⟨0, hD⟩⟩
    rw [e0] at hu
    exact not_isUnit_zero hu
  have hn := norm_fro h0
  have hp : ((L0.norm : ℝ) : ℂ) ≠ 0 := by
    rw [hn]
    exact_mod_cast (fro_pos h00).ne'
  have e1 : toM D D (L0.smul ((L0.norm : ℂ)⁻¹)) = (L0.norm : ℂ)⁻¹ • toM D D L0 := toM_smul _ _
  unfold lmixed
  rcases lmixedLoop_ok hqr hd hD hA hi eta fuel (L0.smul ((L0.norm : ℂ)⁻¹)) h0 (e1 ▸ isUnit_smul' (inv_ne_zero hp) hu)
    (by rw [e1, hn]; exact fro_normalise h00) with e | ⟨Q, L, Lp, lam, e, q, l, u, u', o, p, f, f', hδ, h⟩
  · exact .inl (by rw [e, err_bind])
  right
  obtain ⟨B, hB⟩ : ∃ B, B = Q.reshapeR [d, D, D] := ⟨_, rfl⟩
  have b1 : Q.reshape [d, D, D] = .ok B := by rw [hB]; exact ND.reshape_ok_any (by simp [q, mul_assoc])
  have b2 : B.shape = [d, D, D] := by rw [hB]; rfl
  have b3 : ∀ s < d, ∀ a < D, ∀ b < D, B.val [s, a, b] = Q.val [s * D + a, b] := by
    intro s hs a ha b hb
    rw [hB]
    refine ND.reshapeR_val_any ?_ ?_
    · rw [q]
      exact ⟨mul_add_lt hs ha, hb, trivial⟩
    · rw [q]
      simp only [ravel_cons, ravel_nil, List.prod_cons, List.prod_nil]
      ring
  refine ⟨B, L, Lp, lam, ?_, b2, ?_, l, u, u', p, f, f', hδ, ?_⟩
  · rw [e, ok_bind]
    simp only [ND.dim, hA, List.getD_cons_zero, List.getD_cons_succ, b1, ok_bind]
  · rw [leftIso_iff b2]
    have := colsOrtho_toM q o
    ext i j
    have hij := congrFun (congrFun this i) j
    rw [← hij, Matrix.mul_apply, Matrix.sum_apply]
    simp only [Matrix.mul_apply, conjTranspose_apply, toM_apply, toM3_apply]
    rw [← Finset.sum_range (fun k => star (Q.val [k, i]) * Q.val [k, j]), sum_range_mul]
    refine sum_congr rfl fun s hs => ?_
    rw [Finset.sum_range]
    exact sum_congr rfl fun a _ => by rw [b3 s (mem_range.1 hs) a a.2 i i.2, b3 s (mem_range.1 hs) a a.2 j j.2]
  · intro s hs
    ext a b
    have := h s hs a a.2 b b.2
    simp only [Matrix.mul_apply, Matrix.smul_apply, toM_apply, toM3_apply, smul_eq_mul]
    rw [Finset.sum_range, Finset.sum_range] at this
    rw [this]
    congr 1
    exact sum_congr rfl fun c _ => by rw [b3 s hs a a.2 c c.2]

/-- a factor of a matrix with independent rows is invertible -/
theorem rows_unit {B M R Q : ND ℂ} (hi : RightInjective d D B) (hM : ∀ s < d, ∀ a < D, ∀ b < D, M.val [a, s * D + b] = B.val [s, a, b])
    (h : ∀ i < D, ∀ j < d * D, M.val [i, j] = ∑ k ∈ range D, R.val [i, k] * Q.val [k, j]) : IsUnit (toM D D R) := by
  rw [← Matrix.vecMul_injective_iff_isUnit]
  refine (injective_iff_map_eq_zero (Matrix.vecMulLinear (toM D D R))).2 fun v hv => ?_
  refine hi v fun s hs => ?_
  funext b
  have hv' : ∀ k < D, ∑ i : Fin D, v i * R.val [i, k] = 0 := by
    intro k hk
    have := congrFun hv ⟨k, hk⟩
    simpa [vecMul, dotProduct] using this
  simp only [vecMul, dotProduct, toM3_apply, Pi.zero_apply]
  have : ∀ i : Fin D, v i * B.val [s, i, b] = ∑ k ∈ range D, v i * R.val [i, k] * Q.val [k, s * D + b] := by
    intro i
    rw [← hM s hs i i.2 b b.2, h i i.2 _ (mul_add_lt hs b.2), Finset.mul_sum]
    exact sum_congr rfl fun k _ => by ring
  rw [sum_congr rfl fun i _ => this i, Finset.sum_comm]
  refine Finset.sum_eq_zero fun k hk => ?_
  rw [← Finset.sum_mul, hv' k (mem_range.1 hk), zero_mul]

theorem RightInjective.mul {B : ND ℂ} {R : Matrix (Fin D) (Fin D) ℂ} (hu : IsUnit R) (h : RightInjective d D A)
    (hB : ∀ s, toM3 D D B s = toM3 D D A s * R) : RightInjective d D B := by
  intro v hv
  refine h v fun s hs => ?_
  have := hv s hs
  rw [hB, ← vecMul_vecMul] at this
  exact (Matrix.vecMul_injective_iff_isUnit.2 hu) (this.trans (zero_vecMul _).symm)

/-- one round of the right sweep -/
theorem rmixedStep_ok (hqr : QRLaw qr) (hrq : RQLaw rq) (hup : RQUpper rq) (hd : 0 < d) (hD : 0 < D) (hA : A.shape = [d, D, D])
    (hi : RightInjective d D A) {R : ND ℂ} (hR : R.shape = [D, D]) (hu : IsUnit (toM D D R)) :
    ∃ Q R' lam, rmixedStep qr rq A R = .ok (Q, R', lam) ∧ Q.shape = [D, d * D] ∧ R'.shape = [D, D] ∧ IsUnit (toM D D R') ∧
      RowsOrtho Q ∧ 0 < lam ∧ fro (toM D D R') = 1 ∧
      ∀ s < d, ∀ a < D, ∀ b < D, ∑ c ∈ range D, A.val [s, a, c] * R.val [c, b] = lam * ∑ c ∈ range D, R'.val [a, c] * Q.val [c, s * D + b] := by
  obtain ⟨B, b1, b2, b3⟩ := matmul32M hA hR
  have t1 : B.transpose [1, 0, 2] = .ok (B.transposeR [1, 0, 2]) :=
    ND.transpose_ok (by simp only [ND.rank, b2, List.length_cons, List.length_nil]; decide)
  have t2 : (B.transposeR [1, 0, 2]).shape = [D, d, D] := by simp [ND.transposeR, b2, ND.rank, ND.dim]
  have t3 : ∀ a s b, (B.transposeR [1, 0, 2]).val [a, s, b] = B.val [s, a, b] := by
    intro a s b
    simp [ND.transposeR, b2, ND.rank, ND.dim, List.range_succ]
  obtain ⟨T, hT⟩ : ∃ T, T = B.transposeR [1, 0, 2] := ⟨_, rfl⟩
  rw [← hT] at t1 t2 t3
  obtain ⟨M, hM⟩ : ∃ M, M = T.reshapeR [D, d * D] := ⟨_, rfl⟩
  have m1 : T.reshape [D, d * D] = .ok M := by rw [hM]; exact ND.reshape_ok_any (by simp [t2])
  have m2 : M.shape = [D, d * D] := by rw [hM]; rfl
  have m3 : ∀ s < d, ∀ a < D, ∀ b < D, M.val [a, s * D + b] = B.val [s, a, b] := by
    intro s hs a ha b hb
    rw [hM, ← t3]
    refine ND.reshapeR_val_any ?_ ?_
    · rw [t2]
      exact ⟨ha, hs, hb, trivial⟩
    · rw [t2]
      simp only [ravel_cons, ravel_nil, List.prod_cons, List.prod_nil]
      ring
  have hle : D ≤ d * D := Nat.le_mul_of_pos_left D hd
  have hmin : min D (d * D) = D := by omega
  have hB := RightInjective.mul hu hi b3
  obtain ⟨R1, Q, e, r1, q1, o, h⟩ := urq_fact hqr hrq m2 hD (by positivity) (by
    rw [hmin]
    intro R0 Q0 e0 k hk
    obtain ⟨R0', Q0', e0', r0, q0, o0, h0⟩ := hrq M D (d * D) m2 hD (by positivity)
    rw [e0] at e0'
    obtain ⟨rfl, rfl⟩ := Prod.mk.inj (Except.ok.inj e0')
    rw [hmin] at h0
    have hun := rows_unit hB m3 h0
    rw [Matrix.isUnit_iff_isUnit_det, isUnit_iff_ne_zero, Matrix.det_of_isUpperTriangular (by
      intro i j hij
      exact hup M D (d * D) m2 hle R0 Q0 e0 i i.2 j hij), Finset.prod_ne_zero_iff] at hun
    exact hun ⟨k, hk⟩ (mem_univ _))
  rw [hmin] at r1 q1 h
  have hRu := rows_unit hB m3 h
  have hR0 : toM D D R1 ≠ 0 := by
    intro e0
    have : Nonempty (Fin D) := ⟨⟨0, hD⟩⟩
    rw [e0] at hRu
    exact not_isUnit_zero hRu
  have hn : R1.norm = fro (toM D D R1) := norm_fro r1
  have hp : 0 < R1.norm := hn ▸ fro_pos hR0
  have hp' : (R1.norm : ℂ) ≠ 0 := by exact_mod_cast hp.ne'
  refine ⟨Q, R1.smul ((R1.norm : ℂ)⁻¹), R1.norm, ?_, q1, r1, ?_, o, hp, ?_, ?_⟩
  · unfold rmixedStep
    simp only [ND.dim, hA, List.getD_cons_zero, List.getD_cons_succ, b1, ok_bind, t1, m1, e]
  · rw [toM_smul]
    exact isUnit_smul' (inv_ne_zero hp') hRu
  · rw [toM_smul, hn]
    exact fro_normalise hR0
  · intro s hs a ha b hb
    have e1 := m3 s hs a ha b hb
    rw [h a ha _ (mul_add_lt hs hb)] at e1
    have e2 := congrFun (congrFun (b3 s) ⟨a, ha⟩) ⟨b, hb⟩
    simp only [toM3_apply, Matrix.mul_apply, toM_apply] at e2
    rw [Finset.sum_range, ← e2, ← e1, Finset.mul_sum]
    refine sum_congr rfl fun c _ => ?_
    simp only [ND.smul]
    field_simp

theorem rmixedLoop_ok (hqr : QRLaw qr) (hrq : RQLaw rq) (hup : RQUpper rq) (hd : 0 < d) (hD : 0 < D) (hA : A.shape = [d, D, D])
    (hi : RightInjective d D A) (eta : ℝ) :
    ∀ (fuel : ℕ) (R : ND ℂ), R.shape = [D, D] → IsUnit (toM D D R) → fro (toM D D R) = 1 → rmixedLoop qr rq eta A fuel R = .error .diverges ∨
      ∃ Q R' Rp lam, rmixedLoop qr rq eta A fuel R = .ok (Q, R', lam) ∧ Q.shape = [D, d * D] ∧ R'.shape = [D, D] ∧ IsUnit (toM D D R') ∧
      IsUnit (toM D D Rp) ∧ RowsOrtho Q ∧ 0 < lam ∧ fro (toM D D R') = 1 ∧ fro (toM D D Rp) = 1 ∧ fro (toM D D R' - toM D D Rp) ≤ eta ∧
      ∀ s < d, ∀ a < D, ∀ b < D, ∑ c ∈ range D, A.val [s, a, c] * Rp.val [c, b] = lam * ∑ c ∈ range D, R'.val [a, c] * Q.val [c, s * D + b]
  | 0, _, _, _, _ => .inl rfl
  | fuel + 1, R, hR, hu, h1 => by
    obtain ⟨Q, R', lam, e, q, l, u, o, p, f, h⟩ := rmixedStep_ok hqr hrq hup hd hD hA hi hR hu
    unfold rmixedLoop
    simp only [e, ok_bind, dist_ok l hR]
    split_ifs with hδ
    · exact rmixedLoop_ok hqr hrq hup hd hD hA hi eta fuel R' l u f
    · exact .inr ⟨Q, R', R, lam, rfl, q, l, u, hu, o, p, f, h1, not_lt.1 hδ, h⟩

/-- `_rmixed` raises nothing.  When it ends, `AR` is a right isometry, and `A R_ = lam R AR` for matrices of norm one with `R` the one returned and
`R_` within `eta` of it. -/
theorem rmixed_spec (hqr : QRLaw qr) (hrq : RQLaw rq) (hup : RQUpper rq) (hd : 0 < d) (hD : 0 < D) (hA : A.shape = [d, D, D])
    (hi : RightInjective d D A) (fuel : ℕ) (eta : ℝ) {R0 : ND ℂ}
    (h0 : R0.shape = [D, D]) (hu : IsUnit (toM D D R0)) : rmixed qr rq fuel eta A R0 = .error .diverges ∨
      ∃ AR R Rp lam, rmixed qr rq fuel eta A R0 = .ok (AR, R, lam) ∧ AR.shape = [d, D, D] ∧ RightIso AR ∧ R.shape = [D, D] ∧ IsUnit (toM D D R) ∧
      IsUnit (toM D D Rp) ∧ 0 < lam ∧ fro (toM D D R) = 1 ∧ fro (toM D D Rp) = 1 ∧ fro (toM D D R - toM D D Rp) ≤ eta ∧
      ∀ s < d, toM3 D D A s * toM D D Rp = (lam : ℂ) • (toM D D R * toM3 D D AR s) := by
  have h00 : toM D D R0 ≠ 0 := by
    intro e0
    have : Nonempty (Fin D) := ⟨⟨0, hD⟩⟩
    rw [e0] at hu
    exact not_isUnit_zero hu
  have hn := norm_fro h0
  have hp : ((R0.norm : ℝ) : ℂ) ≠ 0 := by
    rw [hn]
    exact_mod_cast (fro_pos h00).ne'
  have e1 : toM D D (R0.smul ((R0.norm : ℂ)⁻¹)) = (R0.norm : ℂ)⁻¹ • toM D D R0 := toM_smul _ _
  unfold rmixed
  rcases rmixedLoop_ok hqr hrq hup hd hD hA hi eta fuel (R0.smul ((R0.norm : ℂ)⁻¹)) h0 (e1 ▸ isUnit_smul' (inv_ne_zero hp) hu)
    (by rw [e1, hn]; exact fro_normalise h00) with e | ⟨Q, R, Rp, lam, e, q, l, u, u', o, p, f, f', hδ, h⟩
  · exact .inl (by rw [e, err_bind])
  right
  obtain ⟨T, hT⟩ : ∃ T, T = Q.reshapeR [D, d, D] := ⟨_, rfl⟩
  have t1 : Q.reshape [D, d, D] = .ok T := by rw [hT]; exact ND.reshape_ok_any (by simp [q])
  have t2 : T.shape = [D, d, D] := by rw [hT]; rfl
  have t3 : ∀ s < d, ∀ a < D, ∀ b < D, T.val [a, s, b] = Q.val [a, s * D + b] := by
    intro s hs a ha b hb
    rw [hT]
    refine ND.reshapeR_val_any ?_ ?_
    · rw [q]
      exact ⟨ha, mul_add_lt hs hb, trivial⟩
    · rw [q]
      simp only [ravel_cons, ravel_nil, List.prod_cons, List.prod_nil]
      ring
  have b1 : T.transpose [1, 0, 2] = .ok (T.transposeR [1, 0, 2]) :=
    ND.transpose_ok (by simp only [ND.rank, t2, List.length_cons, List.length_nil]; decide)
  have b2 : (T.transposeR [1, 0, 2]).shape = [d, D, D] := by simp [ND.transposeR, t2, ND.rank, ND.dim]
  have b3' : ∀ s a b, (T.transposeR [1, 0, 2]).val [s, a, b] = T.val [a, s, b] := by
    intro s a b
    simp [ND.transposeR, t2, ND.rank, ND.dim, List.range_succ]
  obtain ⟨B, hB⟩ : ∃ B, B = T.transposeR [1, 0, 2] := ⟨_, rfl⟩
  rw [← hB] at b1 b2 b3'
  have b3 : ∀ s < d, ∀ a < D, ∀ b < D, B.val [s, a, b] = Q.val [a, s * D + b] := by
    intro s hs a ha b hb
    rw [b3', t3 s hs a ha b hb]
  refine ⟨B, R, Rp, lam, ?_, b2, ?_, l, u, u', p, f, f', hδ, ?_⟩
  · rw [e, ok_bind]
    simp only [ND.dim, hA, List.getD_cons_zero, List.getD_cons_succ, t1, b1, ok_bind]
  · rw [rightIso_iff b2]
    have := rowsOrtho_toM q o
    ext i j
    have hij := congrFun (congrFun this i) j
    rw [← hij, Matrix.mul_apply, Matrix.sum_apply]
    simp only [Matrix.mul_apply, conjTranspose_apply, toM_apply, toM3_apply]
    rw [← Finset.sum_range (fun k => Q.val [i, k] * star (Q.val [j, k])), sum_range_mul]
    refine sum_congr rfl fun s hs => ?_
    rw [Finset.sum_range]
    exact sum_congr rfl fun a _ => by rw [b3 s (mem_range.1 hs) i i.2 a a.2, b3 s (mem_range.1 hs) j j.2 a a.2]
  · intro s hs
    ext a b
    have := h s hs a a.2 b b.2
    simp only [Matrix.mul_apply, Matrix.smul_apply, toM_apply, toM3_apply, smul_eq_mul]
    rw [Finset.sum_range, Finset.sum_range] at this
    rw [this]
    congr 1
    exact sum_congr rfl fun c _ => by rw [b3 s hs c c.2 b b.2]

/-- **C63**: `mixed()` raises nothing.  When it ends, `AL` is a left isometry, `AR` a right isometry, `C` has norm one, `AL C_ = C AR` with `C_` within `eta` of
`C`, and `AL` is the tensor up to a factor and up to exchanging `L` for `L_`, within `eta` of it. -/
theorem mixed_spec (hqr : QRLaw qr) (hrq : RQLaw rq) (hup : RQUpper rq) (hd : 0 < d) (hD : 0 < D) (hA : A.shape = [d, D, D])
    (hl : LeftInjective d D A) (hr : RightInjective d D A) (fuel : ℕ) (eta : ℝ) {L0 R0 : ND ℂ} (hL0 : L0.shape = [D, D])
    (hLu : IsUnit (toM D D L0)) (hR0 : R0.shape = [D, D]) (hRu : IsUnit (toM D D R0)) :
    mixed qr rq fuel eta A L0 R0 = .error .diverges ∨
      ∃ AL AR C, mixed qr rq fuel eta A L0 R0 = .ok (AL, AR, C) ∧ AL.shape = [d, D, D] ∧ AR.shape = [d, D, D] ∧ C.shape = [D, D] ∧
      LeftIso AL ∧ RightIso AR ∧ IsUnit (toM D D C) ∧ fro (toM D D C) = 1 ∧
      (∃ C' : Matrix (Fin D) (Fin D) ℂ, IsUnit C' ∧ fro C' = 1 ∧ fro (toM D D C - C') ≤ eta ∧
        ∀ s < d, toM3 D D AL s * C' = toM D D C * toM3 D D AR s) ∧
      ∃ (L L' : Matrix (Fin D) (Fin D) ℂ) (lam : ℝ), IsUnit L ∧ IsUnit L' ∧ 0 < lam ∧ fro L = 1 ∧ fro L' = 1 ∧ fro (L - L') ≤ eta ∧
        ∀ s < d, L' * toM3 D D A s = (lam : ℂ) • (toM3 D D AL s * L) := by
  unfold mixed
  rcases lmixed_spec hqr hd hD hA hl fuel eta hL0 hLu with e | ⟨AL, L, L', lam, e, a1, a2, a3, a4, a5, a6, a7, a8, a9, a10⟩
  · exact .inl (by rw [e, err_bind])
  have hi : RightInjective d D AL := by
    intro v hv
    have : v ᵥ* toM D D L' = 0 := by
      refine hr _ fun s hs => ?_
      rw [vecMul_vecMul, a10 s hs, vecMul_smul, ← vecMul_vecMul, hv s hs, zero_vecMul, smul_zero]
    exact (Matrix.vecMul_injective_iff_isUnit.2 a5) (this.trans (zero_vecMul _).symm)
  rcases rmixed_spec hqr hrq hup hd hD a1 hi fuel eta hR0 hRu with e' | ⟨AR, C, C', mu, e', c1, c2, c3, c4, c5, c6, c7, c8, c9, c10⟩
  · exact .inl (by simp only [e, e', ok_bind, err_bind])
  right
  have hmu : mu = 1 := by
    have hl := (leftIso_iff a1).1 a2
    have hr := (rightIso_iff c1).1 c2
    have t1 : ∑ s ∈ range d, ((toM3 D D AL s * toM D D C') * (toM3 D D AL s * toM D D C')ᴴ).trace = 1 := by
      have : ∀ s, ((toM3 D D AL s * toM D D C') * (toM3 D D AL s * toM D D C')ᴴ).trace =
          (((toM3 D D AL s)ᴴ * toM3 D D AL s) * (toM D D C' * (toM D D C')ᴴ)).trace := by
        intro s
        rw [conjTranspose_mul, ← Matrix.mul_assoc, Matrix.trace_mul_comm]
        simp only [Matrix.mul_assoc]
      rw [sum_congr rfl fun s _ => this s, ← trace_sum, ← Finset.sum_mul, hl, Matrix.one_mul, ← fro_sq_right, c8]
      norm_num
    have t2 : ∑ s ∈ range d, ((toM3 D D AL s * toM D D C') * (toM3 D D AL s * toM D D C')ᴴ).trace = ((mu ^ 2 : ℝ) : ℂ) := by
      have : ∀ s ∈ range d, ((toM3 D D AL s * toM D D C') * (toM3 D D AL s * toM D D C')ᴴ).trace =
          ((mu ^ 2 : ℝ) : ℂ) * (toM D D C * (toM3 D D AR s * (toM3 D D AR s)ᴴ) * (toM D D C)ᴴ).trace := by
        intro s hs
        rw [c10 s (mem_range.1 hs)]
        simp only [conjTranspose_smul, conjTranspose_mul, Matrix.smul_mul, Matrix.mul_smul, trace_smul, smul_eq_mul, Matrix.mul_assoc,
          Complex.star_def, Complex.conj_ofReal]
        push_cast
        ring
      rw [sum_congr rfl this, ← Finset.mul_sum, ← trace_sum, ← Finset.sum_mul, ← Finset.mul_sum, hr, Matrix.mul_one, ← fro_sq_right, c7]
      norm_num
    have : mu ^ 2 = 1 := by exact_mod_cast t2.symm.trans t1
    nlinarith
  refine ⟨AL, AR, C, ?_, a1, c1, c3, a2, c2, c4, c7, ⟨toM D D C', c5, c8, c9, fun s hs => ?_⟩,
    toM D D L, toM D D L', lam, a4, a5, a6, a7, a8, a9, a10⟩
  · simp only [e, e', ok_bind]
  · rw [c10 s hs, hmu]
    simp

/-- tensors with positive definite fixed points are injective from both sides -/
theorem _root_.Xmps.Spec.FixedPoints.injective {l r : ND ℂ} {eta : ℝ} (h : FixedPoints d D A l r eta) : LeftInjective d D A ∧ RightInjective d D A := by
  have he : (eta : ℂ) ≠ 0 := by exact_mod_cast h.eta_pos.ne'
  constructor
  · intro v hv
    by_contra hne
    have hs : star v ≠ 0 := fun e => hne (by rw [← star_star v, e, star_zero])
    have hp := h.pos_l.dotProduct_mulVec_pos hs
    have e0 : (eta : ℂ) • toM D D l *ᵥ star v = 0 := by
      rw [← smul_mulVec, ← h.left, Matrix.sum_mulVec]
      refine Finset.sum_eq_zero fun s hs => ?_
      have e1 : (toM3 D D A s).map star *ᵥ star v = star (toM3 D D A s *ᵥ v) := by
        funext i
        simp [mulVec, dotProduct]
      rw [← mulVec_mulVec, e1, hv s (mem_range.1 hs), star_zero, mulVec_zero]
    have e2 : toM D D l *ᵥ star v = 0 := (smul_eq_zero.1 e0).resolve_left he
    rw [e2, dotProduct_zero] at hp
    exact lt_irrefl _ hp
  · intro v hv
    by_contra hne
    have hs : star v ≠ 0 := fun e => hne (by rw [← star_star v, e, star_zero])
    have hp := h.pos_r.dotProduct_mulVec_pos hs
    have e0 : (eta : ℂ) • toM D D r *ᵥ star v = 0 := by
      rw [← smul_mulVec, ← h.right, Matrix.sum_mulVec]
      refine Finset.sum_eq_zero fun s hs => ?_
      have e1 : (toM3 D D A s)ᴴ *ᵥ star v = star (v ᵥ* toM3 D D A s) := by
        rw [star_vecMul]
      rw [← mulVec_mulVec, e1, hv s (mem_range.1 hs), star_zero, mulVec_zero]
    have e2 : toM D D r *ᵥ star v = 0 := (smul_eq_zero.1 e0).resolve_left he
    rw [e2, dotProduct_zero] at hp
    exact lt_irrefl _ hp

end IMPS

end Xmps
