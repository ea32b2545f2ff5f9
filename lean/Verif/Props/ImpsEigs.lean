import Verif.Props.Imps
import Verif.Props.Tfd
import Mathlib.Analysis.Matrix.Order

/-!
# The fixed points `TransferMatrix.eigs` returns
-/

namespace Xmps

open Finset Matrix Spec ImpsCore ComplexOrder MatrixOrder

/-- a factorisation of every positive definite matrix -/
theorem posDef_factor {n : ℕ} {M : Matrix (Fin n) (Fin n) ℂ} (h : M.PosDef) : ∃ X, X * Xᴴ = M := by
  obtain ⟨B, hB⟩ := CStarAlgebra.nonneg_iff_eq_star_mul_self.mp h.posSemidef.nonneg
  exact ⟨Bᴴ, by rw [conjTranspose_conjTranspose, hB]; rfl⟩

/-- Functions with the contract of the Cholesky factorisation exist. -/
theorem cholLaw_exists : ∃ chol, CholLaw chol := by
  classical
  refine ⟨fun M => if h : (toM (M.dim 0) (M.dim 0) M).PosDef then .ok (ofM (Classical.choose (posDef_factor h))) else .error .linAlgError, ?_⟩
  intro M n hM hp
  have e : M.dim 0 = n := by simp [ND.dim, hM]
  subst e
  refine ⟨_, dif_pos hp, rfl, ?_⟩
  rw [toM_ofM]
  exact Classical.choose_spec (posDef_factor hp)

theorem trace_pos {n : ℕ} (hn : 0 < n) {l r : Matrix (Fin n) (Fin n) ℂ} (hl : l.PosDef) (hr : r.PosDef) :
    ∃ c : ℝ, 0 < c ∧ (l * r).trace = c := by
  haveI : Nonempty (Fin n) := ⟨⟨0, hn⟩⟩
  obtain ⟨X, hX⟩ := posDef_factor hl
  have hu : IsUnit X := by
    have := hl.isUnit
    rw [← hX] at this
    exact isUnit_of_mul_isUnit_left this
  have hp : (Xᴴ * r * X).PosDef := hr.conjTranspose_mul_mul_same (Matrix.mulVec_injective_iff_isUnit.2 hu)
  have ht := hp.trace_pos
  have : (l * r).trace = (Xᴴ * r * X).trace := by
    rw [← hX, Matrix.mul_assoc, Matrix.trace_mul_comm]
  rw [this]
  obtain ⟨h1, h2⟩ := Complex.pos_iff.1 ht
  exact ⟨_, h1, Complex.ext (by simp) (by simpa using h2.symm)⟩

/-- the phase removed by `rotate_to_hermitian` and the sign -/
theorem rotate_phase {z : ℂ} (h : z.re ≠ 0) : z * csqrt (star z / z) * (npSign z)⁻¹ = ‖z‖ := by
  have hz : z ≠ 0 := fun e => h (by rw [e]; rfl)
  have hn : (‖z‖ : ℂ) ≠ 0 := by simpa using hz
  set g : ℝ := (SignType.sign z.re : ℝ) with hg
  have hgg : g * g = 1 ∧ 0 < g * z.re := by
    rcases lt_or_gt_of_ne h with h | h
    · rw [hg, sign_neg h]
      simp [h]
    · rw [hg, sign_pos h]
      simp [h]
  have hg0 : (g : ℂ) ≠ 0 := by
    intro e
    have : g = 0 := by exact_mod_cast e
    rw [this] at hgg
    simp at hgg
  have hzz : star z * z = (‖z‖ : ℂ) ^ 2 := by
    rw [Complex.star_def, ← Complex.normSq_eq_conj_mul_self, Complex.normSq_eq_norm_sq]
    push_cast
    rfl
  have hgc : (g : ℂ) * g = 1 := by exact_mod_cast hgg.1
  have key : csqrt (star z / z) = g * star z / ‖z‖ := by
    have e : star z / z = (g * star z / ‖z‖) ^ 2 := by
      rw [div_pow, mul_pow, pow_two (g : ℂ), hgc, one_mul, ← hzz]
      have : star z ≠ 0 := star_ne_zero.2 hz
      field_simp
    rw [e]
    unfold csqrt
    refine Complex.sq_cpow_two_inv ?_
    rw [mul_div_assoc]
    have : (g : ℂ) * (star z / ‖z‖) = ((g / ‖z‖ : ℝ) : ℂ) * star z := by
      push_cast
      ring
    rw [this, Complex.re_ofReal_mul, Complex.star_def, Complex.conj_re, div_mul_eq_mul_div]
    exact div_pos hgg.2 (by simpa using hz)
  have hs : npSign z = g := by
    unfold npSign
    rw [if_pos h]
  rw [key, hs]
  have : z * (g * star z / ‖z‖) * (g : ℂ)⁻¹ = (star z * z) / ‖z‖ := by field_simp
  rw [this, hzz]
  field_simp

theorem csqrt_real {x : ℝ} (h : 0 < x) : csqrt x = (Real.sqrt x : ℝ) := by
  have : (x : ℂ) = ((Real.sqrt x : ℝ) : ℂ) ^ 2 := by
    rw [← Complex.ofReal_pow, Real.sq_sqrt h.le]
  conv_lhs => rw [this]
  exact Complex.sq_cpow_two_inv (by simpa using Real.sqrt_pos.2 h)

/-- scaling the fixed points -/
theorem _root_.Xmps.Spec.FixedPoints.scale {d D : ℕ} {A l r l' r' : ND ℂ} {eta c c' : ℝ} (h : FixedPoints d D A l r eta) (hc : 0 < c) (hc' : 0 < c')
    (hl : l'.shape = [D, D]) (hr : r'.shape = [D, D]) (el : toM D D l' = (c : ℂ) • toM D D l) (er : toM D D r' = (c' : ℂ) • toM D D r) :
    FixedPoints d D A l' r' eta := by
  refine ⟨h.shape, hl, hr, h.eta_pos, ?_, ?_, ?_, ?_⟩
  · rw [er]
    simp only [Matrix.mul_smul, Matrix.smul_mul]
    rw [← Finset.smul_sum, h.right, smul_comm]
  · rw [el]
    simp only [Matrix.mul_smul, Matrix.smul_mul]
    rw [← Finset.smul_sum, h.left, smul_comm]
  · rw [el]
    exact h.pos_l.smul (by exact_mod_cast hc)
  · rw [er]
    exact h.pos_r.smul (by exact_mod_cast hc')

namespace IMPS

theorem tr2_ok {A : ND ℂ} {n : ℕ} (h : A.shape = [n, n]) : A.tr2 = .ok (toM n n A).trace := by
  unfold ND.tr2
  rw [h]
  simp [Matrix.trace, Finset.sum_range]

/-- what is done to the eigenvector: it becomes a positive multiple of the positive definite one -/
theorem rotate_ok {D : ℕ} {v r : ND ℂ} (hD : 0 < D) (hv : v.shape = [D * D, 1]) (hr : r.shape = [D, D]) (hp : (toM D D r).PosDef) {z : ℂ}
    (hz : z.re ≠ 0) (h : ∀ a < D, ∀ b < D, v.val [a * D + b, 0] = z * r.val [a, b]) :
    ∃ w, v.reshape [D, D] = .ok w ∧ ((rotateToHermitian w).smul (npSign (v.val [0, 0]))⁻¹).shape = [D, D] ∧
      toM D D ((rotateToHermitian w).smul (npSign (v.val [0, 0]))⁻¹) = ((‖z‖ : ℝ) : ℂ) • toM D D r := by
  have hw : ∀ a < D, ∀ b < D, (v.reshapeR [D, D]).val [a, b] = z * r.val [a, b] := by
    intro a ha b hb
    rw [← h a ha b hb]
    refine ND.reshapeR_val_any ?_ ?_
    · rw [hv]
      exact ⟨mul_add_lt ha hb, Nat.one_pos, trivial⟩
    · rw [hv]
      simp [ravel]
  refine ⟨v.reshapeR [D, D], ND.reshape_ok_any (by simp [hv]), rfl, ?_⟩
  have h00 := h 0 hD 0 hD
  rw [zero_mul, zero_add] at h00
  obtain ⟨c, hc, hc'⟩ : ∃ c : ℝ, 0 < c ∧ r.val [0, 0] = c := by
    have := hp.diag_pos (i := ⟨0, hD⟩)
    obtain ⟨h1, h2⟩ := Complex.pos_iff.1 this
    exact ⟨_, h1, Complex.ext (by simp) (by simpa using h2.symm)⟩
  have hz' : (z * (c : ℂ)).re ≠ 0 := by
    rw [Complex.re_mul_ofReal]
    exact mul_ne_zero hz hc.ne'
  have hph := rotate_phase hz'
  ext i j
  simp only [toM_apply, Matrix.smul_apply, smul_eq_mul, ND.smul, rotateToHermitian]
  rw [hw i i.2 j j.2, hw 0 hD 0 hD, h00, hc']
  have hcc : (c : ℂ) ≠ 0 := by exact_mod_cast hc.ne'
  have : (npSign (z * c))⁻¹ * (csqrt (star (z * c) / (z * c)) * (z * r.val [i, j])) =
      (z * c * csqrt (star (z * c) / (z * c)) * (npSign (z * c))⁻¹) * (r.val [i, j] / c) := by
    field_simp
  rw [this, hph, norm_mul, Complex.norm_real, Real.norm_of_nonneg hc.le]
  push_cast
  field_simp

/-- `eigs` returns positive definite fixed points with `tr(l r) = 1` whatever multiples of them the eigensolver finds, as long as
the phases are not purely imaginary. -/
theorem eigs_ok {arn arnH : ND ℂ → Py (ℝ × ND ℂ)} {d D : ℕ} {A l r u v : ND ℂ} {eta eta' : ℝ} {z z' : ℂ} (hD : 0 < D)
    (hf : FixedPoints d D A l r eta) (h1 : arn A = .ok (eta', v)) (h2 : arnH A = .ok (eta, u)) (hv : v.shape = [D * D, 1])
    (hu : u.shape = [D * D, 1]) (hz : z.re ≠ 0) (hz' : z'.re ≠ 0) (hr : ∀ a < D, ∀ b < D, v.val [a * D + b, 0] = z * r.val [a, b])
    (hl : ∀ a < D, ∀ b < D, u.val [a * D + b, 0] = z' * l.val [a, b]) :
    ∃ l' r', eigs arn arnH A = .ok (eta, l', r') ∧ FixedPoints d D A l' r' eta ∧ (toM D D l' * toM D D r').trace = 1 := by
  obtain ⟨w, a1, a2, a3⟩ := rotate_ok hD hv hf.shape_r hf.pos_r hz hr
  obtain ⟨y, b1, b2, b3⟩ := rotate_ok hD hu hf.shape_l hf.pos_l hz' hl
  obtain ⟨R, m1, m2, m3⟩ := matmul22M b2 a2
  obtain ⟨c, hc, hc'⟩ := trace_pos hD hf.pos_l hf.pos_r
  have pz : 0 < ‖z‖ := norm_pos_iff.2 fun e => hz (by rw [e]; rfl)
  have pz' : 0 < ‖z'‖ := norm_pos_iff.2 fun e => hz' (by rw [e]; rfl)
  have hn : (toM D D R).trace = ((‖z'‖ * ‖z‖ * c : ℝ) : ℂ) := by
    rw [m3, a3, b3, Matrix.smul_mul, Matrix.mul_smul, trace_smul, trace_smul, hc', smul_eq_mul, smul_eq_mul]
    push_cast
    ring
  have hnp : 0 < ‖z'‖ * ‖z‖ * c := by positivity
  set N := ‖z'‖ * ‖z‖ * c with hN
  have hd1 : A.dim 1 = D := by simp [ND.dim, hf.shape]
  have hd2 : A.dim 2 = D := by simp [ND.dim, hf.shape]
  have e1 : toM D D (((rotateToHermitian y).smul (npSign (u.val [0, 0]))⁻¹).smul (csqrt (N : ℂ))⁻¹) = ((‖z'‖ / Real.sqrt N : ℝ) : ℂ) • toM D D l := by
    rw [toM_smul, b3, smul_smul, csqrt_real hnp]
    congr 1
    push_cast
    rw [div_eq_inv_mul]
  have e2 : toM D D (((rotateToHermitian w).smul (npSign (v.val [0, 0]))⁻¹).smul (csqrt (N : ℂ))⁻¹) = ((‖z‖ / Real.sqrt N : ℝ) : ℂ) • toM D D r := by
    rw [toM_smul, a3, smul_smul, csqrt_real hnp]
    congr 1
    push_cast
    rw [div_eq_inv_mul]
  refine ⟨_, _, ?_, hf.scale (c := ‖z'‖ / Real.sqrt N) (c' := ‖z‖ / Real.sqrt N) ?_ ?_
    (l' := ((rotateToHermitian y).smul (npSign (u.val [0, 0]))⁻¹).smul (csqrt (N : ℂ))⁻¹)
    (r' := ((rotateToHermitian w).smul (npSign (v.val [0, 0]))⁻¹).smul (csqrt (N : ℂ))⁻¹) b2 a2 e1 e2, ?_⟩
  · unfold eigs
    simp only [h1, h2, ok_bind, hd1, hd2, a1, b1, m1, tr2_ok m2, hn]
  · exact div_pos pz' (Real.sqrt_pos.2 hnp)
  · exact div_pos pz (Real.sqrt_pos.2 hnp)
  · rw [e1, e2, Matrix.smul_mul, Matrix.mul_smul, trace_smul, trace_smul, hc', smul_eq_mul, smul_eq_mul, ← Complex.ofReal_mul, ← Complex.ofReal_mul,
      ← Complex.ofReal_one]
    congr 1
    have h0 : Real.sqrt N ≠ 0 := (Real.sqrt_pos.2 hnp).ne'
    have e3 : ‖z'‖ / Real.sqrt N * (‖z‖ / Real.sqrt N * c) = (‖z'‖ * ‖z‖ * c) / (Real.sqrt N * Real.sqrt N) := by
      field_simp
    rw [e3, Real.mul_self_sqrt hnp.le, ← hN, div_self hnp.ne']

end IMPS

end Xmps
