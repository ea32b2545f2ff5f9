import Verif.Spec.Chol
import Verif.Props.ImpsEigs
import Verif.Props.LapackExists
import Mathlib.LinearAlgebra.Matrix.Block

/-!
# The Cholesky factor of a diagonal matrix
-/

namespace Xmps

open Finset Matrix Spec ComplexOrder

/-- Functions with the contract exist. -/
theorem cholTriLaw_exists : ∃ chol, CholTriLaw chol := by
  classical
  have key : ∀ (n : ℕ) (M : Matrix (Fin n) (Fin n) ℂ), M.PosDef →
      ∃ X : Matrix (Fin n) (Fin n) ℂ, (∀ i j, i < j → X i j = 0) ∧ (∀ i, 0 < X i i) ∧ X * Xᴴ = M := by
    intro n M hM
    obtain ⟨Y, hY⟩ := posDef_factor hM
    obtain ⟨q, r, h1, h2, h3⟩ := qr_exists n n (fun i j => ofM Yᴴ |>.val [i, j])
    simp only [min_self] at h1 h2 h3
    let Q : Matrix (Fin n) (Fin n) ℂ := fun i j => q i j
    let R : Matrix (Fin n) (Fin n) ℂ := fun i j => r i j
    have hQ : Qᴴ * Q = 1 := by
      ext i j
      rw [Matrix.mul_apply, Matrix.one_apply]
      have := h1 i i.2 j j.2
      rw [Finset.sum_range] at this
      simp only [Matrix.conjTranspose_apply, Fin.ext_iff]
      exact this
    have hQR : Yᴴ = Q * R := by
      ext i j
      have := h2 i i.2 j j.2
      rw [Finset.sum_range] at this
      rw [Matrix.mul_apply]
      have e := congrFun (congrFun (toM_ofM Yᴴ) i) j
      rw [toM_apply] at e
      rw [← e, this]
    have hR : ∀ i j : Fin n, j < i → R i j = 0 := fun i j hij => h3 i i.2 j hij
    have hRM : Rᴴ * R = M := by
      have : Y = Rᴴ * Qᴴ := by rw [← conjTranspose_mul, ← hQR, conjTranspose_conjTranspose]
      rw [← hY, hQR, this, Matrix.mul_assoc, ← Matrix.mul_assoc Qᴴ, hQ, Matrix.one_mul]
    have hd : ∀ i, R i i ≠ 0 := by
      have hu : IsUnit R := by
        have := hM.isUnit
        rw [← hRM] at this
        exact isUnit_of_mul_isUnit_right this
      have hdet : R.det ≠ 0 := by
        have := (Matrix.isUnit_iff_isUnit_det R).1 hu
        exact this.ne_zero
      rw [Matrix.det_of_isUpperTriangular (fun i j hij => hR i j hij)] at hdet
      intro i
      exact Finset.prod_ne_zero_iff.1 hdet i (Finset.mem_univ i)
    let ph : Fin n → ℂ := fun i => R i i / ‖R i i‖
    have hph : ∀ i, ph i * star (ph i) = 1 := by
      intro i
      have hn : (‖R i i‖ : ℂ) ≠ 0 := by simpa using hd i
      simp only [ph, star_div₀, RCLike.star_def, Complex.conj_ofReal, div_mul_div_comm, Complex.mul_conj, Complex.normSq_eq_norm_sq]
      push_cast
      field_simp
    refine ⟨Rᴴ * diagonal ph, ?_, ?_, ?_⟩
    · intro i j hij
      rw [Matrix.mul_diagonal, conjTranspose_apply, hR j i hij, star_zero, zero_mul]
    · intro i
      rw [Matrix.mul_diagonal, conjTranspose_apply]
      have hn : (‖R i i‖ : ℂ) ≠ 0 := by simpa using hd i
      have : star (R i i) * ph i = (‖R i i‖ : ℂ) := by
        simp only [ph, RCLike.star_def]
        rw [mul_div_assoc', mul_comm, Complex.mul_conj, Complex.normSq_eq_norm_sq]
        push_cast
        field_simp
      rw [this]
      exact_mod_cast norm_pos_iff.2 (hd i)
    · rw [conjTranspose_mul, conjTranspose_conjTranspose, Matrix.mul_assoc, ← Matrix.mul_assoc (diagonal ph), diagonal_conjTranspose,
        diagonal_mul_diagonal]
      have : (fun i => ph i * star ph i) = fun _ => 1 := funext fun i => hph i
      rw [this, diagonal_one, Matrix.one_mul, hRM]
  refine ⟨fun M => if h : (toM (M.dim 0) (M.dim 0) M).PosDef then .ok (ofM (Classical.choose (key _ _ h))) else .error .linAlgError, ?_⟩
  intro M n hM hp
  have e : M.dim 0 = n := by simp [ND.dim, hM]
  subst e
  obtain ⟨g1, g2, g3⟩ := Classical.choose_spec (key _ _ hp)
  refine ⟨_, dif_pos hp, rfl, ?_, ?_, ?_⟩
  · intro i hi j hj hij
    have := g1 ⟨i, hi⟩ ⟨j, hj⟩ hij
    rw [← toM_ofM (Classical.choose (key _ _ hp))] at this
    exact this
  · intro i hi
    have := g2 ⟨i, hi⟩
    rw [← toM_ofM (Classical.choose (key _ _ hp))] at this
    exact this
  · rw [toM_ofM]
    exact g3

theorem posDef_diag {M : ND ℂ} {n : ℕ} {lam : ℕ → ℝ} (hv : ∀ i < n, ∀ j < n, M.val [i, j] = if i = j then (lam i : ℂ) else 0)
    (hp : ∀ i < n, 0 < lam i) : toM n n M = diagonal (fun i : Fin n => (lam i : ℂ)) ∧ (toM n n M).PosDef := by
  have e : toM n n M = diagonal (fun i : Fin n => (lam i : ℂ)) := by
    ext i j
    rw [toM_apply, hv i i.2 j j.2, diagonal_apply]
    simp [Fin.ext_iff]
  refine ⟨e, ?_⟩
  rw [e]
  exact PosDef.diagonal fun i => by exact_mod_cast hp i i.2

/-- The factor of a diagonal matrix holds the square roots. -/
theorem chol_diag {chol : ND ℂ → Py (ND ℂ)} (hchol : CholTriLaw chol) {M : ND ℂ} {n : ℕ} (hM : M.shape = [n, n]) {lam : ℕ → ℝ}
    (hv : ∀ i < n, ∀ j < n, M.val [i, j] = if i = j then (lam i : ℂ) else 0) (hp : ∀ i < n, 0 < lam i) :
    ∃ X, chol M = .ok X ∧ X.shape = [n, n] ∧ ∀ i < n, ∀ j < n, X.val [i, j] = if i = j then ((Real.sqrt (lam i) : ℝ) : ℂ) else 0 := by
  obtain ⟨X, e, hs, htri, hpos, hX⟩ := hchol M n hM (posDef_diag hv hp).2
  have hsum : ∀ i < n, ∀ j < n, ∑ k ∈ range n, X.val [i, k] * star (X.val [j, k]) = if i = j then (lam i : ℂ) else 0 := by
    intro i hi j hj
    have := congrFun (congrFun hX ⟨i, hi⟩) ⟨j, hj⟩
    rw [Matrix.mul_apply, toM_apply, hv i hi j hj] at this
    rw [Finset.sum_range, ← this]
    rfl
  have hoff : ∀ j, ∀ i < n, j < i → X.val [i, j] = 0 := by
    intro j
    induction j using Nat.strong_induction_on with
    | _ j ih =>
      intro i hi hij
      have h := hsum i hi j (by omega)
      rw [if_neg (by omega), Finset.sum_eq_single j] at h
      · rcases mul_eq_zero.1 h with h | h
        · exact h
        · rw [star_eq_zero] at h
          exact absurd h (hpos j (by omega)).ne'
      · intro k hk hkj
        have hk := Finset.mem_range.1 hk
        by_cases hlt : k < j
        · rw [ih k hlt i hi (by omega), zero_mul]
        · rw [htri j (by omega) k hk (by omega), star_zero, mul_zero]
      · intro hn
        exact absurd (Finset.mem_range.2 (by omega)) hn
  refine ⟨X, e, hs, ?_⟩
  intro i hi j hj
  by_cases hij : i = j
  · subst hij
    rw [if_pos rfl]
    have h := hsum i hi i hi
    rw [if_pos rfl, Finset.sum_eq_single i] at h
    · obtain ⟨h1, h2⟩ := Complex.pos_iff.1 (hpos i hi)
      have hx : X.val [i, i] = (((X.val [i, i]).re : ℝ) : ℂ) := Complex.ext (by simp) (by simpa using h2.symm)
      rw [hx] at h ⊢
      rw [RCLike.star_def, Complex.conj_ofReal] at h
      have h' : (X.val [i, i]).re * (X.val [i, i]).re = lam i := by exact_mod_cast h
      rw [← h', Real.sqrt_mul_self h1.le]
    · intro k hk hki
      have hk := Finset.mem_range.1 hk
      by_cases hlt : k < i
      · rw [hoff k i hi hlt, zero_mul]
      · rw [htri i hi k hk (by omega), zero_mul]
    · intro hn
      exact absurd (Finset.mem_range.2 hi) hn
  · rw [if_neg hij]
    rcases Nat.lt_or_ge i j with h | h
    · exact htri i hi j hj h
    · exact hoff j i hi (by omega)

end Xmps
