import Verif.Model.Lyapunov
import Verif.Props.JacSymplectic
import Verif.Props.Tools
import Verif.Props.Imps
import Mathlib.Analysis.Normed.Algebra.MatrixExponential

/-! # Hamiltonian and symplectic matrices -/

namespace Xmps

open Finset Spec Matrix

/-- `J` is an array of shape `[2D, 2D]` whose flow preserves the symplectic form. -/
structure HamND (D : ℕ) (J : ND ℂ) : Prop where
  shape : J.shape = [2 * D, 2 * D]
  ham : ∀ u v, symp D (applyMat J (2 * D) u) v + symp D u (applyMat J (2 * D) v) = 0

/-- `M` is an array of shape `[2D, 2D]` that preserves the symplectic form. -/
structure SympND (D : ℕ) (M : ND ℂ) : Prop where
  shape : M.shape = [2 * D, 2 * D]
  symp : ∀ u v, symp D (applyMat M (2 * D) u) (applyMat M (2 * D) v) = symp D u v

/-- the matrix of the symplectic form -/
noncomputable def Om (D : ℕ) : Matrix (Fin (2 * D)) (Fin (2 * D)) ℂ := toM (2 * D) (2 * D) (sympmat D)

theorem symp_eq (D : ℕ) (u v : ℕ → ℂ) : symp D u v = ∑ a ∈ range (2 * D), ∑ b ∈ range (2 * D), u a * (sympmat D : ND ℂ).val [a, b] * v b := by
  have hs : ∀ a < 2 * D, ∑ b ∈ range (2 * D), u a * (sympmat D : ND ℂ).val [a, b] * v b = if a < D then u a * v (D + a) else -(u a * v (a - D)) := by
    intro a ha
    split
    · next h =>
      rw [Finset.sum_eq_single (D + a)]
      · rw [sympmat_val D ha (by omega), if_pos (by omega)]
        ring
      · intro b hb hne
        rw [sympmat_val D ha (mem_range.1 hb), if_neg (by omega), if_neg (by omega)]
        ring
      · intro hb
        exact absurd (mem_range.2 (by omega)) hb
    · next h =>
      rw [Finset.sum_eq_single (a - D)]
      · rw [sympmat_val D ha (by omega), if_neg (by omega), if_pos (by omega)]
        ring
      · intro b hb hne
        have := mem_range.1 hb
        rw [sympmat_val D ha this, if_neg (by omega), if_neg (by omega)]
        ring
      · intro hb
        exact absurd (mem_range.2 (by omega)) hb
  rw [Finset.sum_congr rfl fun a ha => hs a (mem_range.1 ha), two_mul, Finset.sum_range_add, ← Finset.sum_add_distrib]
  unfold symp
  refine Finset.sum_congr rfl fun μ hμ => ?_
  have := mem_range.1 hμ
  rw [if_pos this, if_neg (by omega), Nat.add_sub_cancel_left]
  ring

theorem symp_dot (D : ℕ) (u v : ℕ → ℂ) : symp D u v = (fun a : Fin (2 * D) => u a) ⬝ᵥ Om D *ᵥ fun b : Fin (2 * D) => v b := by
  rw [symp_eq, Finset.sum_range]
  simp only [dotProduct, mulVec, Om, toM_apply, Finset.mul_sum]
  refine Finset.sum_congr rfl fun a _ => ?_
  rw [Finset.sum_range]
  exact Finset.sum_congr rfl fun b _ => by ring

theorem applyMat_mulVec (J : ND ℂ) (n : ℕ) (u : ℕ → ℂ) : (fun a : Fin n => applyMat J n u a) = toM n n J *ᵥ fun b : Fin n => u b := by
  funext a
  simp only [applyMat, mulVec, dotProduct, toM_apply]
  rw [Finset.sum_range]

theorem Om_sq (D : ℕ) : Om D * Om D = -1 := by
  ext i j
  simp only [Om, Matrix.mul_apply, toM_apply, Matrix.neg_apply, Matrix.one_apply]
  rw [← Finset.sum_range (fun c => (sympmat D : ND ℂ).val [i.1, c] * (sympmat D : ND ℂ).val [c, j.1]), sympmat_sq D i.2 j.2]
  by_cases h : i = j
  · simp [h]
  · rw [if_neg (by rwa [Fin.ext_iff] at h), if_neg h, neg_zero]

theorem Om_unit (D : ℕ) : IsUnit (Om D) := by
  refine ⟨⟨Om D, -Om D, ?_, ?_⟩, rfl⟩
  · rw [mul_neg, Om_sq, neg_neg]
  · rw [neg_mul, Om_sq, neg_neg]

theorem Om_transpose (D : ℕ) : (Om D)ᵀ = -Om D := by
  ext i j
  simp only [Om, Matrix.transpose_apply, toM_apply, Matrix.neg_apply]
  rw [sympmat_val D j.2 i.2, sympmat_val D i.2 j.2]
  have := i.2
  have := j.2
  split_ifs <;> first | omega | simp

/-- a bilinear form is zero if it is zero on all vectors -/
theorem form_zero {n : ℕ} {A : Matrix (Fin n) (Fin n) ℂ} (h : ∀ u v : Fin n → ℂ, u ⬝ᵥ A *ᵥ v = 0) : A = 0 := by
  ext i j
  have := h (Pi.single i 1) (Pi.single j 1)
  simpa using this

/-- a vector on `Fin n` comes from one on `ℕ` -/
theorem fin_ext {n : ℕ} (u : Fin n → ℂ) : ∃ u' : ℕ → ℂ, (fun a : Fin n => u' a) = u :=
  ⟨fun a => if h : a < n then u ⟨a, h⟩ else 0, by funext a; simp⟩

theorem ham_iff {D : ℕ} {J : ND ℂ} (hs : J.shape = [2 * D, 2 * D]) :
    HamND D J ↔ (toM (2 * D) (2 * D) J)ᵀ * Om D + Om D * toM (2 * D) (2 * D) J = 0 := by
  have key : ∀ u v, symp D (applyMat J (2 * D) u) v + symp D u (applyMat J (2 * D) v) =
      (fun a : Fin (2 * D) => u a) ⬝ᵥ ((toM (2 * D) (2 * D) J)ᵀ * Om D + Om D * toM (2 * D) (2 * D) J) *ᵥ fun b : Fin (2 * D) => v b := by
    intro u v
    rw [symp_dot, symp_dot, applyMat_mulVec, applyMat_mulVec, Matrix.add_mulVec, dotProduct_add, ← Matrix.mulVec_mulVec, ← Matrix.mulVec_mulVec]
    congr 1
    rw [Matrix.dotProduct_mulVec _ (toM (2 * D) (2 * D) J)ᵀ, Matrix.vecMul_transpose]
  constructor
  · intro h
    refine form_zero fun u v => ?_
    obtain ⟨u', rfl⟩ := fin_ext u
    obtain ⟨v', rfl⟩ := fin_ext v
    rw [← key]
    exact h.ham u' v'
  · intro h
    refine ⟨hs, fun u v => ?_⟩
    rw [key, h]
    simp

theorem symp_iff {D : ℕ} {M : ND ℂ} (hs : M.shape = [2 * D, 2 * D]) :
    SympND D M ↔ (toM (2 * D) (2 * D) M)ᵀ * Om D * toM (2 * D) (2 * D) M = Om D := by
  have key : ∀ u v, symp D (applyMat M (2 * D) u) (applyMat M (2 * D) v) - symp D u v =
      (fun a : Fin (2 * D) => u a) ⬝ᵥ ((toM (2 * D) (2 * D) M)ᵀ * Om D * toM (2 * D) (2 * D) M - Om D) *ᵥ fun b : Fin (2 * D) => v b := by
    intro u v
    rw [symp_dot, symp_dot, applyMat_mulVec, applyMat_mulVec, Matrix.sub_mulVec, dotProduct_sub, Matrix.mul_assoc, ← Matrix.mulVec_mulVec, ← Matrix.mulVec_mulVec]
    congr 1
    rw [Matrix.dotProduct_mulVec _ (toM (2 * D) (2 * D) M)ᵀ, Matrix.vecMul_transpose]
  constructor
  · intro h
    refine sub_eq_zero.1 (form_zero fun u v => ?_)
    obtain ⟨u', rfl⟩ := fin_ext u
    obtain ⟨v', rfl⟩ := fin_ext v
    rw [← key, h.symp, sub_self]
  · intro h
    refine ⟨hs, fun u v => sub_eq_zero.1 ?_⟩
    rw [key, h]
    simp

/-- `expm(J t)` is symplectic for a Hamiltonian matrix -/
theorem exp_symp {D : ℕ} {J : Matrix (Fin (2 * D)) (Fin (2 * D)) ℂ} (h : Jᵀ * Om D + Om D * J = 0) :
    (NormedSpace.exp J)ᵀ * Om D * NormedSpace.exp J = Om D := by
  have hu := Om_unit D
  have hd : IsUnit (Om D).det := (Matrix.isUnit_iff_isUnit_det _).1 hu
  have e1 : Jᵀ = Om D * (-J) * (Om D)⁻¹ := by
    rw [show Om D * (-J) = Jᵀ * Om D by rw [mul_neg]; exact (eq_neg_of_add_eq_zero_left h).symm, Matrix.mul_assoc, Matrix.mul_nonsing_inv _ hd, mul_one]
  rw [← Matrix.exp_transpose, e1, Matrix.exp_conj _ _ hu, Matrix.exp_neg]
  rw [Matrix.mul_assoc (Om D * _), Matrix.nonsing_inv_mul _ hd, mul_one, Matrix.mul_assoc,
    Matrix.nonsing_inv_mul _ ((Matrix.isUnit_iff_isUnit_det _).1 (Matrix.isUnit_exp J)), mul_one]

theorem symp_det {D : ℕ} {M : Matrix (Fin (2 * D)) (Fin (2 * D)) ℂ} (h : Mᵀ * Om D * M = Om D) : ‖M.det‖ = 1 := by
  have hd : (Om D).det ≠ 0 := ((Matrix.isUnit_iff_isUnit_det _).1 (Om_unit D)).ne_zero
  have := congrArg Matrix.det h
  rw [Matrix.det_mul, Matrix.det_mul, Matrix.det_transpose] at this
  have h2 : M.det * M.det = 1 := by
    refine mul_right_cancel₀ hd ?_
    rw [one_mul]
    linear_combination this
  have h3 : ‖M.det‖ * ‖M.det‖ = 1 := by rw [← norm_mul, h2, norm_one]
  nlinarith [norm_nonneg M.det]

theorem ham_smul {n : ℕ} {J W : Matrix (Fin n) (Fin n) ℂ} (h : Jᵀ * W + W * J = 0) (c : ℂ) : (c • J)ᵀ * W + W * (c • J) = 0 := by
  rw [Matrix.transpose_smul, Matrix.smul_mul, Matrix.mul_smul, ← smul_add, h, smul_zero]

theorem ham_neg_tr {D : ℕ} {J : Matrix (Fin (2 * D)) (Fin (2 * D)) ℂ} (h : Jᵀ * Om D + Om D * J = 0) : (-Jᵀ)ᵀ * Om D + Om D * (-Jᵀ) = 0 := by
  have e : Om D * (Jᵀ * Om D + Om D * J) * Om D = 0 := by rw [h]; simp
  have e1 : Om D * (Jᵀ * Om D + Om D * J) * Om D = -(Om D * Jᵀ) - J * Om D := by
    rw [mul_add, add_mul, ← Matrix.mul_assoc (Om D) (Om D), Om_sq, ← Matrix.mul_assoc, Matrix.mul_assoc _ (Om D) (Om D), Om_sq]
    simp [sub_eq_add_neg]
  rw [e1] at e
  simp only [Matrix.transpose_neg, Matrix.transpose_transpose, neg_mul, mul_neg]
  rw [← e]
  abel

theorem expmMat_ok {n c : ℕ} {A B : ND ℂ} (hA : A.shape = [n, n]) (hB : B.shape = [n, c]) :
    ∃ M, expmMat A B = .ok M ∧ M.shape = [n, c] ∧ toM n c M = NormedSpace.exp (toM n n A) * toM n c B := by
  refine ⟨ofM (NormedSpace.exp (toM n n A) * toM n c B), ?_, rfl, toM_ofM _⟩
  unfold expmMat
  rw [hA, hB]
  simp

end Xmps
