import Verif.Props.ImpsEigs

/-!
# The transfer matrix of two left isometries

If `Σ A_s† A_s = 1`, `Σ A_s† l B_s = η l` and `r` is a positive definite right fixed point of `B`, then `|η| ≤ 1`, and `|η| = 1` only
if `l B_s = η A_s l`.
-/

namespace Xmps.Mixed

open Finset Matrix ComplexOrder

variable {d D : ℕ} {A B : ℕ → Matrix (Fin D) (Fin D) ℂ} {l r : Matrix (Fin D) (Fin D) ℂ} {η : ℂ}

theorem trace_sq (X : Matrix (Fin D) (Fin D) ℂ) (hr : r.PosDef) :
    ∃ c : ℝ, 0 ≤ c ∧ (Xᴴ * X * r).trace = c ∧ (c = 0 → X = 0) := by
  obtain ⟨C, hC⟩ := posDef_factor hr
  have hu : IsUnit C := by
    have := hr.isUnit
    rw [← hC] at this
    exact isUnit_of_mul_isUnit_left this
  have e : (Xᴴ * X * r).trace = ((X * C)ᴴ * (X * C)).trace := by
    rw [← hC, conjTranspose_mul, ← Matrix.mul_assoc, Matrix.trace_mul_comm]
    simp only [Matrix.mul_assoc]
  have hn := (posSemidef_conjTranspose_mul_self (X * C)).trace_nonneg
  obtain ⟨h1, h2⟩ := Complex.nonneg_iff.1 hn
  have h3 : ((X * C)ᴴ * (X * C)).trace = ((((X * C)ᴴ * (X * C)).trace.re : ℝ) : ℂ) := Complex.ext (by simp) (by simpa using h2.symm)
  refine ⟨_, h1, by rw [e]; exact h3, fun h => ?_⟩
  rw [h, Complex.ofReal_zero, trace_conjTranspose_mul_self_eq_zero_iff] at h3
  obtain ⟨u, hu⟩ := hu
  calc X = X * (u.1 * u.2) := by rw [u.val_inv, Matrix.mul_one]
    _ = 0 := by rw [← Matrix.mul_assoc, hu, h3, Matrix.zero_mul]

theorem defect (hA : ∑ s ∈ range d, (A s)ᴴ * A s = 1) (hl : ∑ s ∈ range d, (A s)ᴴ * l * B s = η • l) :
    ∑ s ∈ range d, (l * B s - η • (A s * l))ᴴ * (l * B s - η • (A s * l)) =
      ∑ s ∈ range d, (B s)ᴴ * (lᴴ * l) * B s - (star η * η) • (lᴴ * l) := by
  have h1 : ∑ s ∈ range d, (B s)ᴴ * lᴴ * A s = star η • lᴴ := by
    rw [← conjTranspose_smul, ← hl, conjTranspose_sum]
    refine sum_congr rfl fun s _ => ?_
    simp [conjTranspose_mul, Matrix.mul_assoc]
  have e : ∀ s, (l * B s - η • (A s * l))ᴴ * (l * B s - η • (A s * l)) =
      (B s)ᴴ * (lᴴ * l) * B s - η • (((B s)ᴴ * lᴴ * A s) * l) - star η • (lᴴ * ((A s)ᴴ * l * B s)) +
        (star η * η) • (lᴴ * ((A s)ᴴ * A s) * l) := by
    intro s
    simp only [conjTranspose_sub, conjTranspose_smul, conjTranspose_mul, Matrix.sub_mul, Matrix.mul_sub, Matrix.smul_mul, Matrix.mul_smul,
      smul_sub, smul_smul, Matrix.mul_assoc, mul_comm η (star η)]
    abel
  simp only [e, sum_add_distrib, sum_sub_distrib, ← Finset.smul_sum, ← Finset.sum_mul, ← Finset.mul_sum, h1, hl, hA, Matrix.mul_one,
    Matrix.smul_mul, Matrix.mul_smul, smul_smul]
  rw [mul_comm η (star η)]
  abel

theorem trace_defect (hA : ∑ s ∈ range d, (A s)ᴴ * A s = 1) (hl : ∑ s ∈ range d, (A s)ᴴ * l * B s = η • l)
    (hr : ∑ s ∈ range d, B s * r * (B s)ᴴ = r) :
    ∑ s ∈ range d, ((l * B s - η • (A s * l))ᴴ * (l * B s - η • (A s * l)) * r).trace = (1 - star η * η) * (lᴴ * l * r).trace := by
  have h1 : ∑ s ∈ range d, ((B s)ᴴ * (lᴴ * l) * B s * r).trace = (lᴴ * l * r).trace := by
    conv_rhs => rw [← hr, Matrix.mul_sum, trace_sum]
    refine sum_congr rfl fun s _ => ?_
    rw [Matrix.mul_assoc, Matrix.mul_assoc, Matrix.trace_mul_comm]
    simp only [Matrix.mul_assoc]
  rw [← trace_sum, ← Finset.sum_mul, defect hA hl, Matrix.sub_mul, trace_sub, Finset.sum_mul, trace_sum, h1, Matrix.smul_mul, trace_smul,
    smul_eq_mul]
  ring

theorem star_mul_norm (η : ℂ) : star η * η = ((‖η‖ ^ 2 : ℝ) : ℂ) := by
  rw [Complex.star_def, ← Complex.normSq_eq_conj_mul_self, Complex.normSq_eq_norm_sq]

/-- the leading eigenvalue of two left isometries is at most one -/
theorem norm_le_one (hA : ∑ s ∈ range d, (A s)ᴴ * A s = 1) (hl : ∑ s ∈ range d, (A s)ᴴ * l * B s = η • l) (h0 : l ≠ 0)
    (hr : ∑ s ∈ range d, B s * r * (B s)ᴴ = r) (hp : r.PosDef) :
    ‖η‖ ≤ 1 ∧ (‖η‖ = 1 → ∀ s < d, l * B s = η • (A s * l)) := by
  choose c hc hc' hc0 using fun s => trace_sq (l * B s - η • (A s * l)) hp
  obtain ⟨b, hb, hb', hb0⟩ := trace_sq l hp
  have hbp : 0 < b := lt_of_le_of_ne hb fun e => h0 (hb0 e.symm)
  have key := trace_defect hA hl hr
  simp only [hc', hb', star_mul_norm] at key
  have key' : ∑ s ∈ range d, c s = (1 - ‖η‖ ^ 2) * b := by exact_mod_cast key
  have hs : 0 ≤ ∑ s ∈ range d, c s := sum_nonneg fun s _ => hc s
  constructor
  · rw [key'] at hs
    have : 0 ≤ 1 - ‖η‖ ^ 2 := by
      by_contra h
      exact absurd hs (not_le.2 (mul_neg_of_neg_of_pos (not_le.1 h) hbp))
    nlinarith [norm_nonneg η]
  · intro h1 s hs'
    rw [h1] at key'
    have hz : ∑ s ∈ range d, c s = 0 := by rw [key']; ring
    have := (sum_eq_zero_iff_of_nonneg fun s _ => hc s).1 hz s (mem_range.2 hs')
    exact sub_eq_zero.1 (hc0 s this)

/-- an eigenvalue of modulus one with an eigenvector that intertwines gives a left fixed point of `B` -/
theorem fixed_of_intertwine (hA : ∑ s ∈ range d, (A s)ᴴ * A s = 1) (h : ∀ s < d, l * B s = η • (A s * l)) (h1 : ‖η‖ = 1) :
    ∑ s ∈ range d, (B s)ᴴ * (lᴴ * l) * B s = lᴴ * l := by
  have e : ∀ s ∈ range d, (B s)ᴴ * (lᴴ * l) * B s = lᴴ * ((A s)ᴴ * A s) * l := by
    intro s hs
    have : (B s)ᴴ * (lᴴ * l) * B s = (l * B s)ᴴ * (l * B s) := by
      rw [conjTranspose_mul]
      simp only [Matrix.mul_assoc]
    rw [this, h s (mem_range.1 hs), conjTranspose_smul, Matrix.smul_mul, Matrix.mul_smul, smul_smul, star_mul_norm, h1, conjTranspose_mul]
    simp [Matrix.mul_assoc]
  rw [sum_congr rfl e, ← Finset.sum_mul, ← Finset.mul_sum, hA, Matrix.mul_one]

/-- related left isometries: the factor has modulus one, and the inverse of the gauge is an eigenvector -/
theorem eigen_of_gauge {g gi : Matrix (Fin D) (Fin D) ℂ} {c : ℂ} (hD : 0 < D) (hA : ∑ s ∈ range d, (A s)ᴴ * A s = 1)
    (hB : ∑ s ∈ range d, (B s)ᴴ * B s = 1) {rA : Matrix (Fin D) (Fin D) ℂ} (hr : ∑ s ∈ range d, A s * rA * (A s)ᴴ = rA) (hp : rA.PosDef)
    (hg : g * gi = 1) (h : ∀ s < d, B s = c • (g * A s * gi)) :
    ‖c‖ = 1 ∧ ∑ s ∈ range d, (A s)ᴴ * gi * B s = c • gi := by
  have hg' : gi * g = 1 := mul_eq_one_comm.1 hg
  have e : ∀ s ∈ range d, (A s)ᴴ * gi * B s = c • ((A s)ᴴ * A s * gi) := by
    intro s hs
    rw [h s (mem_range.1 hs), Matrix.mul_smul]
    congr 1
    calc (A s)ᴴ * gi * (g * A s * gi) = (A s)ᴴ * (gi * g) * A s * gi := by simp only [Matrix.mul_assoc]
      _ = _ := by rw [hg', Matrix.mul_one]
  refine ⟨?_, by rw [sum_congr rfl e, ← Finset.smul_sum, ← Finset.sum_mul, hA, Matrix.one_mul]⟩
  -- `g† g` is an eigenvector of the transfer matrix of `A` with eigenvalue `|c|⁻²`
  have h2 : (star c * c) • ∑ s ∈ range d, (A s)ᴴ * (gᴴ * g) * A s = gᴴ * g := by
    have : ∀ s ∈ range d, (B s)ᴴ * B s = (star c * c) • (giᴴ * ((A s)ᴴ * (gᴴ * g) * A s) * gi) := by
      intro s hs
      rw [h s (mem_range.1 hs), conjTranspose_smul, conjTranspose_mul, conjTranspose_mul, Matrix.smul_mul, Matrix.mul_smul, smul_smul]
      simp only [Matrix.mul_assoc]
    rw [sum_congr rfl this, ← Finset.smul_sum, ← Finset.sum_mul, ← Finset.mul_sum] at hB
    calc (star c * c) • ∑ s ∈ range d, (A s)ᴴ * (gᴴ * g) * A s
        = (star c * c) • ((gi * g)ᴴ * (∑ s ∈ range d, (A s)ᴴ * (gᴴ * g) * A s) * (gi * g)) := by rw [hg']; simp
      _ = gᴴ * ((star c * c) • (giᴴ * (∑ s ∈ range d, (A s)ᴴ * (gᴴ * g) * A s) * gi)) * g := by
          rw [conjTranspose_mul, Matrix.mul_smul, Matrix.smul_mul]
          simp only [Matrix.mul_assoc]
      _ = gᴴ * g := by rw [hB, Matrix.mul_one]
  obtain ⟨b, hb, hb', hb0⟩ := trace_sq g hp
  have hbp : b ≠ 0 := by
    intro e0
    have hg0 := hb0 e0
    rw [hg0, Matrix.zero_mul] at hg
    have := congrFun (congrFun hg ⟨0, hD⟩) ⟨0, hD⟩
    simp at this
  have h3 : (∑ s ∈ range d, (A s)ᴴ * (gᴴ * g) * A s * rA).trace = (gᴴ * g * rA).trace := by
    conv_rhs => rw [← hr, Matrix.mul_sum, trace_sum]
    rw [trace_sum]
    refine sum_congr rfl fun s _ => ?_
    rw [Matrix.mul_assoc, Matrix.mul_assoc, Matrix.trace_mul_comm]
    simp only [Matrix.mul_assoc]
  have h4 := congrArg (fun M => (M * rA).trace) h2
  simp only [Matrix.smul_mul, trace_smul, Finset.sum_mul, h3, hb', star_mul_norm, smul_eq_mul] at h4
  have h5 : ‖c‖ ^ 2 * b = b := by exact_mod_cast h4
  have h6 : ‖c‖ ^ 2 = 1 := by
    have := mul_right_cancel₀ hbp (h5.trans (one_mul b).symm)
    exact this
  nlinarith [norm_nonneg c, sq_nonneg (‖c‖ - 1)]

end Xmps.Mixed
