import Verif.Props.ImpsLh

/-!
# `Lh` for a complex tensor (C79)

The equation of `Lh` moves a site with `Σ_s A_s† K A_s`, although the first index of `K` is the index of the ket: for a complex tensor the
result is not the sum of the terms of the Hamiltonian.
-/

namespace Xmps

open Finset Matrix Spec ImpsCore ComplexOrder Xmps.Ncon

namespace IMPS

variable {eigs : ND ℂ → Py (ℝ × ND ℂ × ND ℂ)}

/-- `exRot` with the leading eigenvalue 1 -/
noncomputable def exRh : ND ℂ := exRot.smul (1 / 2)

/-- `1 ⊗ X` -/
noncomputable def ex1X : ND ℂ := ⟨[4, 4], fun
  | [0, 1] => 1
  | [1, 0] => 1
  | [2, 3] => 1
  | [3, 2] => 1
  | _ => 0⟩

theorem exRh_toM3 (s : ℕ) : toM3 2 2 exRh s = (1 / 2 : ℂ) • toM3 2 2 exRot s := by
  ext i j
  rfl

theorem exRh_fixed : FixedPoints 2 2 exRh exHalf exHalf 1 := by
  have hf := exRot_fixed
  refine ⟨rfl, rfl, rfl, one_pos, ?_, ?_, hf.pos_l, hf.pos_r⟩
  · have h := hf.right
    simp only [exRh_toM3, conjTranspose_smul, Matrix.smul_mul, Matrix.mul_smul, smul_smul, ← Finset.smul_sum, h]
    congr 1
    simp
    norm_num
  · have h := hf.left
    have hm : ∀ s, ((1 / 2 : ℂ) • toM3 2 2 exRot s).map star = (1 / 2 : ℂ) • (toM3 2 2 exRot s).map star := by
      intro s
      ext i j
      show star ((1 / 2 : ℂ) * _) = (1 / 2 : ℂ) * star _
      rw [star_mul', star_div₀, star_one, star_ofNat]
    simp only [exRh_toM3, hm, transpose_smul, Matrix.smul_mul, Matrix.mul_smul, smul_smul, ← Finset.smul_sum, h]
    congr 1
    simp
    norm_num

theorem exRh_simple : SimpleLeft 2 2 exRh 1 := by
  have key : ∀ M : Matrix (Fin 2) (Fin 2) ℂ, ∑ s ∈ range 2, (toM3 2 2 exRh s)ᴴ * M * toM3 2 2 exRh s = ((1 : ℝ) : ℂ) • M →
      ∑ s ∈ range 2, (toM3 2 2 exRot s)ᴴ * M * toM3 2 2 exRot s = ((4 : ℝ) : ℂ) • M := by
    intro M hM
    simp only [exRh_toM3, conjTranspose_smul, Matrix.smul_mul, Matrix.mul_smul, smul_smul, ← Finset.smul_sum] at hM
    have := congrArg (fun X => (4 : ℂ) • X) hM
    simp only [smul_smul] at this
    refine Eq.trans ?_ (this.trans ?_)
    · rw [show (4 : ℂ) * (1 / 2 * star (1 / 2)) = 1 by simp; norm_num, one_smul]
    · congr 1
      simp
  intro M N hM hN
  exact exRot_simple M N (key M hM) (key N hN)

theorem exRh0 : toM3 2 2 exRh 0 = !![1 / 2, Complex.I / 2; Complex.I / 2, 1 / 2] := by
  rw [exRh_toM3, exRot0]
  simp only [Matrix.smul_of, Matrix.smul_cons, Matrix.smul_empty, smul_eq_mul]
  refine eq2 ?_ ?_ ?_ ?_ <;> ring

theorem exRh1 : toM3 2 2 exRh 1 = !![(Complex.I - 1) / 2, 0; 0, (Complex.I + 1) / 2] := by
  rw [exRh_toM3, exRot1]
  simp only [Matrix.smul_of, Matrix.smul_cons, Matrix.smul_empty, smul_eq_mul]
  refine eq2 ?_ ?_ ?_ ?_ <;> ring

theorem exRh_code (p q r t : ℂ) : codePush 2 2 exRh !![p, q; r, t] 0 1 - codePush 2 2 exRh !![p, q; r, t] 1 0 = - Complex.I / 2 * (q + r - p + t) ∧
    codePush 2 2 exRh !![p, q; r, t] 0 1 + codePush 2 2 exRh !![p, q; r, t] 1 0 = (q + r) / 2 - Complex.I * (q - r) / 2 := by
  unfold codePush
  simp only [Finset.sum_range_succ, Finset.sum_range_zero, zero_add, exRh0, exRh1, ct2, Matrix.mul_fin_two]
  constructor <;> apply Complex.ext <;> simp <;> ring

theorem exRh_push (p q r t : ℂ) : pushLeft 2 2 exRh !![p, q; r, t] 0 1 - pushLeft 2 2 exRh !![p, q; r, t] 1 0 = Complex.I / 2 * (q + r - p + t) ∧
    pushLeft 2 2 exRh !![p, q; r, t] 0 1 + pushLeft 2 2 exRh !![p, q; r, t] 1 0 = (q + r) / 2 + Complex.I * (q - r) / 2 := by
  unfold pushLeft
  simp only [Finset.sum_range_succ, Finset.sum_range_zero, zero_add, exRh0, exRh1, tr2, map2, Matrix.mul_fin_two]
  constructor <;> apply Complex.ext <;> simp <;> ring

theorem exRh_ham : hamLeft 2 2 exRh exHalf ex1X = (((Real.sqrt 2)⁻¹ : ℝ) : ℂ) • !![-1 / 2, (1 + Complex.I) / 2; (1 - Complex.I) / 2, 1 / 2] := by
  unfold hamLeft
  have hI := Complex.I_mul_I
  simp only [Finset.sum_range_succ, Finset.sum_range_zero, zero_add, exHalf, toM_smul, exId_eq, Matrix.mul_smul, Matrix.smul_mul, Matrix.mul_one,
    exRh0, exRh1, ex1X, zero_mul, one_mul, zero_smul, add_zero, one_smul]
  simp only [← smul_add]
  refine congrArg _ ?_
  simp only [tr2, map2, Matrix.mul_fin_two, Matrix.of_add_of, Matrix.add_cons, Matrix.head_cons, Matrix.tail_cons, Matrix.empty_add_empty]
  refine eq2 ?_ ?_ ?_ ?_ <;> apply Complex.ext <;> simp <;> norm_num

/-- **C79 fails** for complex tensors: for `A_0 = (1 + iX)/2`, `A_1 = (i - Z)/2` and `h = 1 ⊗ X` the matrix that `Lh` returns does not satisfy
the equation of the sum of the terms on the left. -/
theorem Lh_not_sum (O : SetOrder) {root : (ND ℂ → Py (ND ℂ)) → ℕ → Py (ND ℂ)} (hroot : RootLaw root)
    (he : eigs exRh = .ok (1, exHalf, exHalf)) :
    ∃ K, Lh O eigs root ⟨exRh, none, none, none⟩ ex1X = .ok K ∧
      toM 2 2 K ≠ pushLeft 2 2 exRh (toM 2 2 K) + (hamLeft 2 2 exRh exHalf ex1X -
        infExpect2 2 2 exRh exHalf exHalf 1 (fun s1 s2 t1 t2 => ex1X.val [s1 * 2 + s2, t1 * 2 + t2]) • toM 2 2 exHalf) := by
  obtain ⟨K, e1, hK, ht, hKe⟩ := Lh_ok O (d := 2) (h := ex1X) hroot ⟨exRh, none, none, none⟩ Nat.two_pos exRh_fixed exRot_norm exRh_simple he rfl
  refine ⟨K, e1, fun hP => ?_⟩
  obtain ⟨p, q, r, t, hM⟩ : ∃ p q r t, toM 2 2 K = !![p, q; r, t] := ⟨_, _, _, _, Matrix.eta_fin_two _⟩
  have offd : ∀ c : ℂ, (c • toM 2 2 exHalf) 0 1 = 0 ∧ (c • toM 2 2 exHalf) 1 0 = 0 := by
    intro c
    rw [exHalf, toM_smul, exId_eq]
    constructor <;> simp
  obtain ⟨c1, c2⟩ := exRh_code p q r t
  obtain ⟨p1, p2⟩ := exRh_push p q r t
  rw [hM] at hKe hP
  have k01 := congrFun (congrFun hKe 0) 1
  have k10 := congrFun (congrFun hKe 1) 0
  have u01 := congrFun (congrFun hP 0) 1
  have u10 := congrFun (congrFun hP 1) 0
  rw [Matrix.add_apply, Matrix.sub_apply, (offd _).1, exRh_ham] at k01 u01
  rw [Matrix.add_apply, Matrix.sub_apply, (offd _).2, exRh_ham] at k10 u10
  simp only [Matrix.smul_apply, Matrix.of_apply, Matrix.cons_val_zero, Matrix.cons_val_one, Matrix.cons_val_fin_one, smul_eq_mul, sub_zero] at k01 k10 u01 u10
  have hc : (((Real.sqrt 2)⁻¹ : ℝ) : ℂ) ≠ 0 := by
    rw [Complex.ofReal_ne_zero]
    positivity
  have hI := Complex.I_mul_I
  have hq : q - r = 0 := by
    linear_combination (-Complex.I) * (k01 + k10 - u01 - u10) - Complex.I * (c2 - p2) + (q - r) * hI
  have : (((Real.sqrt 2)⁻¹ : ℝ) : ℂ) * Complex.I = 0 := by
    linear_combination hq - (1 / 2 : ℂ) * (k01 - k10 + u01 - u10 + c1 + p1)
  exact mul_ne_zero hc Complex.I_ne_zero this

end IMPS

end Xmps
