import Verif.Model.TfdSymm
import Verif.Props.Tfd
import Verif.Lemmas.MatBridge

/-!
# C132: the projectors of `fTFD.symm_asymm`

Specification: on the doubled bond, whose basis states are the pairs `i D + j`, the exchange of the copies takes `i D + j` to `j D + i`; a vector is
symmetric if the exchange leaves it.
-/

namespace Xmps.Spec

/-- the exchange of the two copies of a bond of dimension `D` -/
def exchange (D : ℕ) : Matrix (Fin (D ^ 2)) (Fin (D ^ 2)) ℂ := fun x y => if (x : ℕ) / D = (y : ℕ) % D ∧ (x : ℕ) % D = (y : ℕ) / D then 1 else 0

end Xmps.Spec

namespace Xmps.TFD

open Spec Finset Matrix

variable {D : ℕ}

theorem half_sum (D : ℕ) : D * (D + 1) / 2 + D * (D - 1) / 2 = D ^ 2 := by
  have h1 : 2 ∣ D * (D + 1) := (Nat.even_mul_succ_self D).two_dvd
  have h2 : 2 ∣ D * (D - 1) := (Nat.even_mul_pred_self D).two_dvd
  obtain ⟨a, ha⟩ := h1
  obtain ⟨b, hb⟩ := h2
  rw [ha, hb, Nat.mul_div_cancel_left _ (by norm_num), Nat.mul_div_cancel_left _ (by norm_num)]
  cases D with
  | zero => simp at ha hb; subst ha hb; rfl
  | succ n =>
    simp only [Nat.add_sub_cancel] at hb
    nlinarith

/-- what is returned -/
theorem symmAsymm_ok (D : ℕ) : ∃ P Q M, symmAsymm (D ^ 2) = .ok (P, Q, M) ∧ P.shape = [D ^ 2, D ^ 2] ∧ Q.shape = [D ^ 2, D ^ 2] ∧ M.shape = [D ^ 2, D ^ 2] ∧
    toM (D ^ 2) (D ^ 2) M = diagonal (fun i : Fin (D ^ 2) => if (i : ℕ) < D * (D + 1) / 2 then (1 : ℂ) else -1) ∧
    toM (D ^ 2) (D ^ 2) P = diagonal (fun i : Fin (D ^ 2) => if (i : ℕ) < D * (D + 1) / 2 then (1 : ℂ) else 0) ∧
    toM (D ^ 2) (D ^ 2) Q = diagonal (fun i : Fin (D ^ 2) => if (i : ℕ) < D * (D + 1) / 2 then (0 : ℂ) else 1) := by
  have hs : (signs (D * (D + 1) / 2) (D * (D - 1) / 2)).shape = [D ^ 2, D ^ 2] := by
    simp [signs, half_sum]
  have e : ∀ f : ℂ → ℂ → ℂ, (eyeND (D ^ 2)).zipNd f (signs (D * (D + 1) / 2) (D * (D - 1) / 2)) =
      .ok ⟨[D ^ 2, D ^ 2], fun idx => f ((eyeND (D ^ 2) : ND ℂ).val idx) ((signs (D * (D + 1) / 2) (D * (D - 1) / 2)).val idx)⟩ := by
    intro f
    unfold ND.zipNd
    rw [if_pos (by rw [hs]; rfl)]
    rfl
  refine ⟨_, _, _, by unfold symmAsymm; rw [nat_sqrt_sq]; dsimp only; rw [e, ok_bind, e, ok_bind], rfl, rfl, hs, ?_, ?_, ?_⟩
  all_goals
    ext i j
    rw [toM_apply, diagonal_apply]
    simp only [ND.smul, eyeND, signs, Fin.ext_iff]
  all_goals
    by_cases h : (i : ℕ) = j
    · by_cases h' : (i : ℕ) < D * (D + 1) / 2 <;> by_cases h'' : (j : ℕ) < D * (D + 1) / 2 <;> simp [h, h''] <;> norm_num
    · simp [h]

/-- **C132**: the first two matrices are orthogonal projectors that add up to one, the third is their difference and its own inverse, and the ranks
are the numbers of symmetric and antisymmetric pairs. -/
theorem symmAsymm_projectors (D : ℕ) : ∃ P Q M, symmAsymm (D ^ 2) = .ok (P, Q, M) ∧
    toM (D ^ 2) (D ^ 2) P * toM (D ^ 2) (D ^ 2) P = toM (D ^ 2) (D ^ 2) P ∧ (toM (D ^ 2) (D ^ 2) P)ᴴ = toM (D ^ 2) (D ^ 2) P ∧
    toM (D ^ 2) (D ^ 2) P + toM (D ^ 2) (D ^ 2) Q = 1 ∧ toM (D ^ 2) (D ^ 2) P - toM (D ^ 2) (D ^ 2) Q = toM (D ^ 2) (D ^ 2) M ∧
    toM (D ^ 2) (D ^ 2) M * toM (D ^ 2) (D ^ 2) M = 1 ∧
    (toM (D ^ 2) (D ^ 2) P).trace = (D * (D + 1) / 2 : ℕ) ∧ (toM (D ^ 2) (D ^ 2) Q).trace = (D * (D - 1) / 2 : ℕ) := by
  obtain ⟨P, Q, M, e, -, -, -, hM, hP, hQ⟩ := symmAsymm_ok D
  have hsum : toM (D ^ 2) (D ^ 2) P + toM (D ^ 2) (D ^ 2) Q = 1 := by
    rw [hP, hQ, diagonal_add, ← diagonal_one]
    congr 1
    funext i
    split_ifs <;> simp
  have htr : (toM (D ^ 2) (D ^ 2) P).trace = (D * (D + 1) / 2 : ℕ) := by
    rw [hP, trace_diagonal, Fin.sum_univ_eq_sum_range (fun i => if i < D * (D + 1) / 2 then (1 : ℂ) else 0) (D ^ 2)]
    rw [← Finset.sum_filter, Finset.sum_const, nsmul_eq_mul, mul_one]
    congr 1
    have : (range (D ^ 2)).filter (fun i => i < D * (D + 1) / 2) = range (D * (D + 1) / 2) := by
      ext i
      simp only [mem_filter, mem_range]
      have := half_sum D
      omega
    rw [this, card_range]
  refine ⟨P, Q, M, e, ?_, ?_, hsum, ?_, ?_, htr, ?_⟩
  · rw [hP, diagonal_mul_diagonal]
    congr 1
    funext i
    split_ifs <;> simp
  · rw [hP, diagonal_conjTranspose]
    congr 1
    funext i
    rw [Pi.star_apply]
    split_ifs <;> simp
  · rw [hP, hQ, hM, diagonal_sub]
    congr 1
    funext i
    split_ifs <;> simp
  · rw [hM, diagonal_mul_diagonal, ← diagonal_one]
    congr 1
    funext i
    split_ifs <;> simp
  · have h1 := congrArg Matrix.trace hsum
    have h2 : ((D ^ 2 : ℕ) : ℂ) = (D * (D + 1) / 2 : ℕ) + (D * (D - 1) / 2 : ℕ) := by
      rw [← Nat.cast_add, half_sum]
    rw [trace_add, htr, trace_one, Fintype.card_fin, h2] at h1
    linear_combination h1

/-- **C132** (violated): for every bond of dimension two or more the first projector takes the last pair of equal indices, which the exchange leaves, to
zero, so that it is not the projector on the symmetric vectors. -/
theorem symmAsymm_wrong (hD : 2 ≤ D) : ∃ P Q M, symmAsymm (D ^ 2) = .ok (P, Q, M) ∧
    (∃ v : Fin (D ^ 2) → ℂ, v ≠ 0 ∧ exchange D *ᵥ v = v ∧ toM (D ^ 2) (D ^ 2) P *ᵥ v = 0 ∧ toM (D ^ 2) (D ^ 2) Q *ᵥ v = v) ∧
    toM (D ^ 2) (D ^ 2) M ≠ exchange D := by
  obtain ⟨P, Q, M, e, -, -, -, hM, hP, hQ⟩ := symmAsymm_ok D
  have hpos : 0 < D ^ 2 := by positivity
  have hsq : D ^ 2 = D * D := pow_two D
  have hlt : ¬ D ^ 2 - 1 < D * (D + 1) / 2 := by
    have h2 : 1 ≤ D * (D - 1) / 2 := by
      rw [Nat.le_div_iff_mul_le (by norm_num)]
      calc 1 * 2 ≤ D * 1 := by omega
        _ ≤ D * (D - 1) := Nat.mul_le_mul_left _ (by omega)
    have := half_sum D
    omega
  have hval : D ^ 2 - 1 = (D - 1) * D + (D - 1) := by
    obtain ⟨n, rfl⟩ : ∃ n, D = n + 1 := ⟨D - 1, by omega⟩
    rw [hsq]
    simp only [Nat.add_sub_cancel]
    have : (n + 1) * (n + 1) = n * (n + 1) + n + 1 := by ring
    omega
  have hdiv : (D ^ 2 - 1) / D = D - 1 := by rw [hval]; exact flat_div (by omega)
  have hmod : (D ^ 2 - 1) % D = D - 1 := by rw [hval]; exact flat_mod (by omega)
  obtain ⟨k, hk⟩ : ∃ k : Fin (D ^ 2), (k : ℕ) = D ^ 2 - 1 := ⟨⟨D ^ 2 - 1, by omega⟩, rfl⟩
  have hkk : exchange D k k = 1 := by
    unfold exchange
    rw [hk, hdiv, hmod]
    simp
  refine ⟨P, Q, M, e, ⟨Pi.single k 1, ?_, ?_, ?_, ?_⟩, ?_⟩
  · intro h0
    have := congrFun h0 k
    simp at this
  · funext i
    rw [mulVec_single_one, Matrix.col_apply]
    by_cases hi : i = k
    · rw [hi, hkk, Pi.single_eq_same]
    · rw [Pi.single_eq_of_ne hi]
      unfold exchange
      rw [hk, hdiv, hmod, if_neg]
      rintro ⟨h1, h2⟩
      apply hi
      apply Fin.ext
      rw [hk, hval, ← Nat.div_add_mod (i : ℕ) D, h1, h2, mul_comm]
  · funext i
    rw [hP, mulVec_diagonal]
    by_cases hi : i = k
    · rw [hi, hk, if_neg hlt, zero_mul]
      rfl
    · rw [Pi.single_eq_of_ne hi, mul_zero]
      rfl
  · funext i
    rw [hQ, mulVec_diagonal]
    by_cases hi : i = k
    · rw [hi, hk, if_neg hlt, one_mul]
    · rw [Pi.single_eq_of_ne hi, mul_zero]
  · intro h
    have := congrFun (congrFun h k) k
    rw [hM, diagonal_apply_eq, hk, if_neg hlt, hkk] at this
    norm_num at this

/-- **C132**, where it is right: for a bond of dimension one the matrices are those of the exchange. -/
theorem symmAsymm_one : ∃ P Q M, symmAsymm (1 ^ 2) = .ok (P, Q, M) ∧ toM (1 ^ 2) (1 ^ 2) M = exchange 1 := by
  obtain ⟨P, Q, M, e, -, -, -, hM, -, -⟩ := symmAsymm_ok 1
  refine ⟨P, Q, M, e, ?_⟩
  rw [hM]
  ext i j
  have : i = j := Fin.ext (by have := i.2; have := j.2; omega)
  subst this
  simp [exchange]

example := symmAsymm_wrong (D := 3) (by norm_num)

end Xmps.TFD
