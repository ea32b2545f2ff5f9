import Verif.Model.SpinCheck
import Verif.Props.SpinAlgebra
import Verif.Props.LeviCivita
import Mathlib.Tactic.IntervalCases

/-!
# Property C122: `CR` and `pCR` decide the commutation relations
-/

namespace Xmps.Spin

open Finset Matrix

/-- every entry of `A` is within `1e-8 + 1e-5 |B|` of that of `B` -/
def NearM {m : ℕ} (A B : Matrix (Fin m) (Fin m) ℂ) : Prop := ∀ i j, ‖A i j - B i j‖ ≤ 1e-8 + 1e-5 * ‖B i j‖

theorem closeM_iff {m : ℕ} (A B : Matrix (Fin m) (Fin m) ℂ) : closeM A B = true ↔ NearM A B := by
  unfold closeM NearM
  rw [decide_eq_true_iff]

theorem nearM_refl {m : ℕ} (A : Matrix (Fin m) (Fin m) ℂ) : NearM A A := by
  intro i j
  rw [sub_self, norm_zero]
  positivity

theorem nearM_neg {m : ℕ} {A B : Matrix (Fin m) (Fin m) ℂ} : NearM (-A) (-B) ↔ NearM A B := by
  unfold NearM
  refine forall_congr' fun i => forall_congr' fun j => ?_
  rw [neg_apply, neg_apply, norm_neg, ← norm_neg (A i j - B i j), neg_sub, neg_sub_neg, norm_sub_rev]

theorem eps_three : ∃ R, leviCivita 3 = .ok R ∧ (R.val [0, 1, 2] = 1 ∧ R.val [1, 2, 0] = 1 ∧ R.val [2, 0, 1] = 1) ∧
    (R.val [1, 0, 2] = -1 ∧ R.val [2, 1, 0] = -1 ∧ R.val [0, 2, 1] = -1) ∧
    ∀ i < 3, ∀ j < 3, R.val [i, i, j] = 0 ∧ R.val [i, j, i] = 0 ∧ R.val [j, i, i] = 0 := by
  obtain ⟨R, h1, -, h3⟩ := leviCivita_entries 3
  refine ⟨R, h1, ?_, ?_, ?_⟩
  · refine ⟨?_, ?_, ?_⟩ <;> (rw [h3 _ (by simp)]; decide)
  · refine ⟨?_, ?_, ?_⟩ <;> (rw [h3 _ (by simp)]; decide)
  · intro i hi j hj
    refine ⟨?_, ?_, ?_⟩ <;> (rw [h3 _ (by simp [hi, hj])]; interval_cases i <;> interval_cases j <;> decide)

theorem comm_self {m : ℕ} (A : Matrix (Fin m) (Fin m) ℂ) : comm A A = 0 := sub_self _

theorem comm_swap {m : ℕ} (A B : Matrix (Fin m) (Fin m) ℂ) : comm B A = -comm A B := (neg_sub _ _).symm

/-- **C122** what `CR` (`c = 1`) and `pCR` (`c = 2`) answer: never an error, `True` exactly if the three relations hold within the tolerances. -/
theorem checkCR_iff {m : ℕ} (c : ℤ) (x y z : Matrix (Fin m) (Fin m) ℂ) : ∃ b, checkCR c x y z = .ok b ∧
    (b = true ↔ NearM (comm x y) (((c : ℂ) * Complex.I) • z) ∧ NearM (comm y z) (((c : ℂ) * Complex.I) • x) ∧
      NearM (comm z x) (((c : ℂ) * Complex.I) • y)) := by
  obtain ⟨R, h, ⟨p1, p2, p3⟩, ⟨n1, n2, n3⟩, hz⟩ := eps_three
  refine ⟨_, by rw [checkCR, h, ok_bind], ?_⟩
  have z000 := (hz 0 (by omega) 0 (by omega)).1
  have z001 := (hz 0 (by omega) 1 (by omega)).1
  have z002 := (hz 0 (by omega) 2 (by omega)).1
  have z110 := (hz 1 (by omega) 0 (by omega)).1
  have z111 := (hz 1 (by omega) 1 (by omega)).1
  have z112 := (hz 1 (by omega) 2 (by omega)).1
  have z220 := (hz 2 (by omega) 0 (by omega)).1
  have z221 := (hz 2 (by omega) 1 (by omega)).1
  have z222 := (hz 2 (by omega) 2 (by omega)).1
  have z010 := (hz 0 (by omega) 1 (by omega)).2.1
  have z020 := (hz 0 (by omega) 2 (by omega)).2.1
  have z101 := (hz 1 (by omega) 0 (by omega)).2.1
  have z121 := (hz 1 (by omega) 2 (by omega)).2.1
  have z202 := (hz 2 (by omega) 0 (by omega)).2.1
  have z212 := (hz 2 (by omega) 1 (by omega)).2.1
  have z011 := (hz 1 (by omega) 0 (by omega)).2.2
  have z022 := (hz 2 (by omega) 0 (by omega)).2.2
  have z100 := (hz 0 (by omega) 1 (by omega)).2.2
  have z122 := (hz 2 (by omega) 1 (by omega)).2.2
  have z200 := (hz 0 (by omega) 2 (by omega)).2.2
  have z211 := (hz 1 (by omega) 2 (by omega)).2.2
  simp only [List.all_eq_true, List.mem_range, relClose, closeM_iff]
  have hself : ∀ A : Matrix (Fin m) (Fin m) ℂ, NearM (comm A A) 0 := fun A => by rw [comm_self]; exact nearM_refl 0
  constructor
  · intro h
    have a := h 0 (by omega) 1 (by omega)
    have b := h 1 (by omega) 2 (by omega)
    have e := h 2 (by omega) 0 (by omega)
    simp only [Finset.sum_range_succ, Finset.sum_range_zero, p1, p2, p3, z010, z011, z121, z122, z202, z200, triple] at a b e
    simp at a b e
    exact ⟨a, b, e⟩
  · rintro ⟨a, b, e⟩ j hj k hk
    interval_cases j <;> interval_cases k
    all_goals simp only [Finset.sum_range_succ, Finset.sum_range_zero, p1, p2, p3, n1, n2, n3, z010, z011, z121, z122, z202, z200, z000, z001, z002,
      z110, z111, z112, z220, z221, z222, z020, z022, z100, z101, z211, z212, triple]
    all_goals simp
    · exact hself x
    · exact a
    · rw [comm_swap z x]; exact nearM_neg.2 e
    · rw [comm_swap x y]; exact nearM_neg.2 a
    · exact hself y
    · exact b
    · exact e
    · rw [comm_swap y z]; exact nearM_neg.2 b
    · exact hself z

/-- **C122** triples that satisfy the relations are accepted, for every size. -/
theorem checkCR_of_rel {m : ℕ} (c : ℤ) {x y z : Matrix (Fin m) (Fin m) ℂ} (h1 : comm x y = ((c : ℂ) * Complex.I) • z)
    (h2 : comm y z = ((c : ℂ) * Complex.I) • x) (h3 : comm z x = ((c : ℂ) * Complex.I) • y) : checkCR c x y z = .ok true := by
  obtain ⟨b, hb, hi⟩ := checkCR_iff c x y z
  rw [hb, hi.2 ⟨by rw [h1]; exact nearM_refl _, by rw [h2]; exact nearM_refl _, by rw [h3]; exact nearM_refl _⟩]

/-- **C122** `CR(*spins(n/2))` for every spin. -/
theorem CR_spins (n : ℕ) : CR (spins n).1 (spins n).2.1 (spins n).2.2 = .ok true := by
  obtain ⟨h1, h2, h3⟩ := spins_comm n
  exact checkCR_of_rel 1 (by simpa [spins] using h1) (by simpa [spins] using h2) (by simpa [spins] using h3)

/-- **C122** `pCR(*paulis(S))`. -/
theorem pCR_paulis (S : ℕ) : pCR (paulis S).1 (paulis S).2.1 (paulis S).2.2 = .ok true := by
  obtain ⟨h1, h2, h3⟩ := spins_comm 1
  have hc : ∀ A B : Matrix (Fin 2) (Fin 2) ℂ, comm ((2 : ℂ) • A) ((2 : ℂ) • B) = (4 : ℂ) • comm A B := by
    intro A B
    simp only [comm, smul_mul_assoc, mul_smul_comm, smul_smul, smul_sub]
    norm_num
  refine checkCR_of_rel 2 ?_ ?_ ?_
  · simp only [paulis, spins]; rw [hc, h1, smul_smul, smul_smul]; congr 1; push_cast; ring
  · simp only [paulis, spins]; rw [hc, h2, smul_smul, smul_smul]; congr 1; push_cast; ring
  · simp only [paulis, spins]; rw [hc, h3, smul_smul, smul_smul]; congr 1; push_cast; ring

/-- **C122** the two checks are told apart by every spin but zero: `pCR(*spins(S))` is `False`. -/
theorem pCR_spins (n : ℕ) : pCR (spins n).1 (spins n).2.1 (spins n).2.2 = .ok (decide (n = 0)) := by
  obtain ⟨b, hb, hi⟩ := checkCR_iff 2 (spins n).1 (spins n).2.1 (spins n).2.2
  obtain ⟨h1, h2, h3⟩ := spins_comm n
  rw [pCR, hb]
  congr 1
  rcases Nat.eq_zero_or_pos n with rfl | hn
  · rw [hi.2]
    · simp
    · have hz : ∀ A : Matrix (Fin (0 + 1)) (Fin (0 + 1)) ℂ, (Complex.I • A) 0 0 = 0 → A = 0 := by
        intro A hA
        ext i j
        obtain rfl : i = 0 := Fin.ext (by omega)
        obtain rfl : j = 0 := Fin.ext (by omega)
        simpa using hA
      have hc : ∀ A B : Matrix (Fin (0 + 1)) (Fin (0 + 1)) ℂ, comm A B = 0 := by
        intro A B
        ext i j
        obtain rfl : i = 0 := Fin.ext (by omega)
        obtain rfl : j = 0 := Fin.ext (by omega)
        simp [comm, Matrix.mul_apply, mul_comm]
      simp only [spins]
      have e1 := hz (Sz 0) (by rw [← h1, hc]; rfl)
      have e2 := hz (Sx 0) (by rw [← h2, hc]; rfl)
      have e3 := hz (Sy 0) (by rw [← h3, hc]; rfl)
      rw [e1, e2, e3, hc, smul_zero]
      exact ⟨nearM_refl _, nearM_refl _, nearM_refl _⟩
  · rw [decide_eq_false (by omega : ¬ n = 0), Bool.eq_false_iff]
    intro ht
    have h := (hi.1 ht).1 0 0
    simp only [spins] at h
    rw [h1, Matrix.smul_apply, Matrix.smul_apply, Sz_eq, diagonal_apply_eq] at h
    have e : (Complex.I • ((n : ℂ) / 2 - ((0 : Fin (n + 1)).val : ℂ)) - (((2 : ℤ) : ℂ) * Complex.I) • ((n : ℂ) / 2 - ((0 : Fin (n + 1)).val : ℂ))) =
        -(Complex.I * ((n : ℝ) / 2 : ℝ)) := by
      simp
      ring
    have e' : (((2 : ℤ) : ℂ) * Complex.I) • ((n : ℂ) / 2 - ((0 : Fin (n + 1)).val : ℂ)) = Complex.I * ((n : ℝ) : ℂ) := by
      simp
      ring
    rw [e, e', norm_neg, norm_mul, norm_mul, Complex.norm_I, Complex.norm_real, Complex.norm_real, Real.norm_of_nonneg (by positivity),
      Real.norm_of_nonneg (by positivity)] at h
    have hn' : (1 : ℝ) ≤ n := by exact_mod_cast hn
    norm_num at h
    linarith

/-- **C122 fails for small operators**: `(0, 0, 1e-8)`, one by one matrices, do not satisfy the relations and `CR` is `True`. -/
theorem CR_wrong : CR (0 : Matrix (Fin 1) (Fin 1) ℂ) 0 ((1e-8 : ℂ) • 1) = .ok true ∧
    comm (0 : Matrix (Fin 1) (Fin 1) ℂ) 0 ≠ Complex.I • ((1e-8 : ℂ) • (1 : Matrix (Fin 1) (Fin 1) ℂ)) := by
  constructor
  · obtain ⟨b, hb, hi⟩ := checkCR_iff 1 (0 : Matrix (Fin 1) (Fin 1) ℂ) 0 ((1e-8 : ℂ) • 1)
    rw [CR, hb, hi.2]
    refine ⟨?_, ?_, ?_⟩
    · intro i j
      obtain rfl : i = 0 := Fin.ext (by omega)
      obtain rfl : j = 0 := Fin.ext (by omega)
      simp [comm]
      norm_num
    · simp [comm]
      exact nearM_refl _
    · simp [comm]
      exact nearM_refl _
  · intro h
    have := congrFun (congrFun h 0) 0
    simp [comm] at this
    norm_num at this

/-! ### the hypotheses can be met -/

example : checkCR 1 (Sx 1) (Sy 1) (Sz 1) = .ok true :=
  checkCR_of_rel 1 (by simpa using (spins_comm 1).1) (by simpa using (spins_comm 1).2.1) (by simpa using (spins_comm 1).2.2)

end Xmps.Spin
