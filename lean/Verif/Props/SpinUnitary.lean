import Mathlib.Analysis.Matrix.Spectrum
import Mathlib.Tactic.FinCases
import Mathlib.Tactic.LinearCombination
import Mathlib.Analysis.SpecialFunctions.Exponential
import Verif.Model.SpinUnitary
import Verif.Props.SpinAlgebra
import Verif.Props.SuN
import Verif.Props.Gates

/-! # Property C67: the parametrised unitaries `SU`, `SU4`, `SU8`, `U4`, `U4s` -/

namespace Xmps.Spin

open Matrix

/-! ### the exponential of a Hermitian matrix times `-i` -/

theorem exp_unitary {n : ℕ} {Q : Matrix (Fin n) (Fin n) ℂ} (h : Q.IsHermitian) :
    (NormedSpace.exp ((-Complex.I) • Q))ᴴ * NormedSpace.exp ((-Complex.I) • Q) = 1 := by
  rw [← exp_conjTranspose, conjTranspose_smul, h.eq, ← exp_add_of_commute]
  · simp
  · simp [Commute, SemiconjBy]

theorem det_exp_hermitian {n : ℕ} {Q : Matrix (Fin n) (Fin n) ℂ} (h : Q.IsHermitian) :
    (NormedSpace.exp ((-Complex.I) • Q)).det = Complex.exp (-Complex.I * trace Q) := by
  have hV : (h.eigenvectorUnitary : Matrix (Fin n) (Fin n) ℂ) * star (h.eigenvectorUnitary : Matrix (Fin n) (Fin n) ℂ) = 1 :=
    Unitary.coe_mul_star_self _
  have hinv : star (h.eigenvectorUnitary : Matrix (Fin n) (Fin n) ℂ) = (h.eigenvectorUnitary : Matrix (Fin n) (Fin n) ℂ)⁻¹ :=
    (inv_eq_right_inv hV).symm
  have hu : IsUnit (h.eigenvectorUnitary : Matrix (Fin n) (Fin n) ℂ) := IsUnit.of_mul_eq_one _ hV
  have hs : Q = (h.eigenvectorUnitary : Matrix (Fin n) (Fin n) ℂ) * diagonal (RCLike.ofReal ∘ h.eigenvalues) *
      (h.eigenvectorUnitary : Matrix (Fin n) (Fin n) ℂ)⁻¹ := by
    conv_lhs => rw [h.spectral_theorem]
    rw [← hinv]; rfl
  have ht : trace Q = ∑ i, ((h.eigenvalues i : ℝ) : ℂ) := by
    conv_lhs => rw [hs]
    rw [trace_mul_comm, ← Matrix.mul_assoc, ← hinv, mul_eq_one_comm.1 hV, Matrix.one_mul, trace_diagonal]
    rfl
  have he : (-Complex.I) • Q = (h.eigenvectorUnitary : Matrix (Fin n) (Fin n) ℂ) *
      diagonal (fun i => -Complex.I * ((h.eigenvalues i : ℝ) : ℂ)) * (h.eigenvectorUnitary : Matrix (Fin n) (Fin n) ℂ)⁻¹ := by
    conv_lhs => rw [hs]
    rw [← Matrix.smul_mul, ← Matrix.mul_smul, ← diagonal_smul]
    rfl
  rw [he, exp_conj _ _ hu, det_mul, det_mul, exp_diagonal, det_diagonal, mul_right_comm, ← det_mul, ← hinv, hV, det_one, one_mul, ht,
    Finset.mul_sum, Complex.exp_sum]
  refine Finset.prod_congr rfl fun i _ => ?_
  rw [Pi.coe_exp, ← Complex.exp_eq_exp_ℂ]

/-- A real combination of Hermitian matrices is Hermitian. -/
theorem comb_hermitian {n : ℕ} : ∀ (v : List ℝ) (gens : List (Matrix (Fin n) (Fin n) ℂ)), (∀ g ∈ gens, g.IsHermitian) →
    (List.zipWith (· • ·) (v.map Complex.ofReal) gens).sum.IsHermitian
  | [], _, _ => by simp
  | _ :: _, [], _ => by simp
  | x :: v, g :: gens, h => by
    rw [List.map_cons, List.zipWith_cons_cons, List.sum_cons]
    refine IsHermitian.add ?_ (comb_hermitian v gens fun g hg => h g (by simp [hg]))
    rw [IsHermitian, conjTranspose_smul, (h g (by simp)).eq]
    simp

theorem comb_trace {n : ℕ} : ∀ (v : List ℂ) (gens : List (Matrix (Fin n) (Fin n) ℂ)), (∀ g ∈ gens, trace g = 0) →
    trace (List.zipWith (· • ·) v gens).sum = 0
  | [], _, _ => by simp
  | _ :: _, [], _ => by simp
  | x :: v, g :: gens, h => by
    rw [List.zipWith_cons_cons, List.sum_cons, trace_add, trace_smul, h g (by simp), comb_trace v gens fun g hg => h g (by simp [hg])]
    simp

/-- **C67**: real coordinates with respect to traceless Hermitian generators give a special unitary matrix. -/
theorem expGen_special {n : ℕ} {gens : List (Matrix (Fin n) (Fin n) ℂ)} (hg : ∀ g ∈ gens, g.IsHermitian ∧ trace g = 0) (v : List ℝ)
    (hv : v.length = gens.length) : ∃ U, expGen (v.map Complex.ofReal) gens = .ok U ∧ U ∈ specialUnitaryGroup (Fin n) ℂ := by
  refine ⟨_, by rw [expGen, tdot, if_pos (by simpa using hv), ok_bind], ?_⟩
  rw [mem_specialUnitaryGroup_iff, mem_unitaryGroup_iff']
  have hH := comb_hermitian v gens fun g h => (hg g h).1
  refine ⟨exp_unitary hH, ?_⟩
  rw [det_exp_hermitian hH, comb_trace _ _ fun g h => (hg g h).2]
  simp

/-- **C67**: any other number of coordinates is rejected. -/
theorem expGen_length {n : ℕ} {gens : List (Matrix (Fin n) (Fin n) ℂ)} (v : List ℂ) (hv : v.length ≠ gens.length) :
    expGen v gens = .error .valueError := by
  rw [expGen, tdot, if_neg hv]; rfl

/-- **C67**: `SU(v, N)` is a special unitary N × N matrix for every real vector of N² - 1 coordinates. -/
theorem SU_special (N : ℕ) (v : List ℝ) (hv : v.length = N ^ 2 - 1) :
    ∃ U, SU (v.map Complex.ofReal) N = .ok U ∧ U ∈ specialUnitaryGroup (Fin N) ℂ :=
  expGen_special (su_hermitian_traceless N) v (by rw [hv, su_length])

theorem SU4_special (v : List ℝ) (hv : v.length = 15) : ∃ U, SU4 (v.map Complex.ofReal) = .ok U ∧ U ∈ specialUnitaryGroup (Fin 4) ℂ :=
  SU_special 4 v hv

theorem SU8_special (v : List ℝ) (hv : v.length = 63) : ∃ U, SU8 (v.map Complex.ofReal) = .ok U ∧ U ∈ specialUnitaryGroup (Fin 8) ℂ :=
  SU_special 8 v hv

/-! ### `lambdas` and `slambdas` in numbers -/

theorem paulis_vals : (paulis 1).1 = !![0, 1; 1, 0] ∧ (paulis 1).2.1 = !![0, -Complex.I; Complex.I, 0] ∧ (paulis 1).2.2 = !![1, 0; 0, -1] := by
  rw [paulis_eq]; exact ⟨rfl, rfl, rfl⟩

theorem kron22 (A B : Matrix (Fin 2) (Fin 2) ℂ) : (kronF A B : Matrix (Fin 4) (Fin 4) ℂ) =
    !![A 0 0 * B 0 0, A 0 0 * B 0 1, A 0 1 * B 0 0, A 0 1 * B 0 1;
       A 0 0 * B 1 0, A 0 0 * B 1 1, A 0 1 * B 1 0, A 0 1 * B 1 1;
       A 1 0 * B 0 0, A 1 0 * B 0 1, A 1 1 * B 0 0, A 1 1 * B 0 1;
       A 1 0 * B 1 0, A 1 0 * B 1 1, A 1 1 * B 1 0, A 1 1 * B 1 1] := by
  ext i j
  fin_cases i <;> fin_cases j <;> rfl

theorem lambdas_hermitian_traceless : ∀ u ∈ lambdas, u.IsHermitian ∧ trace u = 0 := by
  obtain ⟨hx, hy, hz⟩ := paulis_vals
  simp only [lambdas, hx, hy, hz, blockUL, List.forall_mem_cons]
  refine ⟨?_, ?_, ?_, ?_, ?_, ?_, ?_, ?_, ?_, ?_, ?_, ?_, ?_, ?_, ?_, by simp⟩ <;>
  · refine ⟨?_, ?_⟩
    · ext i j
      fin_cases i <;> fin_cases j <;> simp
    · simp [trace, Fin.sum_univ_four]
      try ring

/-- the nine matrices of `slambdas()` in numbers -/
theorem slambdas_eq : slambdas =
    [!![0, 0, 0, 1; 0, 0, 1, 0; 0, 1, 0, 0; 1, 0, 0, 0],
     !![0, 0, 0, -1; 0, 0, 1, 0; 0, 1, 0, 0; -1, 0, 0, 0],
     !![1, 0, 0, 0; 0, -1, 0, 0; 0, 0, -1, 0; 0, 0, 0, 1],
     !![0, 0, 0, -2 * Complex.I; 0, 0, 0, 0; 0, 0, 0, 0; 2 * Complex.I, 0, 0, 0],
     !![0, 1, 1, 0; 1, 0, 0, -1; 1, 0, 0, -1; 0, -1, -1, 0],
     !![0, -Complex.I, -Complex.I, 0; Complex.I, 0, 0, Complex.I; Complex.I, 0, 0, Complex.I; 0, -Complex.I, -Complex.I, 0],
     !![0, 1, 1, 0; 1, 0, 0, 1; 1, 0, 0, 1; 0, 1, 1, 0],
     !![0, -Complex.I, -Complex.I, 0; Complex.I, 0, 0, -Complex.I; Complex.I, 0, 0, -Complex.I; 0, Complex.I, Complex.I, 0],
     !![2, 0, 0, 0; 0, 0, 0, 0; 0, 0, 0, 0; 0, 0, 0, -2]] := by
  obtain ⟨hx, hy, hz⟩ := paulis_vals
  simp only [slambdas, hx, hy, hz, List.cons.injEq, and_true]
  refine ⟨?_, ?_, ?_, ?_, ?_, ?_, ?_, ?_, ?_⟩ <;>
  · rw [kron22]
    try rw [kron22]
    ext i j
    fin_cases i <;> fin_cases j <;> simp <;> ring

theorem slambdas_hermitian_traceless : ∀ u ∈ slambdas, u.IsHermitian ∧ trace u = 0 := by
  rw [slambdas_eq]
  simp only [List.forall_mem_cons]
  refine ⟨?_, ?_, ?_, ?_, ?_, ?_, ?_, ?_, ?_, by simp⟩ <;>
  · refine ⟨?_, ?_⟩
    · ext i j
      fin_cases i <;> fin_cases j <;> simp
    · simp [trace, Fin.sum_univ_four]

theorem slambdas_swap : ∀ u ∈ slambdas, Gates.swap * u * Gates.swap = u := by
  rw [slambdas_eq]
  simp only [List.forall_mem_cons]
  refine ⟨?_, ?_, ?_, ?_, ?_, ?_, ?_, ?_, ?_, by simp⟩ <;>
  · ext i j
    fin_cases i <;> fin_cases j <;> simp [Gates.swap, mul_apply, Fin.sum_univ_four]

/-- **C67**: `U4(v)` is special unitary. -/
theorem U4_special (v : List ℝ) (hv : v.length = 15) : ∃ U, U4 (v.map Complex.ofReal) = .ok U ∧ U ∈ specialUnitaryGroup (Fin 4) ℂ :=
  expGen_special lambdas_hermitian_traceless v hv

theorem comb_swap : ∀ (v : List ℂ) (gens : List (Matrix (Fin 4) (Fin 4) ℂ)), (∀ g ∈ gens, Gates.swap * g * Gates.swap = g) →
    Gates.swap * (List.zipWith (· • ·) v gens).sum * Gates.swap = (List.zipWith (· • ·) v gens).sum
  | [], _, _ => by simp
  | _ :: _, [], _ => by simp
  | x :: v, g :: gens, h => by
    rw [List.zipWith_cons_cons, List.sum_cons, Matrix.mul_add, Matrix.add_mul, Matrix.mul_smul, Matrix.smul_mul, h g (by simp),
      comb_swap v gens fun g hg => h g (by simp [hg])]

/-- **C67**: `U4s(v)` is special unitary and commutes with the exchange of the two sites. -/
theorem U4s_special (v : List ℝ) (hv : v.length = 9) : ∃ U, U4s (v.map Complex.ofReal) = .ok U ∧ U ∈ specialUnitaryGroup (Fin 4) ℂ ∧
    Gates.swap * U * Gates.swap = U := by
  obtain ⟨U, hU, hs⟩ := expGen_special slambdas_hermitian_traceless v hv
  refine ⟨U, hU, hs, ?_⟩
  rw [expGen, tdot, if_pos (by rw [List.length_map]; exact hv), ok_bind] at hU
  obtain rfl := Except.ok.inj hU
  have hsw : (Gates.swap : Matrix (Fin 4) (Fin 4) ℂ)⁻¹ = Gates.swap := inv_eq_right_inv Gates.swap_mul_swap
  have hu : IsUnit (Gates.swap : Matrix (Fin 4) (Fin 4) ℂ) := IsUnit.of_mul_eq_one _ Gates.swap_mul_swap
  have := exp_conj Gates.swap ((-Complex.I) • (List.zipWith (· • ·) (v.map Complex.ofReal) slambdas).sum) hu
  rw [hsw, Matrix.mul_smul, Matrix.smul_mul, comb_swap _ _ slambdas_swap] at this
  exact this.symm

/-! Concrete cases -/
example := SU_special 3 [1, 2, 3, 4, 5, 6, 7, 8] rfl
example := U4s_special [1, 2, 3, 4, 5, 6, 7, 8, 9] rfl
example := U4_special (List.replicate 15 1) (by simp)
example : U4 [1, 2] = .error .valueError := expGen_length _ (by simp [lambdas])

end Xmps.Spin
