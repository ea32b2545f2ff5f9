import Mathlib.Analysis.Matrix.Normed
import Mathlib.Tactic.NoncommRing
import Mathlib.Tactic.FinCases
import Mathlib.Analysis.InnerProductSpace.GramSchmidtOrtho
import Verif.Model.Gates

/-! # Properties C51 (`embed`), C52 (`swap`), C53 (`CZ`, `CNOT`, `CRy`) -/

namespace Xmps.Gates

open Matrix

variable {K : Type}

/-! ### C52 -/

/-- **C52**: `swap` is self-inverse. -/
theorem swap_mul_swap [Semiring K] : (swap : Matrix (Fin 4) (Fin 4) K) * swap = 1 := by
  ext i j
  fin_cases i <;> fin_cases j <;> simp [swap, Matrix.mul_apply, Fin.sum_univ_four]

/-- **C52**: `swap` exchanges the two qubits. -/
theorem swap_kron [CommSemiring K] (u v : Fin 2 → K) : swap *ᵥ kron2 u v = kron2 v u := by
  ext i
  fin_cases i <;> simp [swap, kron2, Matrix.mulVec, dotProduct, Fin.sum_univ_four, mul_comm]

/-- **C52**: `swap_symmetrise` returns operators that commute with the exchange. -/
theorem swapSymmetrise_symm [Field K] (U : Matrix (Fin 4) (Fin 4) K) : swap * swapSymmetrise U * swap = swapSymmetrise U := by
  have h : (swap : Matrix (Fin 4) (Fin 4) K) * (swap * U * swap) * swap = U := by
    rw [Matrix.mul_assoc swap U swap, ← Matrix.mul_assoc swap swap, swap_mul_swap, Matrix.one_mul, Matrix.mul_assoc, swap_mul_swap, Matrix.mul_one]
  rw [swapSymmetrise, Matrix.mul_smul, Matrix.smul_mul, Matrix.mul_add, Matrix.add_mul, h, add_comm]

/-- **C52**: `swap_symmetrise` fixes exactly the operators that commute with the exchange. -/
theorem swapSymmetrise_eq_iff [Field K] [CharZero K] (U : Matrix (Fin 4) (Fin 4) K) : swapSymmetrise U = U ↔ swap * U * swap = U := by
  constructor
  · intro h
    rw [← h]
    exact swapSymmetrise_symm U
  · intro h
    rw [swapSymmetrise, h, ← two_smul K U, smul_smul, inv_mul_cancel₀ (two_ne_zero), one_smul]

/-- **C52**: `swap_symmetrise` is a projection. -/
theorem swapSymmetrise_idem [Field K] [CharZero K] (U : Matrix (Fin 4) (Fin 4) K) :
    swapSymmetrise (swapSymmetrise U) = swapSymmetrise U := (swapSymmetrise_eq_iff _).2 (swapSymmetrise_symm U)

/-- **C52**: `is_swap_symmetric` holds exactly for the operators that commute with the exchange. -/
theorem isSwapSymmetric_iff [Field K] [CharZero K] (U : Matrix (Fin 4) (Fin 4) K) : isSwapSymmetric U ↔ swap * U = U * swap := by
  have e : swapAntisymmetrise U = swapSymmetrise U := rfl
  rw [isSwapSymmetric, e, sub_eq_zero, eq_comm, swapSymmetrise_eq_iff]
  constructor
  · intro h
    calc swap * U = swap * (swap * U * swap) := by rw [h]
      _ = U * swap := by rw [Matrix.mul_assoc swap U swap, ← Matrix.mul_assoc swap swap, swap_mul_swap, Matrix.one_mul]
  · intro h
    rw [h, Matrix.mul_assoc, swap_mul_swap, Matrix.mul_one]

/-- **C52** (violated): `swap_antisymmetrise` is the symmetrisation; it does not return antisymmetric operators. -/
theorem swapAntisymmetrise_wrong [Field K] [CharZero K] :
    (∀ U : Matrix (Fin 4) (Fin 4) K, swapAntisymmetrise U = swapSymmetrise U) ∧
    ∃ U : Matrix (Fin 4) (Fin 4) K, swap * swapAntisymmetrise U * swap ≠ -swapAntisymmetrise U := by
  refine ⟨fun _ => rfl, 1, ?_⟩
  have e : swapAntisymmetrise (1 : Matrix (Fin 4) (Fin 4) K) = 1 :=
    (swapSymmetrise_eq_iff _).2 (by rw [Matrix.mul_one, swap_mul_swap])
  rw [e, Matrix.mul_one, swap_mul_swap]
  intro h
  have := congrFun (congrFun h 0) 0
  simp only [Matrix.one_apply_eq, Matrix.neg_apply] at this
  have h2 : (2 : K) = 0 := by
    calc (2 : K) = 1 + 1 := by norm_num
      _ = 1 + -1 := by rw [← this]
      _ = 0 := by ring
  exact two_ne_zero h2

/-! ### C53 -/

/-- **C53**: `CZ` and `CNOT` are self-inverse. -/
theorem CZ_CNOT_involutions [Ring K] : (CZ : Matrix (Fin 4) (Fin 4) K) * CZ = 1 ∧ (CNOT : Matrix (Fin 4) (Fin 4) K) * CNOT = 1 := by
  constructor <;> ext i j <;> fin_cases i <;> fin_cases j <;> simp [CZ, CNOT, Matrix.mul_apply, Fin.sum_univ_four]

/-- **C53**: the action of the gates on product vectors `e_0 ⊗ v`, `e_1 ⊗ v`: nothing when the first qubit is 0,
`Z` resp. `X` on the second when the first is 1. -/
theorem controlled [CommRing K] (v : Fin 2 → K) :
    CZ *ᵥ kron2 ![1, 0] v = kron2 ![1, 0] v ∧ CZ *ᵥ kron2 ![0, 1] v = kron2 ![0, 1] ![v 0, -v 1] ∧
    CNOT *ᵥ kron2 ![1, 0] v = kron2 ![1, 0] v ∧ CNOT *ᵥ kron2 ![0, 1] v = kron2 ![0, 1] ![v 1, v 0] := by
  refine ⟨?_, ?_, ?_, ?_⟩ <;> ext i <;> fin_cases i <;> simp [CZ, CNOT, kron2, Matrix.mulVec, dotProduct, Fin.sum_univ_four]

/-- **C53**: `CZ` is symmetric under exchange of the qubits. -/
theorem CZ_swap [Ring K] : (swap : Matrix (Fin 4) (Fin 4) K) * CZ * swap = CZ := by
  ext i j
  fin_cases i <;> fin_cases j <;> simp [CZ, swap, Matrix.mul_apply, Fin.sum_univ_four]

/-- **C53**: the angles of `CRy` add, `CRy(0) = 1` and `CRy(θ)` is orthogonal. -/
theorem CRy_group (θ φ : ℝ) : CRy θ * CRy φ = CRy (θ + φ) ∧ CRy 0 = 1 ∧ (CRy θ)ᵀ * CRy θ = 1 := by
  have e : -θ / 2 = -(θ / 2) := by ring
  have e' : -φ / 2 = -(φ / 2) := by ring
  refine ⟨?_, ?_, ?_⟩ <;> ext i j <;> fin_cases i <;> fin_cases j <;>
    simp [CRy, Matrix.mul_apply, Fin.sum_univ_four, e, e', Real.cos_add, Real.sin_add, add_div]
  all_goals first | (have := Real.sin_sq_add_cos_sq (θ / 2); nlinarith) | ring

/-! ### C51 -/

theorem embed_zero {n : ℕ} (ns : (Fin (n + 1) → ℂ) → Matrix (Fin (n + 1)) (Fin n) ℂ) (v : Fin (n + 1) → ℂ) (k : Fin (n + 1)) :
    embed ns v k 0 = v k / norm2 v := by
  simp [embed]

theorem embed_succ {n : ℕ} (ns : (Fin (n + 1) → ℂ) → Matrix (Fin (n + 1)) (Fin n) ℂ) (v : Fin (n + 1) → ℂ) (k : Fin (n + 1)) (j : Fin n) :
    embed ns v k j.succ = star (ns (fun k => v k / norm2 v) k j) := by
  simp [embed]

theorem norm2_unit {n : ℕ} {v : Fin n → ℂ} (hv : v ≠ 0) : ∑ k, star (v k / norm2 v) * (v k / norm2 v) = 1 := by
  have hpos : 0 < ∑ k, ‖v k‖ ^ 2 := by
    obtain ⟨k, hk⟩ := Function.ne_iff.1 hv
    exact Finset.sum_pos' (fun i _ => by positivity) ⟨k, Finset.mem_univ k, by have := norm_pos_iff.2 hk; positivity⟩
  have h2 : (norm2 v : ℂ) * norm2 v = ∑ k, star (v k) * v k := by
    rw [← Complex.ofReal_mul, norm2, Real.mul_self_sqrt hpos.le]
    push_cast
    apply Finset.sum_congr rfl
    intro k _
    rw [← Complex.conj_mul']
    rfl
  have h0 : (norm2 v : ℂ) ≠ 0 := by
    rw [Ne, Complex.ofReal_eq_zero, norm2]
    exact (Real.sqrt_pos.2 hpos).ne'
  have : ∀ k, star (v k / norm2 v) * (v k / norm2 v) = star (v k) * v k * ((norm2 v : ℂ) * norm2 v)⁻¹ := by
    intro k
    have hs : star (v k / (norm2 v : ℂ)) = star (v k) / (norm2 v : ℂ) := by
      show (starRingEnd ℂ) _ = (starRingEnd ℂ) _ / _
      rw [map_div₀, Complex.conj_ofReal]
    rw [hs]
    field_simp
  rw [Finset.sum_congr rfl fun k _ => this k, ← Finset.sum_mul, h2, mul_inv_cancel₀]
  rw [← h2]
  exact mul_ne_zero h0 h0

/-- **C51**: `embed(v)` is unitary, for every non-zero block and every null space. -/
theorem embed_unitary {n : ℕ} {ns : (Fin (n + 1) → ℂ) → Matrix (Fin (n + 1)) (Fin n) ℂ}
    (hns : ∀ v : Fin (n + 1) → ℂ, ∑ k, star (v k) * v k = 1 → NullRow v (ns v)) {v : Fin (n + 1) → ℂ} (hv : v ≠ 0) :
    (embed ns v)ᴴ * embed ns v = 1 ∧ embed ns v * (embed ns v)ᴴ = 1 := by
  have hu := norm2_unit hv
  have hN := hns _ hu
  have key : (embed ns v)ᴴ * embed ns v = 1 := by
    ext i j
    rw [Matrix.mul_apply]
    simp only [Matrix.conjTranspose_apply]
    refine Fin.cases ?_ (fun i => ?_) i <;> refine Fin.cases ?_ (fun j => ?_) j
    · simp only [embed_zero]
      rw [hu, Matrix.one_apply_eq]
    · simp only [embed_zero, embed_succ]
      have h := congrArg star (hN.null j)
      simp only [star_sum, star_mul, star_zero] at h
      rw [Matrix.one_apply_ne (Fin.succ_ne_zero j).symm, ← h]
      exact Finset.sum_congr rfl fun k _ => mul_comm _ _
    · simp only [embed_zero, embed_succ, star_star]
      rw [Matrix.one_apply_ne (Fin.succ_ne_zero i), ← hN.null i]
      exact Finset.sum_congr rfl fun k _ => mul_comm _ _
    · simp only [embed_succ, star_star]
      have h := congrFun (congrFun hN.orth j) i
      rw [Matrix.mul_apply] at h
      simp only [Matrix.conjTranspose_apply] at h
      have e : (1 : Matrix (Fin (n + 1)) (Fin (n + 1)) ℂ) i.succ j.succ = (1 : Matrix (Fin n) (Fin n) ℂ) j i := by
        simp [Matrix.one_apply, eq_comm]
      rw [e, ← h]
      exact Finset.sum_congr rfl fun k _ => mul_comm _ _
  exact ⟨key, mul_eq_one_comm.1 key⟩

/-- **C51**: `deembed(embed(v)) = v / norm(v)`. -/
theorem deembed_embed (ns : (Fin 4 → ℂ) → Matrix (Fin 4) (Fin 3) ℂ) (v : Fin 4 → ℂ) :
    deembed (embed ns v) = fun k => v k / norm2 v := by
  ext k
  have h := embed_zero ns v k
  simp [deembed, Matrix.mulVec, dotProduct, Fin.sum_univ_four, h]

/-- The contract of `null_space` can be met. -/
theorem nullRow_exists {n : ℕ} (v : Fin (n + 1) → ℂ) (hv : ∑ k, star (v k) * v k = 1) : ∃ N, NullRow v N := by
  let w : EuclideanSpace ℂ (Fin (n + 1)) := WithLp.toLp 2 fun k => star (v k)
  have hw : inner ℂ w w = (1 : ℂ) := by
    rw [PiLp.inner_apply, ← hv]
    exact Finset.sum_congr rfl fun k _ => by rw [mul_comm]; simp [w, ← Complex.conj_mul', mul_comm]
  have ho : Orthonormal ℂ (({0} : Set (Fin (n + 1))).domRestrict fun _ => w) := by
    rw [orthonormal_iff_ite]
    rintro ⟨i, hi⟩ ⟨j, hj⟩
    simp only [Set.mem_singleton_iff] at hi hj
    subst hi hj
    show inner ℂ w w = _
    rw [hw]
    simp
  obtain ⟨b, hb⟩ := ho.exists_orthonormalBasis_extension_of_card_eq (by simp)
  have hb0 : b 0 = w := hb 0 rfl
  have hbo := orthonormal_iff_ite.1 b.orthonormal
  refine ⟨Matrix.of fun k j => b j.succ k, ?_, fun j => ?_⟩
  · ext i j
    have h := hbo i.succ j.succ
    rw [PiLp.inner_apply] at h
    rw [Matrix.mul_apply]
    simp only [Matrix.conjTranspose_apply, Matrix.of_apply, Matrix.one_apply]
    simp only [Fin.succ_inj] at h
    rw [← h]
    exact Finset.sum_congr rfl fun k _ => by simp [mul_comm]
  · have h := hbo 0 j.succ
    rw [PiLp.inner_apply, if_neg (Fin.succ_ne_zero j).symm, hb0] at h
    rw [← h]
    exact Finset.sum_congr rfl fun k _ => by simp [w, mul_comm]

open Classical in
/-- A null space function that meets the contract. -/
noncomputable def exNull {n : ℕ} (v : Fin (n + 1) → ℂ) : Matrix (Fin (n + 1)) (Fin n) ℂ :=
  if h : ∑ k, star (v k) * v k = 1 then (nullRow_exists v h).choose else 0

theorem exNull_spec {n : ℕ} (v : Fin (n + 1) → ℂ) (h : ∑ k, star (v k) * v k = 1) : NullRow v (exNull v) := by
  rw [exNull, dif_pos h]
  exact (nullRow_exists v h).choose_spec

example := embed_unitary (n := 3) exNull_spec (v := ![1, 2, Complex.I, 0]) (fun h => by simpa using congrFun h 0)

end Xmps.Gates
