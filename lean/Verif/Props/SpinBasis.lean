import Verif.Props.SpinUnitary

/-! # Properties C68 (`lambdas` and `slambdas` are bases) and C69 (`antiferro`, `ferro`) -/

namespace Xmps.Spin

open Matrix

/-! ### coordinates with respect to trace-orthogonal matrices -/

/-- In a list of pairwise trace-orthogonal matrices with nonzero squares the coefficients of a combination are determined. -/
theorem comb_inj {n : ℕ} : ∀ (gens : List (Matrix (Fin n) (Fin n) ℂ)) (v w : List ℂ), v.length = gens.length → w.length = gens.length →
    gens.Pairwise (fun a b => trace (a * b) = 0) → (∀ g ∈ gens, trace (g * g) ≠ 0) →
    (List.zipWith (· • ·) v gens).sum = (List.zipWith (· • ·) w gens).sum → v = w
  | [], v, w, hv, hw, _, _, _ => by
    rw [List.length_eq_zero_iff.1 hv, List.length_eq_zero_iff.1 hw]
  | g :: gens, [], _, hv, _, _, _, _ => by simp at hv
  | g :: gens, _ :: _, [], _, hw, _, _, _ => by simp at hw
  | g :: gens, x :: v, y :: w, hv, hw, hp, hg, h => by
    rw [List.pairwise_cons] at hp
    rw [List.zipWith_cons_cons, List.sum_cons, List.zipWith_cons_cons, List.sum_cons] at h
    have ht := congrArg (fun Q => trace (Q * g)) h
    simp only [Matrix.add_mul, trace_add, Matrix.smul_mul, trace_smul, ortho_sum g gens _ hp.1, add_zero, smul_eq_mul] at ht
    have hxy : x = y := mul_right_cancel₀ (hg g (by simp)) ht
    subst hxy
    rw [comb_inj gens v w (by simpa using hv) (by simpa using hw) hp.2 (fun g h => hg g (by simp [h])) (add_left_cancel h)]

/-- The trace of a product of two Hermitian matrices is real. -/
theorem trace_real {n : ℕ} {A B : Matrix (Fin n) (Fin n) ℂ} (hA : A.IsHermitian) (hB : B.IsHermitian) :
    ((trace (A * B)).re : ℂ) = trace (A * B) := by
  apply Complex.conj_eq_iff_re.1
  have := trace_conjTranspose (A * B)
  rw [conjTranspose_mul, hA.eq, hB.eq, trace_mul_comm] at this
  exact this.symm

/-! ### `slambdas` -/

/-- squares of the norms of the nine matrices -/
theorem slambdas_norms : slambdas.map (fun u => trace (u * u)) = [4, 4, 4, 8, 8, 8, 8, 8, 8] := by
  rw [slambdas_eq]
  simp only [List.map_cons, List.map_nil, List.cons.injEq, and_true]
  refine ⟨?_, ?_, ?_, ?_, ?_, ?_, ?_, ?_, ?_⟩ <;>
  · simp [trace, mul_apply, Fin.sum_univ_four]
    try ring_nf
    try simp
    try norm_num

theorem slambdas_orthogonal : slambdas.Pairwise fun a b => trace (a * b) = 0 := by
  rw [slambdas_eq]
  simp [trace, mul_apply, Fin.sum_univ_four]

/-- **C68**: the nine matrices of `slambdas()` span the traceless matrices that commute with the exchange. -/
theorem slambdas_complete {Q : Matrix (Fin 4) (Fin 4) ℂ} (ht : trace Q = 0) (hs : Gates.swap * Q * Gates.swap = Q) :
    (List.zipWith (· • ·) (List.zipWith (fun u c => trace (Q * u) / c) slambdas [4, 4, 4, 8, 8, 8, 8, 8, 8]) slambdas).sum = Q := by
  have e : ∀ i j : Fin 4, (Gates.swap * Q * Gates.swap : Matrix (Fin 4) (Fin 4) ℂ) i j = Q i j := fun i j => by rw [hs]
  have h01 : Q 0 2 = Q 0 1 := by simpa [Gates.swap, mul_apply, vecMul, dotProduct, Fin.sum_univ_four] using e 0 1
  have h10 : Q 2 0 = Q 1 0 := by simpa [Gates.swap, mul_apply, vecMul, dotProduct, Fin.sum_univ_four] using e 1 0
  have h11 : Q 2 2 = Q 1 1 := by simpa [Gates.swap, mul_apply, vecMul, dotProduct, Fin.sum_univ_four] using e 1 1
  have h12 : Q 2 1 = Q 1 2 := by simpa [Gates.swap, mul_apply, vecMul, dotProduct, Fin.sum_univ_four] using e 1 2
  have h13 : Q 2 3 = Q 1 3 := by simpa [Gates.swap, mul_apply, vecMul, dotProduct, Fin.sum_univ_four] using e 1 3
  have h31 : Q 3 2 = Q 3 1 := by simpa [Gates.swap, mul_apply, vecMul, dotProduct, Fin.sum_univ_four] using e 3 1
  have h33 : Q 3 3 = -Q 0 0 - 2 * Q 1 1 := by
    simp only [trace, Fin.sum_univ_four, diag_apply, h11] at ht
    linear_combination ht
  rw [slambdas_eq]
  have hI := Complex.I_mul_I
  ext i j
  fin_cases i <;> fin_cases j <;>
  · simp [trace, mul_apply, Fin.sum_univ_four, h01, h10, h11, h12, h13, h31, h33]
    try ring_nf
    try simp
    try ring

/-- **C68**: every Hermitian traceless 4 × 4 matrix that commutes with the exchange is a real combination of `slambdas()` in exactly one
way. -/
theorem slambdas_basis {Q : Matrix (Fin 4) (Fin 4) ℂ} (hH : Q.IsHermitian) (ht : trace Q = 0) (hs : Gates.swap * Q * Gates.swap = Q) :
    ∃! v : List ℝ, v.length = 9 ∧ (List.zipWith (· • ·) (v.map Complex.ofReal) slambdas).sum = Q := by
  have hlen : slambdas.length = 9 := by rw [slambdas_eq]; rfl
  refine ⟨List.zipWith (fun u c => (trace (Q * u)).re / c) slambdas [4, 4, 4, 8, 8, 8, 8, 8, 8], ⟨by simp [hlen], ?_⟩, ?_⟩
  · conv_rhs => rw [← slambdas_complete ht hs]
    congr 2
    have hr : ∀ u ∈ slambdas, ((trace (Q * u)).re : ℂ) = trace (Q * u) := fun u hu => trace_real hH (slambdas_hermitian_traceless u hu).1
    revert hr
    rw [slambdas_eq]
    intro hr
    simp only [List.forall_mem_cons] at hr
    obtain ⟨h1, h2, h3, h4, h5, h6, h7, h8, h9, -⟩ := hr
    simp only [List.zipWith_cons_cons, List.zipWith_nil_left, List.map_cons, List.map_nil, Complex.ofReal_div, h1, h2, h3, h4, h5, h6, h7, h8, h9]
    simp
  · rintro w ⟨hw, hwQ⟩
    have hn : ∀ g ∈ slambdas, trace (g * g) ≠ 0 := by
      intro g hg
      have : trace (g * g) ∈ slambdas.map (fun u => trace (u * u)) := List.mem_map_of_mem hg
      rw [slambdas_norms] at this
      rcases (by simpa using this : trace (g * g) = 4 ∨ trace (g * g) = 8) with h | h <;> rw [h] <;> norm_num
    have := comb_inj slambdas (w.map Complex.ofReal) (List.zipWith (fun u c => trace (Q * u) / c) slambdas [4, 4, 4, 8, 8, 8, 8, 8, 8])
      (by simp [hlen, hw]) (by simp [hlen]) slambdas_orthogonal hn (by rw [hwQ, slambdas_complete ht hs])
    have h2 := congrArg (List.map Complex.re) this
    rw [List.map_map] at h2
    have hid : (Complex.re ∘ Complex.ofReal) = id := by ext x; simp
    rw [hid, List.map_id] at h2
    rw [h2, List.map_zipWith]
    rw [slambdas_eq]
    simp only [List.zipWith_cons_cons, List.zipWith_nil_left]
    simp

/-- **C68**: the real span of `slambdas()` is a Lie algebra: -i times the commutator of two of its elements stays in it. -/
theorem slambdas_closed (v w : List ℝ) :
    ∃! z : List ℝ, z.length = 9 ∧ (List.zipWith (· • ·) (z.map Complex.ofReal) slambdas).sum =
      (-Complex.I) • comm (List.zipWith (· • ·) (v.map Complex.ofReal) slambdas).sum (List.zipWith (· • ·) (w.map Complex.ofReal) slambdas).sum := by
  have hA := comb_hermitian v slambdas fun g h => (slambdas_hermitian_traceless g h).1
  have hB := comb_hermitian w slambdas fun g h => (slambdas_hermitian_traceless g h).1
  have sA := comb_swap (v.map Complex.ofReal) slambdas slambdas_swap
  have sB := comb_swap (w.map Complex.ofReal) slambdas slambdas_swap
  generalize (List.zipWith (· • ·) (v.map Complex.ofReal) slambdas).sum = A at *
  generalize (List.zipWith (· • ·) (w.map Complex.ofReal) slambdas).sum = B at *
  have hc : ∀ A B : Matrix (Fin 4) (Fin 4) ℂ, Gates.swap * A * Gates.swap = A → Gates.swap * B * Gates.swap = B →
      Gates.swap * (A * B) * Gates.swap = A * B := by
    intro A B hA hB
    conv_rhs => rw [← hA, ← hB]
    have := Gates.swap_mul_swap (K := ℂ)
    calc Gates.swap * (A * B) * Gates.swap = Gates.swap * A * 1 * (B * Gates.swap) := by simp [Matrix.mul_assoc]
      _ = Gates.swap * A * (Gates.swap * Gates.swap) * (B * Gates.swap) := by rw [this]
      _ = _ := by simp only [Matrix.mul_assoc]
  refine slambdas_basis ?_ ?_ ?_
  · rw [IsHermitian, conjTranspose_smul, comm, conjTranspose_sub, conjTranspose_mul, conjTranspose_mul, hA.eq, hB.eq]
    simp
    rw [← smul_neg]; congr 1; abel
  · rw [trace_smul, comm, trace_sub, trace_mul_comm, sub_self, smul_zero]
  · rw [Matrix.mul_smul, Matrix.smul_mul, comm, Matrix.mul_sub, Matrix.sub_mul, hc A B sA sB, hc B A sB sA]

/-! ### `lambdas` -/

/-- **C68**: the fifteen matrices of `lambdas()` are trace-orthogonal with squared norm 2 -/
theorem lambdas_norm : ∀ u ∈ lambdas, trace (u * u) = 2 := by
  obtain ⟨hx, hy, hz⟩ := paulis_vals
  have h3 : ((Real.sqrt 3 : ℝ) : ℂ)⁻¹ * ((Real.sqrt 3 : ℝ) : ℂ)⁻¹ = 1 / 3 := by
    rw [← mul_inv, ← Complex.ofReal_mul, Real.mul_self_sqrt (by norm_num)]; norm_num
  have h6 : ((Real.sqrt 6 : ℝ) : ℂ)⁻¹ * ((Real.sqrt 6 : ℝ) : ℂ)⁻¹ = 1 / 6 := by
    rw [← mul_inv, ← Complex.ofReal_mul, Real.mul_self_sqrt (by norm_num)]; norm_num
  simp only [lambdas, hx, hy, hz, blockUL, List.forall_mem_cons]
  refine ⟨?_, ?_, ?_, ?_, ?_, ?_, ?_, ?_, ?_, ?_, ?_, ?_, ?_, ?_, ?_, by simp⟩ <;>
  · simp [trace, mul_apply, Fin.sum_univ_four]
    try norm_num
    try linear_combination 6 * h3
    try linear_combination 12 * h6

theorem lambdas_orthogonal : lambdas.Pairwise fun a b => trace (a * b) = 0 := by
  obtain ⟨hx, hy, hz⟩ := paulis_vals
  simp only [lambdas, hx, hy, hz, blockUL]
  simp [trace, mul_apply, Fin.sum_univ_four]
  ring

set_option maxHeartbeats 2000000 in
/-- **C68**: every traceless 4 × 4 matrix is the combination of `lambdas()` with coefficients tr(Q λ)/2. -/
theorem lambdas_complete {Q : Matrix (Fin 4) (Fin 4) ℂ} (ht : trace Q = 0) :
    (List.zipWith (· • ·) (lambdas.map fun u => trace (Q * u) / 2) lambdas).sum = Q := by
  obtain ⟨hx, hy, hz⟩ := paulis_vals
  have h3 : ((1 / Real.sqrt 3 : ℝ) : ℂ) * ((1 / Real.sqrt 3 : ℝ) : ℂ) = 1 / 3 := by
    rw [← Complex.ofReal_mul, div_mul_div_comm, Real.mul_self_sqrt (by norm_num)]; norm_num
  have h6 : ((1 / Real.sqrt 6 : ℝ) : ℂ) * ((1 / Real.sqrt 6 : ℝ) : ℂ) = 1 / 6 := by
    rw [← Complex.ofReal_mul, div_mul_div_comm, Real.mul_self_sqrt (by norm_num)]; norm_num
  have h33 : Q 3 3 = -Q 0 0 - Q 1 1 - Q 2 2 := by
    simp only [trace, Fin.sum_univ_four, diag_apply] at ht
    linear_combination ht
  simp only [lambdas, hx, hy, hz, blockUL]
  generalize ((1 / Real.sqrt 3 : ℝ) : ℂ) = a at *
  generalize ((1 / Real.sqrt 6 : ℝ) : ℂ) = b at *
  ext i j
  fin_cases i <;> fin_cases j
  all_goals simp [trace, mul_apply, Fin.sum_univ_four, h33]
  case «0».«0» => linear_combination (Q 0 0 + Q 1 1 - 2 * Q 2 2) / 2 * h3 + (Q 0 0 + Q 1 1 + Q 2 2 - 3 * (-Q 0 0 - Q 1 1 - Q 2 2)) / 2 * h6
  case «1».«1» => linear_combination (Q 0 0 + Q 1 1 - 2 * Q 2 2) / 2 * h3 + (Q 0 0 + Q 1 1 + Q 2 2 - 3 * (-Q 0 0 - Q 1 1 - Q 2 2)) / 2 * h6
  case «2».«2» => linear_combination -2 * (Q 0 0 + Q 1 1 - 2 * Q 2 2) / 2 * h3 + (Q 0 0 + Q 1 1 + Q 2 2 - 3 * (-Q 0 0 - Q 1 1 - Q 2 2)) / 2 * h6
  case «3».«3» => linear_combination -3 * (Q 0 0 + Q 1 1 + Q 2 2 - 3 * (-Q 0 0 - Q 1 1 - Q 2 2)) / 2 * h6
  all_goals ring_nf
  all_goals simp
  all_goals ring

/-- **C68**: every Hermitian traceless 4 × 4 matrix is a real combination of `lambdas()` in exactly one way. -/
theorem lambdas_basis {Q : Matrix (Fin 4) (Fin 4) ℂ} (hH : Q.IsHermitian) (ht : trace Q = 0) :
    ∃! v : List ℝ, v.length = 15 ∧ (List.zipWith (· • ·) (v.map Complex.ofReal) lambdas).sum = Q := by
  have hr : (lambdas.map fun u => (trace (Q * u)).re / 2).map Complex.ofReal = lambdas.map fun u => trace (Q * u) / 2 := by
    rw [List.map_map]
    refine List.map_congr_left fun u hu => ?_
    rw [Function.comp_apply, Complex.ofReal_div, trace_real hH (lambdas_hermitian_traceless u hu).1]
    simp
  refine ⟨lambdas.map fun u => (trace (Q * u)).re / 2, ⟨by rw [List.length_map]; rfl, ?_⟩, ?_⟩
  · rw [hr, lambdas_complete ht]
  · rintro w ⟨hw, hwQ⟩
    have := comb_inj lambdas (w.map Complex.ofReal) (lambdas.map fun u => trace (Q * u) / 2) (by rw [List.length_map, hw]; rfl) (by simp)
      lambdas_orthogonal (fun g hg => by rw [lambdas_norm g hg]; norm_num) (by rw [hwQ, lambdas_complete ht])
    rw [← hr] at this
    exact List.map_injective_iff.2 Complex.ofReal_injective this

/-! Concrete cases: the matrix σ_z ⊗ σ_z. -/
example := slambdas_basis (Q := !![1, 0, 0, 0; 0, -1, 0, 0; 0, 0, -1, 0; 0, 0, 0, 1]) (by ext i j; fin_cases i <;> fin_cases j <;> simp)
  (by simp [trace, Fin.sum_univ_four]) (by ext i j; fin_cases i <;> fin_cases j <;> simp [Gates.swap])
example := lambdas_basis (Q := !![1, 0, 0, 0; 0, -1, 0, 0; 0, 0, -1, 0; 0, 0, 0, 1]) (by ext i j; fin_cases i <;> fin_cases j <;> simp)
  (by simp [trace, Fin.sum_univ_four])

/-! ### C69: the two spinors -/

theorem Sz1_eq : Sz 1 = !![(1 / 2 : ℂ), 0; 0, -(1 / 2)] := by
  ext i j
  fin_cases i <;> fin_cases j <;> simp [Sz]
  norm_num

/-- the three matrices of `antiferro()` in numbers -/
theorem antiferro_eq : antiferro =
    [!![0, 0, 0, 0; 0, 0, 1, 0; 0, 1, 0, 0; 0, 0, 0, 0],
     !![0, 0, 0, 0; 0, 0, Complex.I, 0; 0, -Complex.I, 0, 0; 0, 0, 0, 0],
     !![0, 0, 0, 0; 0, -1, 0, 0; 0, 0, 1, 0; 0, 0, 0, 0]] := by
  simp only [antiferro, ladders, ladderUp, ladderDown, onFirst, onSecond, Sz1_eq, List.cons.injEq, and_true]
  refine ⟨?_, ?_, ?_⟩ <;>
  · simp only [kron22]
    ext i j
    fin_cases i <;> fin_cases j <;> simp [mul_apply, Fin.sum_univ_four]
    all_goals try norm_num

theorem ferro_eq : ferro =
    [!![0, 0, 0, 1; 0, 0, 0, 0; 0, 0, 0, 0; 1, 0, 0, 0],
     !![0, 0, 0, -Complex.I; 0, 0, 0, 0; 0, 0, 0, 0; Complex.I, 0, 0, 0],
     !![1 / 2, 0, 0, 0; 0, 0, 0, 0; 0, 0, 0, 0; 0, 0, 0, -(1 / 2)]] := by
  simp only [ferro, ladders, ladderUp, ladderDown, onFirst, onSecond, Sz1_eq, List.cons.injEq, and_true]
  refine ⟨?_, ?_, ?_⟩ <;>
  · simp only [kron22]
    ext i j
    fin_cases i <;> fin_cases j <;> simp [mul_apply, Fin.sum_univ_four]
    all_goals try norm_num

/-- Specification: three Hermitian matrices form a spinor if they obey the commutation relations of the Pauli matrices (the test `pCR` of
`spin.py:308-317`). -/
def Spec.PauliTriple (S : List (Matrix (Fin 4) (Fin 4) ℂ)) : Prop :=
  ∃ x y z, S = [x, y, z] ∧ x.IsHermitian ∧ y.IsHermitian ∧ z.IsHermitian ∧ x * y - y * x = (2 * Complex.I) • z ∧
    y * z - z * y = (2 * Complex.I) • x ∧ z * x - x * z = (2 * Complex.I) • y

/-- **C69**: `antiferro()` is a spinor. -/
theorem antiferro_pauli : Spec.PauliTriple antiferro := by
  rw [antiferro_eq]
  refine ⟨_, _, _, rfl, ?_, ?_, ?_, ?_, ?_, ?_⟩ <;>
  · ext i j
    fin_cases i <;> fin_cases j <;> simp [mul_apply, Fin.sum_univ_four]
    all_goals try ring_nf
    all_goals try simp

/-- **C69**, violated: `ferro()` is not a spinor; its third component is half of what the relations require. -/
theorem ferro_not_pauli : ¬ Spec.PauliTriple ferro := by
  rw [ferro_eq]
  rintro ⟨x, y, z, e, -, -, -, h, -⟩
  obtain ⟨rfl, rfl, rfl⟩ : _ = x ∧ _ = y ∧ _ = z := by simpa using e
  have := congrFun (congrFun h 0) 0
  simp [mul_apply, Fin.sum_univ_four] at this
  have h2 := congrArg Complex.im this
  norm_num at h2

set_option maxHeartbeats 1000000 in
/-- **C69** (partial): with the third component doubled `ferro()` is a spinor, and it commutes with `antiferro()`. -/
theorem ferro_partial : ∃ x y z, ferro = [x, y, z] ∧ Spec.PauliTriple [x, y, (2 : ℂ) • z] ∧ ∀ a ∈ antiferro, ∀ f ∈ ferro, a * f = 0 ∧ f * a = 0 := by
  rw [ferro_eq, antiferro_eq]
  refine ⟨_, _, _, rfl, ⟨_, _, _, rfl, ?_, ?_, ?_, ?_, ?_, ?_⟩, ?_⟩
  iterate 6
    · ext i j
      fin_cases i <;> fin_cases j <;> simp <;> ring_nf <;> simp
  · simp only [List.forall_mem_cons]
    refine ⟨⟨?_, ?_, ?_, by simp⟩, ⟨?_, ?_, ?_, by simp⟩, ⟨?_, ?_, ?_, by simp⟩, by simp⟩ <;>
    · constructor <;>
      · ext i j
        fin_cases i <;> fin_cases j <;> simp

end Xmps.Spin
