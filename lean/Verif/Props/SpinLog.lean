import Mathlib.Analysis.CStarAlgebra.ContinuousFunctionalCalculus.Instances
import Mathlib.Analysis.CStarAlgebra.Matrix
import Mathlib.Analysis.SpecialFunctions.ContinuousFunctionalCalculus.ExpLog.Basic
import Mathlib.Analysis.SpecialFunctions.Complex.Log
import Mathlib.Analysis.CStarAlgebra.Spectrum
import Mathlib.Analysis.CStarAlgebra.ContinuousFunctionalCalculus.Basic
import Mathlib.Analysis.CStarAlgebra.ContinuousFunctionalCalculus.Commute
import Verif.Props.SpinBasis

/-! # Property C71: `extractv`, `to_new_v` and `equal_up_to_phase` -/

namespace Xmps.Spin

open Matrix

/-- The contract of `scipy.linalg.logm` on unitary matrices: the result is skew-Hermitian and its exponential is the argument. -/
structure LogLaw (logm : ∀ n : ℕ, Matrix (Fin n) (Fin n) ℂ → Matrix (Fin n) (Fin n) ℂ) : Prop where
  skew : ∀ n U, U ∈ unitaryGroup (Fin n) ℂ → (logm n U)ᴴ = -logm n U
  exp : ∀ n U, U ∈ unitaryGroup (Fin n) ℂ → NormedSpace.exp (logm n U) = U

/-- Specification: equal up to a factor of modulus one. -/
def Spec.SamePhase {n : ℕ} (U V : Matrix (Fin n) (Fin n) ℂ) : Prop := ∃ c : ℂ, ‖c‖ = 1 ∧ U = c • V

theorem exp_smul_one {n : ℕ} (c : ℂ) (A : Matrix (Fin n) (Fin n) ℂ) :
    NormedSpace.exp (A + c • (1 : Matrix (Fin n) (Fin n) ℂ)) = Complex.exp c • NormedSpace.exp A := by
  rw [exp_add_of_commute _ _ (by simp [Commute, SemiconjBy])]
  have : c • (1 : Matrix (Fin n) (Fin n) ℂ) = diagonal fun _ => c := by
    rw [← diagonal_one, ← diagonal_smul]; congr 1; ext; simp
  have h2 : (NormedSpace.exp fun _ : Fin n => c) = fun _ => Complex.exp c := by
    ext i
    rw [Pi.coe_exp, ← Complex.exp_eq_exp_ℂ]
  rw [this, exp_diagonal, h2]
  ext a b
  simp [mul_diagonal, mul_comm]

theorem trace_im {n : ℕ} {A : Matrix (Fin n) (Fin n) ℂ} (h : A.IsHermitian) : ((trace A).re : ℂ) = trace A := by
  have := trace_real h (isHermitian_one (n := Fin n) (α := ℂ))
  rwa [Matrix.mul_one] at this

/-- **C71**: `extractv(U)` returns N² - 1 real coordinates whose unitary `SU` is `U` up to a phase. -/
theorem extractv_spec {logm : ∀ n : ℕ, Matrix (Fin n) (Fin n) ℂ → Matrix (Fin n) (Fin n) ℂ} (hl : LogLaw logm) {N : ℕ}
    {U : Matrix (Fin N) (Fin N) ℂ} (hN : 0 < N) (hU : U ∈ unitaryGroup (Fin N) ℂ) :
    ∃ (v : List ℝ) (V : Matrix (Fin N) (Fin N) ℂ), extractv logm U = v.map Complex.ofReal ∧ v.length = N ^ 2 - 1 ∧
      SU (extractv logm U) N = .ok V ∧ Spec.SamePhase V U := by
  have hQ : (Complex.I • logm N U).IsHermitian := by
    rw [IsHermitian, conjTranspose_smul, hl.skew N U hU]; simp
  have hE0 : extractv logm U = components (Complex.I • logm N U - (trace (Complex.I • logm N U) / N) • (1 : Matrix (Fin N) (Fin N) ℂ)) := rfl
  have hexp : NormedSpace.exp ((-Complex.I) • Complex.I • logm N U) = U := by
    rw [smul_smul, neg_mul, Complex.I_mul_I, neg_neg, one_smul, hl.exp N U hU]
  generalize Complex.I • logm N U = Q at hQ hE0 hexp
  obtain ⟨t, ht⟩ : ∃ t : ℝ, trace Q / N = (t : ℂ) := ⟨(trace Q).re / N, by rw [Complex.ofReal_div, trace_im hQ]; simp⟩
  have hR : (Q - (trace Q / N) • (1 : Matrix (Fin N) (Fin N) ℂ)).IsHermitian := by
    rw [ht, IsHermitian, conjTranspose_sub, hQ.eq, conjTranspose_smul]; simp
  have hT : trace (Q - (trace Q / N) • (1 : Matrix (Fin N) (Fin N) ℂ)) = 0 := by
    rw [trace_sub, trace_smul, trace_one, Fintype.card_fin, smul_eq_mul, div_mul_cancel₀ _ (by exact_mod_cast hN.ne'), sub_self]
  have hE := hE0
  have hlen : (extractv logm U).length = N ^ 2 - 1 := by rw [hE, components, List.length_map, su_length]
  refine ⟨(su N).map fun u => (trace ((Q - (trace Q / N) • (1 : Matrix (Fin N) (Fin N) ℂ)) * u)).re / 2, _, ?_,
    by rw [List.length_map, su_length], by rw [SU, expGen, tdot, if_pos (by rw [hlen, su_length]), ok_bind], ?_⟩
  · rw [hE, components, List.map_map]
    refine List.map_congr_left fun u hu => ?_
    rw [Function.comp_apply, Complex.ofReal_div, trace_real hR (su_hermitian_traceless N u hu).1]
    simp
  · rw [hE, su_complete _ hT, smul_sub, smul_smul, sub_eq_add_neg, ← neg_smul, exp_smul_one, hexp]
    refine ⟨Complex.exp (-(-Complex.I * (trace Q / N))), ?_, ?_⟩
    · rw [ht, show -(-Complex.I * (t : ℂ)) = (t : ℂ) * Complex.I by ring, Complex.norm_exp_ofReal_mul_I]
    · rfl

/-- **C71**: `to_new_v(v)` returns real coordinates of the same unitary up to a phase, which is an N-th root of one. -/
theorem toNewV_spec {logm : ∀ n : ℕ, Matrix (Fin n) (Fin n) ℂ → Matrix (Fin n) (Fin n) ℂ} (hl : LogLaw logm) {N : ℕ} (hN : 0 < N)
    (v : List ℝ) (hv : v.length = N ^ 2 - 1) :
    ∃ (w : List ℝ) (U V : Matrix (Fin N) (Fin N) ℂ) (c : ℂ), toNewV logm (v.map Complex.ofReal) = .ok (w.map Complex.ofReal) ∧ w.length = N ^ 2 - 1 ∧
      SU (v.map Complex.ofReal) N = .ok U ∧ SU (w.map Complex.ofReal) N = .ok V ∧ V = c • U ∧ c ^ N = 1 := by
  obtain ⟨U, hU, hUs⟩ := SU_special N v hv
  rw [mem_specialUnitaryGroup_iff] at hUs
  obtain ⟨w, V, hw, hwl, hV, c, -, hc⟩ := extractv_spec hl hN hUs.1
  obtain ⟨V', hV', hVs⟩ := SU_special N w hwl
  rw [mem_specialUnitaryGroup_iff] at hVs
  have hn : Nat.sqrt ((v.map Complex.ofReal).length + 1) = N := by
    rw [List.length_map, hv, Nat.sub_add_cancel (Nat.one_le_pow _ _ hN), Nat.sqrt_eq']
  refine ⟨w, U, V, c, ?_, hwl, hU, by rw [← hw]; exact hV, hc, ?_⟩
  · have : ∀ M, M = N → (do let U ← SU (v.map Complex.ofReal) M; Except.ok (extractv logm U) : Py (List ℂ)) = .ok (w.map Complex.ofReal) := by
      rintro M rfl
      rw [hU, ok_bind, hw]
    exact this _ hn
  · rw [hw, hV'] at hV
    obtain rfl := Except.ok.inj hV
    have := congrArg det hc
    rw [det_smul, hVs.2, hUs.2, Fintype.card_fin, mul_one] at this
    exact this.symm

/-! ### `equal_up_to_phase` -/

/-- **C71**: `equal_up_to_phase` never accepts matrices that differ by more than a phase. -/
theorem equalUpToPhase_sound {n : ℕ} {U V : Matrix (Fin (n + 1)) (Fin (n + 1)) ℂ} (h : equalUpToPhase U V) : Spec.SamePhase U V := by
  refine ⟨Complex.exp (((U 0 0).arg - (V 0 0).arg : ℝ) * Complex.I), Complex.norm_exp_ofReal_mul_I _, ?_⟩
  have h2 := congrArg (fun M => Complex.exp (Complex.I * (U 0 0).arg) • M) h
  simp only [smul_smul, ← Complex.exp_add] at h2
  rw [show Complex.I * ((U 0 0).arg : ℂ) + -Complex.I * ((U 0 0).arg : ℂ) = 0 by ring, Complex.exp_zero, one_smul] at h2
  refine h2.trans ?_
  congr 2
  push_cast
  ring

/-- **C71**: if the top left entry is not zero it accepts exactly the pairs that differ by a phase. -/
theorem equalUpToPhase_iff_partial {n : ℕ} {U V : Matrix (Fin (n + 1)) (Fin (n + 1)) ℂ} (h0 : V 0 0 ≠ 0) :
    equalUpToPhase U V ↔ Spec.SamePhase U V := by
  refine ⟨equalUpToPhase_sound, ?_⟩
  rintro ⟨c, hc, rfl⟩
  have hc0 : c ≠ 0 := by rintro rfl; simp at hc
  have key : ∀ z : ℂ, z ≠ 0 → Complex.exp (-Complex.I * z.arg) = ‖z‖ / z := by
    intro z hz
    have := Complex.norm_mul_exp_arg_mul_I z
    rw [eq_div_iff hz]
    calc Complex.exp (-Complex.I * z.arg) * z = Complex.exp (-Complex.I * z.arg) * (‖z‖ * Complex.exp (z.arg * Complex.I)) := by rw [this]
      _ = ‖z‖ * Complex.exp (-Complex.I * z.arg + z.arg * Complex.I) := by rw [Complex.exp_add]; ring
      _ = ‖z‖ := by rw [show -Complex.I * (z.arg : ℂ) + z.arg * Complex.I = 0 by ring]; simp
  rw [equalUpToPhase, smul_smul, Matrix.smul_apply, smul_eq_mul, key _ (mul_ne_zero hc0 h0), key _ h0, norm_mul, hc, one_mul]
  congr 1
  field_simp

/-- **C71**, violated: if the top left entry is zero the phase is not removed; σ_x and i σ_x are told apart. -/
theorem equalUpToPhase_misses : ∃ U V : Matrix (Fin 2) (Fin 2) ℂ, Spec.SamePhase U V ∧ ¬ equalUpToPhase U V := by
  refine ⟨!![0, Complex.I; Complex.I, 0], !![0, 1; 1, 0], ⟨Complex.I, by simp, ?_⟩, ?_⟩
  · ext i j; fin_cases i <;> fin_cases j <;> simp
  · intro h
    have := congrFun (congrFun h 0) 1
    simp at this
    have := congrArg Complex.re this
    simp at this

/-! ### the contract can be met, and every unitary is reached -/

theorem exists_log_cstar {A : Type} [CStarAlgebra A] {u : A} (hU : u ∈ unitary A) (hfin : (spectrum ℂ u).Finite) :
    ∃ L : A, star L = -L ∧ NormedSpace.exp L = u ∧ ∀ s : A, s * u = u * s → s * L = L * s := by
  have hstar : star u * u = 1 := (Unitary.mem_iff.1 hU).1
  have hstar' : u * star u = 1 := (Unitary.mem_iff.1 hU).2
  have hn : IsStarNormal u := ⟨by rw [Commute, SemiconjBy, hstar, hstar']⟩
  have hf : ContinuousOn (fun z : ℂ => Complex.I * (z.arg : ℂ)) (spectrum ℂ u) := hfin.continuousOn _
  refine ⟨cfc (fun z : ℂ => Complex.I * (z.arg : ℂ)) u, ?_, ?_, ?_⟩
  · have h1 := cfc_star (fun z : ℂ => Complex.I * (z.arg : ℂ)) u
    have h2 := cfc_neg (fun z : ℂ => Complex.I * (z.arg : ℂ)) u
    rw [← h2, ← h1]
    congr 1
    ext z
    simp
  · have hp : IsStarNormal (cfc (fun z : ℂ => Complex.I * (z.arg : ℂ)) u) := cfc_predicate _ _
    rw [← CFC.complex_exp_eq_normedSpace_exp hp, ← cfc_comp' Complex.exp _ u (Complex.continuous_exp.continuousOn) hf]
    conv_rhs => rw [← cfc_id' ℂ u]
    refine cfc_congr fun z hz => ?_
    have h1 : ‖z‖ = 1 := by
      rcases subsingleton_or_nontrivial A with h | h
      · rw [spectrum.of_subsingleton] at hz; exact hz.elim
      · exact spectrum.norm_eq_one_of_unitary hU hz
    have := Complex.norm_mul_exp_arg_mul_I z
    rw [h1, Complex.ofReal_one, one_mul] at this
    show Complex.exp (Complex.I * (z.arg : ℂ)) = z
    rw [mul_comm, this]
  · intro s hS
    have hS' : s * star u = star u * s := by
      calc s * star u = star u * u * (s * star u) := by rw [hstar, one_mul]
        _ = star u * (u * s) * star u := by simp only [mul_assoc]
        _ = star u * s * (u * star u) := by rw [← hS]; simp only [mul_assoc]
        _ = _ := by rw [hstar', mul_one]
    exact (Commute.cfc (show Commute u s from hS.symm) (show Commute (star u) s from hS'.symm) _).symm

open scoped Matrix.Norms.L2Operator in
/-- A unitary matrix has a skew-Hermitian logarithm that commutes with every matrix commuting with it. -/
theorem exists_log {n : ℕ} {U : Matrix (Fin n) (Fin n) ℂ} (hU : U ∈ unitaryGroup (Fin n) ℂ) :
    ∃ L : Matrix (Fin n) (Fin n) ℂ, Lᴴ = -L ∧ NormedSpace.exp L = U ∧ ∀ S : Matrix (Fin n) (Fin n) ℂ, S * U = U * S → S * L = L * S :=
  exists_log_cstar hU (Matrix.finite_spectrum U)

theorem logLaw_exists : ∃ logm, LogLaw logm := by
  have key : ∀ n (U : Matrix (Fin n) (Fin n) ℂ), U ∈ unitaryGroup (Fin n) ℂ → ∃ L : Matrix (Fin n) (Fin n) ℂ, Lᴴ = -L ∧ NormedSpace.exp L = U :=
    fun n U hU => let ⟨L, h1, h2, _⟩ := exists_log hU; ⟨L, h1, h2⟩
  choose! f hf using key
  exact ⟨f, fun n U hU => (hf n U hU).1, fun n U hU => (hf n U hU).2⟩

/-- **C67**: `SU(., N)` reaches every unitary N × N matrix up to a phase. -/
theorem SU_surjective {N : ℕ} (hN : 0 < N) {U : Matrix (Fin N) (Fin N) ℂ} (hU : U ∈ unitaryGroup (Fin N) ℂ) :
    ∃ (v : List ℝ) (V : Matrix (Fin N) (Fin N) ℂ), v.length = N ^ 2 - 1 ∧ SU (v.map Complex.ofReal) N = .ok V ∧ Spec.SamePhase V U := by
  obtain ⟨logm, hl⟩ := logLaw_exists
  obtain ⟨v, V, hv, hlen, hV, hp⟩ := extractv_spec hl hN hU
  exact ⟨v, V, hlen, by rw [← hv]; exact hV, hp⟩

/-- **C67**: `U4s` reaches every unitary that commutes with the exchange of the two sites, up to a phase. -/
theorem U4s_surjective {U : Matrix (Fin 4) (Fin 4) ℂ} (hU : U ∈ unitaryGroup (Fin 4) ℂ) (hs : Gates.swap * U * Gates.swap = U) :
    ∃ (v : List ℝ) (V : Matrix (Fin 4) (Fin 4) ℂ), v.length = 9 ∧ U4s (v.map Complex.ofReal) = .ok V ∧ Spec.SamePhase V U := by
  obtain ⟨L, hL, hexp, hcomm⟩ := exists_log hU
  have hsw : Gates.swap * U = U * Gates.swap := by
    conv_rhs => rw [← hs]
    rw [Matrix.mul_assoc (Gates.swap * U), Gates.swap_mul_swap, Matrix.mul_one]
  have hLs : Gates.swap * L * Gates.swap = L := by
    rw [hcomm _ hsw, Matrix.mul_assoc, Gates.swap_mul_swap, Matrix.mul_one]
  have hQ : (Complex.I • L).IsHermitian := by
    rw [IsHermitian, conjTranspose_smul, hL]; simp
  have hexp' : NormedSpace.exp ((-Complex.I) • Complex.I • L) = U := by
    rw [smul_smul, neg_mul, Complex.I_mul_I, neg_neg, one_smul, hexp]
  have hQs : Gates.swap * (Complex.I • L) * Gates.swap = Complex.I • L := by
    rw [Matrix.mul_smul, Matrix.smul_mul, hLs]
  generalize Complex.I • L = Q at hQ hexp' hQs
  obtain ⟨t, ht⟩ : ∃ t : ℝ, trace Q / 4 = (t : ℂ) := ⟨(trace Q).re / 4, by rw [Complex.ofReal_div, trace_im hQ]; simp⟩
  obtain ⟨v, ⟨hv, hvQ⟩, -⟩ := slambdas_basis (Q := Q - (t : ℂ) • (1 : Matrix (Fin 4) (Fin 4) ℂ))
    (by rw [IsHermitian, conjTranspose_sub, hQ.eq, conjTranspose_smul]; simp)
    (by rw [trace_sub, trace_smul, trace_one, ← ht]; simp)
    (by rw [Matrix.mul_sub, Matrix.sub_mul, hQs, Matrix.mul_smul, Matrix.smul_mul, Matrix.mul_one, Gates.swap_mul_swap])
  refine ⟨v, _, hv, by rw [U4s, expGen, tdot, if_pos (by rw [List.length_map]; exact hv), ok_bind], ?_⟩
  rw [hvQ, smul_sub, smul_smul, sub_eq_add_neg, ← neg_smul, exp_smul_one, hexp']
  exact ⟨_, by rw [show -(-Complex.I * (t : ℂ)) = (t : ℂ) * Complex.I by ring, Complex.norm_exp_ofReal_mul_I], rfl⟩

example {logm : ∀ n : ℕ, Matrix (Fin n) (Fin n) ℂ → Matrix (Fin n) (Fin n) ℂ} (hl : LogLaw logm) := extractv_spec hl (N := 3) (by decide) (one_mem _)
example {logm : ∀ n : ℕ, Matrix (Fin n) (Fin n) ℂ → Matrix (Fin n) (Fin n) ℂ} (hl : LogLaw logm) := toNewV_spec hl (N := 2) (by decide) [1, 2, 3] rfl
example := equalUpToPhase_iff_partial (U := Complex.I • (1 : Matrix (Fin 2) (Fin 2) ℂ)) (V := 1) (by simp)

example := U4s_surjective (U := Gates.swap) (by
    rw [mem_unitaryGroup_iff', show star (Gates.swap : Matrix (Fin 4) (Fin 4) ℂ) = Gates.swap by ext i j; fin_cases i <;> fin_cases j <;> simp [Gates.swap],
      Gates.swap_mul_swap])
  (by rw [Gates.swap_mul_swap, Matrix.one_mul])

end Xmps.Spin
