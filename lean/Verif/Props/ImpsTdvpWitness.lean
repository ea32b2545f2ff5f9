import Verif.Props.ImpsTdvp
import Verif.Props.Isometry
import Verif.Props.Chol

/-!
# `dA_dt` of an infinite MPS: the hypotheses can be met, and a complex tensor for which the claim fails (C79, C80)
-/

namespace Xmps

open Finset Matrix Spec ImpsCore ComplexOrder Xmps.Ncon

namespace IMPS

variable {eigs : ND ℂ → Py (ℝ × ND ℂ × ND ℂ)} {chol inv null : ND ℂ → Py (ND ℂ)} {z : ℂ}

/-- the cluster state, with a phase `z` of the second basis state of the bond -/
noncomputable def exClu (z : ℂ) : ND ℂ := ⟨[2, 2, 2], fun
  | [0, 0, 0] => (1 + Complex.I) / 2
  | [0, 0, 1] => (1 + Complex.I) / 2 * z
  | [1, 1, 0] => (1 + Complex.I) / 2
  | [1, 1, 1] => -((1 + Complex.I) / 2 * z)
  | _ => 0⟩

/-- `1/2` -/
noncomputable def exTwo : ND ℂ := exId.smul (1 / 2)

theorem exTwo_eq : toM 2 2 exTwo = (1 / 2 : ℂ) • 1 := by rw [exTwo, toM_smul, exId_eq]

theorem clu0 (z : ℂ) : toM3 2 2 (exClu z) 0 = ((1 + Complex.I) / 2) • !![1, z; 0, 0] := by
  simp only [Matrix.smul_of, Matrix.smul_cons, Matrix.smul_empty, smul_eq_mul, mul_one, mul_zero]
  ext i j
  match i, j with
  | 0, 0 => rfl
  | 0, 1 => rfl
  | 1, 0 => rfl
  | 1, 1 => rfl

theorem clu1 (z : ℂ) : toM3 2 2 (exClu z) 1 = ((1 + Complex.I) / 2) • !![0, 0; 1, -z] := by
  simp only [Matrix.smul_of, Matrix.smul_cons, Matrix.smul_empty, smul_eq_mul, mul_one, mul_zero, mul_neg]
  ext i j
  match i, j with
  | 0, 0 => rfl
  | 0, 1 => rfl
  | 1, 0 => rfl
  | 1, 1 => rfl

theorem half_norm : (1 + Complex.I) / 2 * star ((1 + Complex.I) / 2) = 1 / 2 := by
  apply Complex.ext <;> simp <;> norm_num

theorem map_smul_star (c : ℂ) (M : Matrix (Fin 2) (Fin 2) ℂ) : (c • M).map star = star c • M.map star := by
  ext i j
  simp [Matrix.map_apply]

theorem clu_push (hz : z * star z = 1) (p q s t : ℂ) : pushLeft 2 2 (exClu z) !![p, q; s, t] =
    !![(p + t) / 2, star z * (p - t) / 2; z * (p - t) / 2, (p + t) / 2] := by
  unfold pushLeft
  simp only [Finset.sum_range_succ, Finset.sum_range_zero, zero_add, clu0, clu1, transpose_smul, map_smul_star, Matrix.smul_mul, Matrix.mul_smul, smul_smul,
    mul_comm (star ((1 + Complex.I) / 2)) ((1 + Complex.I) / 2), half_norm]
  simp only [tr2, map2, Matrix.mul_fin_two, Matrix.smul_of, Matrix.smul_cons, Matrix.smul_empty, smul_eq_mul, Matrix.of_add_of, Matrix.add_cons,
    Matrix.head_cons, Matrix.tail_cons, Matrix.empty_add_empty, star_zero, star_one, star_neg]
  refine eq2 ?_ ?_ ?_ ?_
  · ring
  · ring
  · ring
  · linear_combination (p + t) / 2 * hz

theorem clu_code (hz : z * star z = 1) (p q s t : ℂ) : codePush 2 2 (exClu z) !![p, q; s, t] =
    !![(p + t) / 2, z * (p - t) / 2; star z * (p - t) / 2, (p + t) / 2] := by
  unfold codePush
  simp only [Finset.sum_range_succ, Finset.sum_range_zero, zero_add, clu0, clu1, conjTranspose_smul, Matrix.smul_mul, Matrix.mul_smul, smul_smul,
    mul_comm (star ((1 + Complex.I) / 2)) ((1 + Complex.I) / 2), half_norm]
  simp only [ct2, Matrix.mul_fin_two, Matrix.smul_of, Matrix.smul_cons, Matrix.smul_empty, smul_eq_mul, Matrix.of_add_of, Matrix.add_cons,
    Matrix.head_cons, Matrix.tail_cons, Matrix.empty_add_empty, star_zero, star_one, star_neg]
  refine eq2 ?_ ?_ ?_ ?_
  · ring
  · ring
  · ring
  · linear_combination (p + t) / 2 * hz

theorem exTwo_diag : DiagND 2 exTwo (fun _ => 1 / 2) := by
  intro i hi j hj
  have := congrFun (congrFun exTwo_eq ⟨i, hi⟩) ⟨j, hj⟩
  rw [toM_apply, Matrix.smul_apply, Matrix.one_apply] at this
  simp only [Fin.mk.injEq, smul_eq_mul] at this
  rw [this]
  split_ifs <;> simp

theorem exId_diag : DiagND 2 exId (fun _ => 1) := by
  intro i hi j hj
  have := congrFun (congrFun exId_eq ⟨i, hi⟩) ⟨j, hj⟩
  rw [toM_apply, Matrix.one_apply] at this
  simp only [Fin.mk.injEq] at this
  rw [this]
  simp

theorem clu_fixed (hz : z * star z = 1) : FixedPoints 2 2 (exClu z) exId exTwo 1 := by
  refine ⟨rfl, rfl, rfl, one_pos, ?_, ?_, by rw [exId_eq]; exact PosDef.one, ?_⟩
  · rw [exTwo_eq]
    simp only [Finset.sum_range_succ, Finset.sum_range_zero, zero_add, clu0, clu1, conjTranspose_smul, Matrix.smul_mul, Matrix.mul_smul, smul_smul,
      Matrix.mul_one]
    simp only [ct2, one_fin_two, Matrix.mul_fin_two, Matrix.smul_of, Matrix.smul_cons, Matrix.smul_empty, smul_eq_mul, Matrix.of_add_of, Matrix.add_cons,
      Matrix.head_cons, Matrix.tail_cons, Matrix.empty_add_empty, star_zero, star_one, star_neg]
    have hn := half_norm
    refine eq2 ?_ ?_ ?_ ?_
    · push_cast
      linear_combination (1 + z * star z) / 2 * hn + (1 / 4 : ℂ) * hz
    · ring
    · ring
    · push_cast
      linear_combination (1 + z * star z) / 2 * hn + (1 / 4 : ℂ) * hz
  · have := clu_push hz 1 0 0 1
    unfold pushLeft at this
    rw [exId_eq, one_fin_two, this]
    simp only [Matrix.smul_of, Matrix.smul_cons, Matrix.smul_empty, smul_eq_mul]
    refine eq2 ?_ ?_ ?_ ?_ <;> push_cast <;> ring
  · rw [exTwo_eq]
    have : (0 : ℂ) < 1 / 2 := by
      rw [show (1 / 2 : ℂ) = ((1 / 2 : ℝ) : ℂ) by push_cast; ring]
      exact_mod_cast (by norm_num : (0 : ℝ) < 1 / 2)
    exact PosDef.one.smul this

theorem clu_norm : (toM 2 2 exId * toM 2 2 exTwo).trace = 1 := by
  rw [exId_eq, exTwo_eq, Matrix.one_mul, trace_smul, trace_one]
  simp

theorem clu_simple (hz : z * star z = 1) : SimpleLeft 2 2 (exClu z) 1 := by
  have key : ∀ M : Matrix (Fin 2) (Fin 2) ℂ, ∑ s ∈ range 2, (toM3 2 2 (exClu z) s)ᴴ * M * toM3 2 2 (exClu z) s = ((1 : ℝ) : ℂ) • M →
      M = M 0 0 • 1 := by
    intro M hM
    obtain ⟨p, q, r, t, rfl⟩ : ∃ p q r t, M = !![p, q; r, t] := ⟨_, _, _, _, Matrix.eta_fin_two M⟩
    have h := clu_code hz p q r t
    unfold codePush at h
    rw [h, Complex.ofReal_one, one_smul] at hM
    have e00 := congrFun (congrFun hM 0) 0
    have e01 := congrFun (congrFun hM 0) 1
    have e10 := congrFun (congrFun hM 1) 0
    simp at e00 e01 e10
    have h1 : t = p := by linear_combination 2 * e00
    rw [one_fin_two, Matrix.smul_of]
    simp only [Matrix.smul_cons, Matrix.smul_empty, smul_eq_mul, Matrix.of_apply, Matrix.cons_val_zero]
    refine eq2 ?_ ?_ ?_ ?_
    · ring
    · rw [← e01, h1]; ring
    · rw [← e10, h1]; ring
    · rw [h1]; simp
  intro M N hM hN hN0
  have h1 := key M hM
  have h2 := key N hN
  refine ⟨M 0 0 / N 0 0, ?_⟩
  have hn : N 0 0 ≠ 0 := by
    intro e
    rw [e, zero_smul] at h2
    exact hN0 h2
  rw [h1, h2, smul_smul]
  simp [hn]

theorem clu_two (hz : z * star z = 1) (K : Matrix (Fin 2) (Fin 2) ℂ) (n : ℕ) : (pushLeft 2 2 (exClu z))^[n + 2] K = (K.trace / 2) • 1 := by
  have h1 : ∀ K, pushLeft 2 2 (exClu z) (pushLeft 2 2 (exClu z) K) = (K.trace / 2) • 1 := by
    intro K
    obtain ⟨p, q, r, t, rfl⟩ : ∃ p q r t, K = !![p, q; r, t] := ⟨_, _, _, _, Matrix.eta_fin_two K⟩
    rw [clu_push hz, clu_push hz, Matrix.trace_fin_two_of, one_fin_two]
    simp only [Matrix.smul_of, Matrix.smul_cons, Matrix.smul_empty, smul_eq_mul]
    refine eq2 ?_ ?_ ?_ ?_ <;> ring
  have h2 : ∀ c : ℂ, ∀ n, (pushLeft 2 2 (exClu z))^[n] (c • 1) = c • 1 := by
    intro c n
    induction n with
    | zero => rfl
    | succ n ih =>
      rw [Function.iterate_succ_apply', ih, pushLeft_smul]
      have := pushLeft_fixed (clu_fixed hz)
      rw [exId_eq] at this
      rw [this]
  rw [Function.iterate_add_apply, show (pushLeft 2 2 (exClu z))^[2] K = pushLeft 2 2 (exClu z) (pushLeft 2 2 (exClu z) K) from rfl, h1, h2]

theorem clu_mixing (hz : z * star z = 1) : Mixing 2 2 (exClu z) exId exTwo := by
  intro K
  refine tendsto_const_nhds.congr' ?_
  filter_upwards [Filter.eventually_ge_atTop 2] with n hn
  obtain ⟨m, rfl⟩ : ∃ m, n = m + 2 := ⟨n - 2, by omega⟩
  rw [clu_two hz, exId_eq, exTwo_eq, Matrix.mul_smul, Matrix.mul_one, trace_smul, trace_transpose, smul_eq_mul]
  congr 1
  ring

theorem clu_real : RealTransfer 2 2 (exClu 1) := by
  have hn := half_norm
  intro a ha b hb a' ha' b' hb'
  rw [Finset.sum_range_succ, Finset.sum_range_one]
  interval_cases a <;> interval_cases b <;> interval_cases a' <;> interval_cases b' <;> simp [exClu] <;> norm_num

/-- the hypotheses of the theorems on `Lh` and `dA_dt` can be met -/
example : ∃ (chol inv null : ND ℂ → Py (ND ℂ)) (root : (ND ℂ → Py (ND ℂ)) → ℕ → Py (ND ℂ)) (eigs : ND ℂ → Py (ℝ × ND ℂ × ND ℂ)),
    CholTriLaw chol ∧ InvLaw inv ∧ NullLaw null ∧ RootLaw root ∧ FixedPoints 2 2 (exClu 1) exId exTwo 1 ∧
    (toM 2 2 exId * toM 2 2 exTwo).trace = 1 ∧ SimpleLeft 2 2 (exClu 1) 1 ∧ Mixing 2 2 (exClu 1) exId exTwo ∧ eigs (exClu 1) = .ok (1, exId, exTwo) ∧
    RealTransfer 2 2 (exClu 1) ∧ DiagND 2 exId (fun _ => 1) ∧ DiagND 2 exTwo (fun _ => 1 / 2) := by
  obtain ⟨chol, h1⟩ := cholTriLaw_exists
  obtain ⟨inv, h2⟩ := invLaw_exists
  obtain ⟨null, h3⟩ := nullLaw_exists
  obtain ⟨root, h4⟩ := rootLaw_exists
  have hz : (1 : ℂ) * star 1 = 1 := by simp
  exact ⟨chol, inv, null, root, fun _ => .ok (1, exId, exTwo), h1, h2, h3, h4, clu_fixed hz, clu_norm, clu_simple hz, clu_mixing hz, rfl, clu_real,
    exId_diag, exTwo_diag⟩

/-! ### a complex tensor -/

/-- `Z ⊗ Y` -/
noncomputable def exZY : ND ℂ := ⟨[4, 4], fun
  | [0, 1] => -Complex.I
  | [1, 0] => Complex.I
  | [2, 3] => Complex.I
  | [3, 2] => -Complex.I
  | _ => 0⟩

/-- a variation in the left gauge -/
noncomputable def exVar : ND ℂ := ⟨[2, 2, 2], fun
  | [0, 1, 0] => 1
  | _ => 0⟩

theorem clu_ham : hamLeft 2 2 (exClu (-Complex.I)) exId exZY = !![-1, 0; 0, 1] := by
  unfold hamLeft
  have hn : ∀ c : ℂ, c * ((1 + Complex.I) / 2) * ((1 + Complex.I) / 2) = c * (Complex.I / 2) := by
    intro c
    linear_combination (c / 4) * Complex.I_mul_I
  simp only [Finset.sum_range_succ, Finset.sum_range_zero, zero_add, exId_eq, Matrix.mul_one, exZY, zero_mul, one_mul, zero_smul, add_zero]
  simp only [clu0, clu1, Matrix.smul_of, Matrix.smul_cons, Matrix.smul_empty, smul_eq_mul, tr2, map2, Matrix.mul_fin_two, Matrix.of_add_of, Matrix.add_cons,
    Matrix.head_cons, Matrix.tail_cons, Matrix.empty_add_empty]
  refine eq2 ?_ ?_ ?_ ?_ <;> apply Complex.ext <;> simp <;> norm_num

theorem exVar_gauge : LeftGauge 2 2 2 (fun a b => exId.val [a, b]) (exClu z) exVar := by
  rw [gauge_diag exId_diag]
  intro c hc c' hc'
  simp only [Finset.sum_range_succ, Finset.sum_range_zero, zero_add]
  interval_cases c <;> interval_cases c' <;> simp [exVar, exClu]

theorem exVar_pair (Y : Matrix (Fin 2) (Fin 2) ℂ) : ((push2 2 2 (exClu z) exVar Y)ᵀ * toM 2 2 exTwo).trace = (1 + Complex.I) / 4 * Y 0 1 := by
  rw [pair_left exTwo_diag]
  simp [Finset.sum_range_succ, Fin.sum_univ_two, exVar, exClu]
  ring

/-- **C80 fails** for complex tensors: for the cluster state with the bond basis `|0⟩, -i|1⟩`, whose fixed points are diagonal, and `h = Z ⊗ Y`, the
result of `dA_dt` is in the left gauge, but it is not the tangent vector of the time-dependent variational principle. -/
theorem dAdt_not_tdvp (hchol : CholTriLaw chol) (hinv : InvLaw inv) (hnull : NullLaw null) (O : SetOrder)
    {root : (ND ℂ → Py (ND ℂ)) → ℕ → Py (ND ℂ)} (hroot : RootLaw root) (he : eigs (exClu (-Complex.I)) = .ok (1, exId, exTwo)) :
    FixedPoints 2 2 (exClu (-Complex.I)) exId exTwo 1 ∧ Mixing 2 2 (exClu (-Complex.I)) exId exTwo ∧
    ∃ B, dAdt chol inv null O eigs root ⟨exClu (-Complex.I), none, none, none⟩ exZY = .ok B ∧
      LeftGauge 2 2 2 (fun a b => exId.val [a, b]) (exClu (-Complex.I)) B ∧ ¬ InfTangent 2 2 (exClu (-Complex.I)) exId exTwo exZY B := by
  have hI := Complex.I_mul_I
  have hz : (-Complex.I) * star (-Complex.I) = 1 := by simp
  have hf := clu_fixed hz
  refine ⟨hf, clu_mixing hz, ?_⟩
  obtain ⟨K, eK, sK, tK, hK⟩ := Lh_ok (d := 2) (h := exZY) O hroot ⟨exClu (-Complex.I), none, none, none⟩ Nat.two_pos hf clu_norm (clu_simple hz) he rfl
  obtain ⟨B, eB, sB, gB, hB⟩ := dAdt_pair (d := 2) hchol hinv hnull O ⟨exClu (-Complex.I), none, none, none⟩ Nat.two_pos Nat.two_pos hf he rfl exId_diag
    exTwo_diag eK sK
  refine ⟨B, eB, gB, fun hT => ?_⟩
  have hK01 : toM 2 2 K 0 1 = Complex.I := by
    obtain ⟨p, q, s, t, hM⟩ : ∃ p q r t, toM 2 2 K = !![p, q; r, t] := ⟨_, _, _, _, Matrix.eta_fin_two _⟩
    have h0 : (hamLeft 2 2 (exClu (-Complex.I)) exId exZY * toM 2 2 exTwo).trace = 0 := by
      rw [clu_ham, exTwo_eq, Matrix.mul_smul, Matrix.mul_one, trace_smul, Matrix.trace_fin_two_of]
      simp
    have hK' : toM 2 2 K = codePush 2 2 (exClu (-Complex.I)) (toM 2 2 K) + !![-1, 0; 0, 1] := by
      have := hK
      rw [h0, zero_smul, sub_zero, clu_ham] at this
      exact this
    rw [hM, clu_code hz] at hK'
    have e00 := congrFun (congrFun hK' 0) 0
    have e01 := congrFun (congrFun hK' 0) 1
    simp at e00 e01
    rw [hM]
    show q = Complex.I
    linear_combination e01 - Complex.I * e00
  have hlim := hT.limit exVar rfl exVar_gauge (fun i => i + 2) fun _ => le_rfl
  have hg := gauge_push exId_diag (exVar_gauge (z := -Complex.I))
  have hR := hf.right
  rw [Complex.ofReal_one, one_smul] at hR
  have hnil : ∀ n, (pushLeft 2 2 (exClu (-Complex.I)))^[n + 2] (hamLeft 2 2 (exClu (-Complex.I)) exId exZY) = 0 := by
    intro n
    rw [clu_two hz, clu_ham, Matrix.trace_fin_two_of]
    simp
  have hconst : ∀ j, hamOverlap 2 2 (exClu (-Complex.I)) exId exTwo exZY exVar (j + 3 + 2) (j + 3) =
      Complex.I * siteForm 2 2 exId exTwo exVar B - (1 + Complex.I) / 2 * Complex.I := by
    intro j
    rw [show j + 3 + 2 = (j + 2) + 1 + 1 + (0 + 1) by ring, show j + 3 = (j + 2) + 1 by ring,
      hamOverlap_eq (d := 2) rfl rfl hR (pushLeft_fixed hf) hg, hB exVar rfl exVar_gauge]
    rw [hPush_ham, exVar_pair, hK01, add_comm j 2, Finset.sum_range_add, Finset.sum_eq_zero (s := range j), add_zero]
    · simp only [Finset.sum_range_succ, Finset.sum_range_zero, zero_add, exVar_pair, Function.iterate_zero, id, Function.iterate_one, clu_ham, clu_push hz]
      simp
      ring
    · intro n _
      rw [exVar_pair, add_comm 2 n, hnil]
      simp
  have h1 := hlim.comp (Filter.tendsto_add_atTop_nat 3)
  have h2 := tendsto_nhds_unique h1 ((tendsto_const_nhds).congr fun j => (hconst j).symm)
  have h3 : (1 + Complex.I) / 2 * Complex.I = 0 := by linear_combination h2
  have := congrArg Complex.re h3
  simp at this

end IMPS

end Xmps
