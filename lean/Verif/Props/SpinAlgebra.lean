import Verif.Model.SpinOps
import Mathlib.LinearAlgebra.Matrix.Hermitian
import Mathlib.Tactic.NoncommRing
import Mathlib.Tactic.Module

/-!
# C29, C32: spin matrices and `Nsphere`
-/

namespace Xmps.Spin

open Matrix Finset

/-! ### C32 -/

theorem sts_cons (a : ℝ) (v : List ℝ) : sts (a :: v) = [a] :: (sts v).map (a :: ·) := by
  simp only [sts, List.length_cons, List.range'_succ, List.map_cons, List.take_succ_cons, List.take_zero]
  have : List.range' (1 + 1) v.length = (List.range' 1 v.length).map (1 + ·) := by
    rw [List.map_add_range']
  rw [this]
  simp [Function.comp_def, add_comm 1]

theorem cs_cons (a : ℝ) {v : List ℝ} (hv : v ≠ []) : cs (a :: v) = Real.sin a * cs v := by
  match v, hv with
  | b :: v, _ => simp [cs, List.getLast?_cons_cons]

theorem sts_ne {v w : List ℝ} (h : w ∈ sts v) : w ≠ [] := by
  simp only [sts, List.mem_map, List.mem_range'_1] at h
  obtain ⟨b, hb, rfl⟩ := h
  intro e
  have := congrArg List.length e
  rw [List.length_take, List.length_nil] at this
  omega

/-- **C32**: `Nsphere(v)` has one component more than `v` and Euclidean norm 1. -/
theorem nsphere_norm : ∀ v : List ℝ, (nsphere v).length = v.length + 1 ∧ ((nsphere v).map (· ^ 2)).sum = 1
  | [] => by simp [nsphere, sts, ss]
  | a :: v => by
    obtain ⟨h1, h2⟩ := nsphere_norm v
    have e : nsphere (a :: v) = Real.cos a :: (nsphere v).map (Real.sin a * ·) := by
      simp only [nsphere, sts_cons, List.map_cons, List.map_map, List.map_append, List.cons_append]
      rw [show cs [a] = Real.cos a by simp [cs]]
      congr 1
      rw [List.map_congr_left (f := cs ∘ fun x => a :: x) (g := (Real.sin a * ·) ∘ cs) fun w hw => cs_cons a (sts_ne hw)]
      simp [ss]
    refine ⟨by simp [e, h1], ?_⟩
    rw [e]
    simp only [List.map_cons, List.map_map, List.sum_cons]
    have : ((fun x : ℝ => x ^ 2) ∘ fun x => Real.sin a * x) = fun x => Real.sin a ^ 2 * x ^ 2 := by
      funext x; simp [mul_pow]
    rw [this, show ((nsphere v).map fun x => Real.sin a ^ 2 * x ^ 2).sum = Real.sin a ^ 2 * ((nsphere v).map (· ^ 2)).sum from
      List.sum_map_mul_left .., h2]
    have := Real.sin_sq_add_cos_sq a
    linarith

/-- the components are the usual ones -/
example (a b : ℝ) : nsphere [a, b] = [Real.cos a, Real.sin a * Real.cos b, Real.sin a * Real.sin b] := by
  simp [nsphere, sts, cs, ss, List.range'_succ]

/-! ### C29 -/

/-- the matrix elements of the raising operator -/
noncomputable def lad (n i : ℕ) : ℝ := Real.sqrt ((i + 1) * (n - i))

theorem lad_sq {n i : ℕ} (h : i ≤ n) : lad n i * lad n i = (i + 1) * (n - i) := by
  have : (i : ℝ) ≤ n := by exact_mod_cast h
  exact Real.mul_self_sqrt (mul_nonneg (by positivity) (by linarith))

theorem Sp_apply (n : ℕ) (a b : Fin (n + 1)) : Sp n a b = if b.val = a.val + 1 then ((lad n a : ℝ) : ℂ) else 0 := by
  unfold Sp diagUp
  by_cases h : b.val = a.val + 1
  · have hb := b.isLt
    rw [if_pos h, if_pos h, List.getD_eq_getElem?_getD, List.getElem?_map, List.getElem?_range (by omega)]
    simp only [Option.map_some, Option.getD_some, Cp, lad]
    exact congrArg (fun x : ℝ => ((Real.sqrt x : ℝ) : ℂ)) (by ring)
  · rw [if_neg h, if_neg h]

theorem Sm_apply (n : ℕ) (a b : Fin (n + 1)) : Sm n a b = if a.val = b.val + 1 then ((lad n b : ℝ) : ℂ) else 0 := by
  unfold Sm diagDown
  by_cases h : a.val = b.val + 1
  · have ha := a.isLt
    rw [if_pos h, if_pos h, List.getD_eq_getElem?_getD, List.getElem?_map, List.getElem?_range (by omega)]
    simp only [Option.map_some, Option.getD_some, Cm, lad]
    exact congrArg (fun x : ℝ => ((Real.sqrt x : ℝ) : ℂ)) (by ring)
  · rw [if_neg h, if_neg h]

theorem Sz_eq (n : ℕ) : Sz n = diagonal fun a => (n : ℂ) / 2 - (a.val : ℂ) := by
  ext a b
  unfold Sz
  by_cases h : a = b
  · subst h
    rw [if_pos rfl, diagonal_apply_eq]
    push_cast
    ring
  · rw [if_neg h, diagonal_apply_ne _ h]

theorem Sp_mul_Sm (n : ℕ) : Sp n * Sm n = diagonal fun a => ((a.val : ℂ) + 1) * ((n : ℂ) - a.val) := by
  ext a c
  rw [mul_apply]
  simp only [Sp_apply, Sm_apply]
  by_cases h : a = c
  · subst h
    rw [diagonal_apply_eq]
    by_cases ha : a.val + 1 < n + 1
    · rw [Finset.sum_eq_single ⟨a.val + 1, ha⟩]
      · simp only [if_true]
        rw [← Complex.ofReal_mul, lad_sq (by omega)]
        push_cast
        ring
      · intro b _ hb
        have : b.val ≠ a.val + 1 := fun e => hb (Fin.ext e)
        simp [this]
      · simp
    · have han : a.val = n := by omega
      rw [Finset.sum_eq_zero, han]
      · ring
      · intro b _
        have : b.val ≠ a.val + 1 := by omega
        simp [this]
  · rw [diagonal_apply_ne _ h]
    refine Finset.sum_eq_zero fun b _ => ?_
    by_cases h1 : b.val = a.val + 1
    · rw [if_neg (show ¬ b.val = c.val + 1 by intro e; exact h (Fin.ext (by omega))), mul_zero]
    · rw [if_neg h1, zero_mul]

theorem Sm_mul_Sp (n : ℕ) : Sm n * Sp n = diagonal fun a => (a.val : ℂ) * ((n : ℂ) - a.val + 1) := by
  ext a c
  rw [mul_apply]
  simp only [Sp_apply, Sm_apply]
  by_cases h : a = c
  · subst h
    rw [diagonal_apply_eq]
    by_cases ha : a.val = 0
    · rw [Finset.sum_eq_zero, ha]
      · simp
      · intro b _
        have : a.val ≠ b.val + 1 := by omega
        simp [this]
    · obtain ⟨p, hp⟩ := Nat.exists_eq_succ_of_ne_zero ha
      have hlt : p < n + 1 := by omega
      rw [Finset.sum_eq_single ⟨p, hlt⟩]
      · simp only [hp, Nat.succ_eq_add_one, if_true]
        rw [← Complex.ofReal_mul, lad_sq (by omega)]
        push_cast
        ring
      · intro b _ hb
        have : a.val ≠ b.val + 1 := fun e => hb (Fin.ext (by simp; omega))
        simp [this]
      · simp
  · rw [diagonal_apply_ne _ h]
    refine Finset.sum_eq_zero fun b _ => ?_
    by_cases h1 : a.val = b.val + 1
    · rw [if_neg (show ¬ c.val = b.val + 1 by intro e; exact h (Fin.ext (by omega))), mul_zero]
    · rw [if_neg h1, zero_mul]

theorem Sz_Sp (n : ℕ) : Sz n * Sp n - Sp n * Sz n = Sp n := by
  ext a b
  rw [Sz_eq, Matrix.sub_apply, diagonal_mul, mul_diagonal, Sp_apply]
  by_cases h : b.val = a.val + 1
  · simp only [h, if_true]
    push_cast
    ring
  · simp [h]

theorem Sz_Sm (n : ℕ) : Sz n * Sm n - Sm n * Sz n = -Sm n := by
  ext a b
  rw [Sz_eq, Matrix.sub_apply, diagonal_mul, mul_diagonal, Matrix.neg_apply, Sm_apply]
  by_cases h : a.val = b.val + 1
  · simp only [h, if_true]
    push_cast
    ring
  · simp [h]

theorem Sp_Sm (n : ℕ) : Sp n * Sm n - Sm n * Sp n = (2 : ℂ) • Sz n := by
  rw [Sp_mul_Sm, Sm_mul_Sp, Sz_eq]
  ext a b
  by_cases h : a = b
  · subst h
    simp only [Matrix.sub_apply, Matrix.smul_apply, diagonal_apply_eq, smul_eq_mul]
    ring
  · simp [diagonal_apply_ne _ h]

theorem Sp_conjTranspose (n : ℕ) : (Sp n)ᴴ = Sm n := by
  ext a b
  rw [conjTranspose_apply, Sp_apply, Sm_apply]
  by_cases h : a.val = b.val + 1 <;> simp [h]

theorem Sz_conjTranspose (n : ℕ) : (Sz n)ᴴ = Sz n := by
  rw [Sz_eq, diagonal_conjTranspose]
  congr 1
  funext a
  simp

/-- **C29** the matrices are Hermitian -/
theorem spins_hermitian (n : ℕ) : (spins n).1.IsHermitian ∧ (spins n).2.1.IsHermitian ∧ (spins n).2.2.IsHermitian := by
  have hm : (Sm n)ᴴ = Sp n := by rw [← Sp_conjTranspose, conjTranspose_conjTranspose]
  refine ⟨?_, ?_, Sz_conjTranspose n⟩
  · unfold IsHermitian
    simp only [spins, Sx, conjTranspose_smul, conjTranspose_add, Sp_conjTranspose, hm, star_inv₀]
    rw [add_comm (Sm n)]
    simp
  · unfold IsHermitian
    simp only [spins, Sy, conjTranspose_smul, conjTranspose_sub, Sp_conjTranspose, hm, star_inv₀]
    rw [show star (2 * Complex.I) = -(2 * Complex.I) by simp, ← neg_sub (Sp n), smul_neg, inv_neg, neg_smul, neg_neg]

/-- **C29** the commutation relations, for every spin `n/2` -/
theorem spins_comm (n : ℕ) : comm (Sx n) (Sy n) = Complex.I • Sz n ∧ comm (Sy n) (Sz n) = Complex.I • Sx n ∧
    comm (Sz n) (Sx n) = Complex.I • Sy n := by
  have h1 := Sz_Sp n
  have h2 := Sz_Sm n
  have h3 := Sp_Sm n
  have hI : (2 * Complex.I)⁻¹ = -(2 : ℂ)⁻¹ * Complex.I := by
    rw [mul_inv, Complex.inv_I]; ring
  refine ⟨?_, ?_, ?_⟩
  · have : comm (Sx n) (Sy n) = -((2 : ℂ)⁻¹ * (2 * Complex.I)⁻¹) • ((2 : ℂ) • (Sp n * Sm n - Sm n * Sp n)) := by
      simp only [comm, Sx, Sy, smul_mul_assoc, mul_smul_comm, add_mul, mul_add, sub_mul, mul_sub]
      module
    rw [this, h3, hI, smul_smul, smul_smul]
    congr 1
    ring
  · have : comm (Sy n) (Sz n) = -(2 * Complex.I)⁻¹ • ((Sz n * Sp n - Sp n * Sz n) - (Sz n * Sm n - Sm n * Sz n)) := by
      simp only [comm, Sy, smul_mul_assoc, mul_smul_comm, sub_mul, mul_sub]
      module
    rw [this, h1, h2, hI, Sx]
    module
  · have : comm (Sz n) (Sx n) = (2 : ℂ)⁻¹ • ((Sz n * Sp n - Sp n * Sz n) + (Sz n * Sm n - Sm n * Sz n)) := by
      simp only [comm, Sx, smul_mul_assoc, mul_smul_comm, add_mul, mul_add]
      module
    rw [this, h1, h2, Sy, smul_smul, hI]
    rw [show Complex.I * (-(2 : ℂ)⁻¹ * Complex.I) = (2 : ℂ)⁻¹ by
      rw [show Complex.I * (-(2 : ℂ)⁻¹ * Complex.I) = -(2 : ℂ)⁻¹ * (Complex.I * Complex.I) by ring, Complex.I_mul_I]; ring]
    module

/-- **C29** the Casimir operator -/
theorem spins_casimir (n : ℕ) : Sx n * Sx n + Sy n * Sy n + Sz n * Sz n = ((n : ℂ) / 2 * ((n : ℂ) / 2 + 1)) • (1 : Matrix _ _ ℂ) := by
  have hI : (2 * Complex.I)⁻¹ * (2 * Complex.I)⁻¹ = -(4 : ℂ)⁻¹ := by
    rw [← mul_inv, show (2 * Complex.I) * (2 * Complex.I) = 4 * (Complex.I * Complex.I) by ring, Complex.I_mul_I]
    norm_num
  have h1 : Sx n * Sx n + Sy n * Sy n = (2 : ℂ)⁻¹ • (Sp n * Sm n + Sm n * Sp n) := by
    have e1 : Sx n * Sx n = ((2 : ℂ)⁻¹ * (2 : ℂ)⁻¹) • ((Sp n + Sm n) * (Sp n + Sm n)) := by
      rw [Sx, smul_mul_assoc, mul_smul_comm, smul_smul]
    have e2 : Sy n * Sy n = ((2 * Complex.I)⁻¹ * (2 * Complex.I)⁻¹) • ((Sp n - Sm n) * (Sp n - Sm n)) := by
      rw [Sy, smul_mul_assoc, mul_smul_comm, smul_smul]
    rw [e1, e2, hI]
    simp only [add_mul, mul_add, sub_mul, mul_sub]
    module
  rw [h1, Sp_mul_Sm, Sm_mul_Sp, Sz_eq, diagonal_mul_diagonal, diagonal_add, ← diagonal_smul, diagonal_add, ← diagonal_one, ← diagonal_smul]
  congr 1
  funext a
  simp only [Pi.smul_apply, smul_eq_mul]
  ring

/-- the Pauli matrices, whatever the argument -/
theorem paulis_eq (S : ℕ) : paulis S = (!![0, 1; 1, 0], !![0, -Complex.I; Complex.I, 0], !![1, 0; 0, -1]) := by
  have hl : lad 1 0 = 1 := by simp [lad]
  refine Prod.ext ?_ (Prod.ext ?_ ?_)
  · ext a b
    fin_cases a <;> fin_cases b <;> simp [paulis, spins, Sx, Sp_apply, Sm_apply, hl]
  · ext a b
    fin_cases a <;> fin_cases b <;> simp [paulis, spins, Sy, Sp_apply, Sm_apply, hl] <;> ring
  · ext a b
    fin_cases a <;> fin_cases b <;> norm_num [paulis, spins, Sz]

/-- `ladders` returns lowering then raising operator; they are `Sm`, `Sp` of `spins` where tabulated. -/
theorem ladders_eq : ladders 1 = [some (Sm 1), some (Sp 1)] ∧ ladders 2 = [some (Sm 2), some (Sp 2)] ∧
    ladders 3 = [some (Sm 3), some (Sp 3)] := by
  have h10 : lad 1 0 = 1 := by simp [lad]
  have h20 : lad 2 0 = Real.sqrt 2 := by simp [lad]
  have h21 : lad 2 1 = Real.sqrt 2 := by norm_num [lad]
  have h30 : lad 3 0 = Real.sqrt 3 := by simp [lad]
  have h31 : lad 3 1 = 2 := by
    rw [lad, show (((1 : ℕ) : ℝ) + 1) * (((3 : ℕ) : ℝ) - (1 : ℕ)) = 2 * 2 by norm_num]; exact Real.sqrt_mul_self (by norm_num)
  have h32 : lad 3 2 = Real.sqrt 3 := by norm_num [lad]
  have hL1 : ladderDown 1 = some (Sm 1) :=
    congrArg some (by ext a b; fin_cases a <;> fin_cases b <;> simp [Sm_apply, h10])
  have hU1 : ladderUp 1 = some (Sp 1) :=
    congrArg some (by ext a b; fin_cases a <;> fin_cases b <;> simp [Sp_apply, h10])
  have hL2 : ladderDown 2 = some (Sm 2) :=
    congrArg some (by ext a b; fin_cases a <;> fin_cases b <;> simp [Sm_apply, h20, h21])
  have hU2 : ladderUp 2 = some (Sp 2) :=
    congrArg some (by ext a b; fin_cases a <;> fin_cases b <;> simp [Sp_apply, h20, h21])
  have hL3 : ladderDown 3 = some (Sm 3) :=
    congrArg some (by ext a b; fin_cases a <;> fin_cases b <;> simp [Sm_apply, h30, h31, h32])
  have hU3 : ladderUp 3 = some (Sp 3) :=
    congrArg some (by ext a b; fin_cases a <;> fin_cases b <;> simp [Sp_apply, h30, h31, h32])
  simp only [ladders, hL1, hU1, hL2, hU2, hL3, hU3, and_self]

/-- A caller that unpacks `sp, sm = ladders(1/2)` (as `antiferro`, `ferro` do) gets them exchanged. -/
theorem ladders_order : (ladders 1)[0]? = some (some (Sm 1)) ∧ Sm 1 ≠ Sp 1 := by
  refine ⟨by rw [ladders_eq.1]; rfl, fun h => ?_⟩
  have := congrFun (congrFun h 0) 1
  simp [Sm_apply, Sp_apply, lad] at this

end Xmps.Spin
