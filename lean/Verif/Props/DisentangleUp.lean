import Verif.Props.DisentangleLoop
import Mathlib.Tactic.IntervalCases

/-!
# C127: a round of `renyi_2_disentangler` can raise the entropy

The derivative of `tr ρ²` with respect to the gate is `E2`, and the gate that maximises `Re tr(U E2)` is the adjoint of the polar factor of `E2`; the code
takes the polar factor itself.  The witness is a state for which all matrices involved are diagonal.
-/

namespace Xmps.Disent

open Finset Xmps.Spec Xmps.Ncon

/-- the polar factor of a multiple of a unitary matrix -/
theorem polar_of_unitary {polar : ND ℂ → Py (ND ℂ × ND ℂ)} (hp : PolarLaw polar) {S : ND ℂ} {n : ℕ} (hS : S.shape = [n, n]) (hn : 0 < n) {N : ℝ} (hN : 0 < N)
    (h : ∀ i < n, ∀ j < n, ∑ k ∈ range n, star (S.val [k, i]) * S.val [k, j] = if i = j then ((N ^ 2 : ℝ) : ℂ) else 0) :
    ∃ U P, polar S = .ok (U, P) ∧ U.shape = [n, n] ∧ ∀ i < n, ∀ j < n, U.val [i, j] = S.val [i, j] / N := by
  obtain ⟨U, P, e, sU, sP, c, r, pp, hs⟩ := hp S n hS hn
  simp only [ColsOrtho, ND.dim, sU, List.getD_cons_zero, List.getD_cons_succ] at c
  have hN0 : (N : ℂ) ≠ 0 := by exact_mod_cast hN.ne'
  -- `P² = N²`
  have hPP : ∀ i < n, ∀ j < n, ∑ k ∈ range n, P.val [i, k] * P.val [k, j] = if i = j then ((N ^ 2 : ℝ) : ℂ) else 0 := by
    intro i hi j hj
    rw [← h i hi j hj]
    have e1 : ∑ k ∈ range n, star (S.val [k, i]) * S.val [k, j] =
        ∑ a ∈ range n, ∑ b ∈ range n, star (P.val [a, i]) * P.val [b, j] * ∑ k ∈ range n, star (U.val [k, a]) * U.val [k, b] := by
      simp only [mul_sum]
      rw [sum_congr rfl fun k hk => by rw [hs k (mem_range.1 hk) i hi, hs k (mem_range.1 hk) j hj, star_sum, sum_mul_sum], sum_comm]
      refine sum_congr rfl fun a _ => ?_
      rw [sum_comm]
      refine sum_congr rfl fun b _ => sum_congr rfl fun k _ => ?_
      rw [star_mul']
      ring
    rw [e1]
    refine sum_congr rfl fun a ha => ?_
    rw [sum_eq_single_of_mem a ha]
    · rw [c a (mem_range.1 ha) a (mem_range.1 ha), if_pos rfl, mul_one, ← pp.1 a (mem_range.1 ha) i hi]
    · intro b hb hne
      rw [c a (mem_range.1 ha) b (mem_range.1 hb), if_neg (Ne.symm hne), mul_zero]
  -- `P = N`
  have hP : ∀ i < n, ∀ j < n, P.val [i, j] = if i = j then (N : ℂ) else 0 := by
    intro i hi j hj
    set x : ℕ → ℂ := fun k => P.val [k, j] - if k = j then (N : ℂ) else 0 with hx
    have hPx : ∀ k < n, ∑ l ∈ range n, P.val [k, l] * x l = -(N : ℂ) * x k := by
      intro k hk
      have : ∑ l ∈ range n, P.val [k, l] * x l = (∑ l ∈ range n, P.val [k, l] * P.val [l, j]) - P.val [k, j] * N := by
        simp only [hx, mul_sub, sum_sub_distrib, mul_ite, mul_zero, sum_ite_eq', mem_range, hj, if_true]
      rw [this, hPP k hk j hj, hx]
      by_cases hkj : k = j
      · simp only [hkj, if_true]
        push_cast
        ring
      · simp only [hkj, if_false]
        ring
    have h0 := pp.2 x
    have e2 : ∑ k ∈ range n, ∑ l ∈ range n, star (x k) * P.val [k, l] * x l = ((-(N * ∑ k ∈ range n, ‖x k‖ ^ 2) : ℝ) : ℂ) := by
      rw [sum_congr rfl fun k hk => by
        rw [sum_congr rfl fun l _ => mul_assoc _ _ _, ← mul_sum, hPx k (mem_range.1 hk)]]
      push_cast
      rw [mul_sum, ← sum_neg_distrib]
      refine sum_congr rfl fun k _ => ?_
      have : star (x k) * x k = ((‖x k‖ ^ 2 : ℝ) : ℂ) := by
        rw [Complex.star_def, ← Complex.normSq_eq_conj_mul_self, Complex.normSq_eq_norm_sq]
      push_cast at this
      linear_combination (-(N : ℂ)) * this
    rw [e2, Complex.ofReal_re] at h0
    have h1 : ∑ k ∈ range n, ‖x k‖ ^ 2 = 0 := le_antisymm (by nlinarith) (sum_nonneg fun _ _ => sq_nonneg _)
    have h2 := (sum_eq_zero_iff_of_nonneg (fun _ _ => sq_nonneg _)).1 h1 i (mem_range.2 hi)
    have h3 : x i = 0 := norm_eq_zero.1 (by simpa using h2)
    exact sub_eq_zero.1 h3
  refine ⟨U, P, e, sU, fun i hi j hj => ?_⟩
  rw [hs i hi j hj, sum_congr rfl fun k hk => by rw [hP k (mem_range.1 hk) j hj]]
  simp [hj, hN0]

/-! ### diagonal gates on two sites of two levels -/

/-- a state whose two bonds copy the two legs -/
def psiT (t : ℕ → ℂ) : ND ℂ := ⟨[2, 2, 2, 2], fun idx => if idx.getD 0 0 = idx.getD 2 0 ∧ idx.getD 1 0 = idx.getD 3 0 then t (2 * idx.getD 0 0 + idx.getD 1 0) else 0⟩

/-- the matrix is diagonal -/
structure Diag4 (U : ND ℂ) (f : ℕ → ℂ) : Prop where
  shape : U.shape = [2 * 2, 2 * 2]
  val : ∀ i < 4, ∀ j < 4, U.val [i, j] = if i = j then f i else 0

variable {U : ND ℂ} {f t : ℕ → ℂ}

theorem diag_gated (hU : Diag4 U f) {a b l r : ℕ} (ha : a < 2) (hb : b < 2) :
    gated 2 2 (split4 2 2 U) (psiT t) a b l r = if a = l ∧ b = r then f (2 * a + b) * t (2 * a + b) else 0 := by
  have hv : ∀ i ∈ range 2, ∀ j ∈ range 2, (split4 2 2 U).val [a, b, i, j] * (psiT t).val [i, j, l, r] =
      if a = i then (if b = j then f (2 * a + b) * (if a = l ∧ b = r then t (2 * a + b) else 0) else 0) else 0 := by
    intro i hi j hj
    rw [mem_range] at hi hj
    rw [split4_val hU.shape ha hb hi hj, hU.val _ (by omega) _ (by omega)]
    by_cases h1 : a = i
    · by_cases h2 : b = j
      · subst h1 h2
        simp [psiT, mul_comm a 2]
      · rw [if_neg (by omega), zero_mul, if_pos h1, if_neg h2]
    · rw [if_neg (by omega), zero_mul, if_neg h1]
  unfold gated
  rw [sum_congr rfl fun i hi => sum_congr rfl fun j hj => hv i hi j hj]
  simp [ha, hb]

/-- the diagonal of `E2` -/
def eD (f t : ℕ → ℂ) (i j : ℕ) : ℂ := star (f (2 * i + j)) * (f (2 * i + j) * t (2 * i + j)) * ∑ a ∈ range 2, star (f (2 * a + j) * t (2 * a + j)) *
  ∑ b ∈ range 2, (f (2 * a + b) * t (2 * a + b)) * star (f (2 * i + b) * t (2 * i + b))

theorem diag_rho (hU : Diag4 U f) {a l a' l' : ℕ} (ha : a < 2) (ha' : a' < 2) :
    rhoL 2 2 (gated 2 2 (split4 2 2 U) (psiT t)) a l a' l' = if a = l ∧ a' = l' then
      ∑ b ∈ range 2, (f (2 * a + b) * t (2 * a + b)) * star (f (2 * a' + b) * t (2 * a' + b)) else 0 := by
  unfold rhoL
  have : ∀ b ∈ range 2, ∀ r ∈ range 2, gated 2 2 (split4 2 2 U) (psiT t) a b l r * star (gated 2 2 (split4 2 2 U) (psiT t) a' b l' r) =
      if b = r then (if a = l ∧ a' = l' then (f (2 * a + b) * t (2 * a + b)) * star (f (2 * a' + b) * t (2 * a' + b)) else 0) else 0 := by
    intro b hb r _
    rw [mem_range] at hb
    rw [diag_gated hU ha hb, diag_gated hU ha' hb]
    by_cases h1 : a = l <;> by_cases h2 : a' = l' <;> by_cases h3 : b = r <;> simp [h1, h2, h3]
  rw [sum_congr rfl fun b hb => sum_congr rfl fun r hr => this b hb r hr]
  by_cases h : a = l ∧ a' = l'
  · simp only [h, if_true, and_self]
    refine sum_congr rfl fun b hb => ?_
    rw [sum_ite_eq, if_pos hb]
  · simp [h]

theorem diag_E2 (O : SetOrder) (hU : Diag4 U f) : ∃ E, E2 O (split4 2 2 U) (psiT t) = .ok E ∧ E.shape = [2, 2, 2, 2] ∧
    ∀ i < 2, ∀ j < 2, ∀ p < 2, ∀ q < 2, E.val [i, j, p, q] = if i = p ∧ j = q then eD f t i j else 0 := by
  obtain ⟨E, e1, hE, vE⟩ := E2_ok (U := split4 2 2 U) (θ := psiT t) (d1 := 2) (d2 := 2) (Xl := 2) (Xr := 2) O rfl rfl
  refine ⟨E, e1, hE, fun i hi j hj p hp q hq => ?_⟩
  rw [vE]
  have hr : ∀ b < 2, ∀ a < 2, ∀ a' < 2, ∀ l l', ∑ r ∈ range 2, gated 2 2 (split4 2 2 U) (psiT t) a b l r * star (gated 2 2 (split4 2 2 U) (psiT t) a' q l' r) =
      if a = l ∧ a' = l' ∧ b = q then (f (2 * a + b) * t (2 * a + b)) * star (f (2 * a' + q) * t (2 * a' + q)) else 0 := by
    intro b hb a ha a' ha' l l'
    simp only [diag_gated hU ha hb, diag_gated hU ha' hq, sum_range_succ, sum_range_zero, zero_add]
    by_cases h1 : a = l <;> by_cases h2 : a' = l' <;> by_cases h3 : b = q
    all_goals simp [h1, h2, h3]
    all_goals interval_cases b <;> interval_cases q <;> simp_all
  have hin : ∀ a ∈ range 2, ∀ b ∈ range 2, star ((split4 2 2 U).val [a, b, i, j]) * ∑ l ∈ range 2, ∑ a' ∈ range 2, ∑ l' ∈ range 2,
      (∑ r ∈ range 2, gated 2 2 (split4 2 2 U) (psiT t) a b l r * star (gated 2 2 (split4 2 2 U) (psiT t) a' q l' r)) *
        rhoL 2 2 (gated 2 2 (split4 2 2 U) (psiT t)) a' l' p l =
      if a = i then (if b = j then (if i = p ∧ j = q then eD f t i j else 0) else 0) else 0 := by
    intro a ha b hb
    rw [mem_range] at ha hb
    rw [split4_val hU.shape ha hb hi hj, hU.val _ (by omega) _ (by omega)]
    by_cases h1 : a = i
    · by_cases h2 : b = j
      · subst h1 h2
        rw [if_pos rfl, if_pos rfl, if_pos rfl]
        have : ∀ l ∈ range 2, ∀ a' ∈ range 2, ∀ l' ∈ range 2,
            (∑ r ∈ range 2, gated 2 2 (split4 2 2 U) (psiT t) a b l r * star (gated 2 2 (split4 2 2 U) (psiT t) a' q l' r)) *
              rhoL 2 2 (gated 2 2 (split4 2 2 U) (psiT t)) a' l' p l =
            if a = l then (if a' = l' then (if a = p ∧ b = q then (f (2 * a + b) * t (2 * a + b)) * (star (f (2 * a' + b) * t (2 * a' + b)) *
              ∑ c ∈ range 2, (f (2 * a' + c) * t (2 * a' + c)) * star (f (2 * a + c) * t (2 * a + c))) else 0) else 0) else 0 := by
          intro l _ a' ha' l' _
          rw [mem_range] at ha'
          rw [hr b hb a ha a' ha', diag_rho hU ha' hp]
          by_cases k1 : a = l
          · by_cases k2 : a' = l'
            · by_cases k3 : b = q
              · by_cases k4 : a = p
                · subst k1 k2 k3 k4
                  simp [mul_assoc]
                · have : ¬ p = l := fun h => k4 (k1.trans h.symm)
                  simp [k2, k4, this]
              · simp [k3]
            · simp [k2]
          · simp [k1]
        rw [sum_congr rfl fun l hl => sum_congr rfl fun a' ha' => sum_congr rfl fun l' hl' => this l hl a' ha' l' hl']
        by_cases k : a = p ∧ b = q
        · obtain ⟨rfl, rfl⟩ := k
          simp only [and_self, if_true]
          rw [sum_eq_single a (fun l _ h => by simp [Ne.symm h]) (fun h => absurd (mem_range.2 ha) h)]
          simp only [if_true, eD]
          rw [mul_assoc (star _), show a * 2 + b = 2 * a + b by ring]
          congr 1
          rw [mul_sum]
          refine Finset.sum_congr rfl fun a' ha' => ?_
          rw [sum_ite_eq, if_pos ha']
        · simp [k]
      · rw [if_neg (by omega), star_zero, zero_mul, if_pos h1, if_neg h2]
    · rw [if_neg (by omega), star_zero, zero_mul, if_neg h1]
  rw [sum_congr rfl fun a ha => sum_congr rfl fun b hb => hin a ha b hb]
  simp [hi, hj]

theorem diag_polar (O : SetOrder) {polar : ND ℂ → Py (ND ℂ × ND ℂ)} (hp : PolarLaw polar) (hU : Diag4 U f) {N : ℝ} (hN : 0 < N)
    (hE : ∀ i < 2, ∀ j < 2, ‖eD f t i j‖ = N) {f' : ℕ → ℂ} (hf : ∀ i < 2, ∀ j < 2, f' (2 * i + j) = eD f t i j / N) :
    ∃ U', polarStep O polar (psiT t) U = .ok U' ∧ Diag4 U' f' := by
  obtain ⟨E, e1, sE, vE⟩ := diag_E2 (t := t) O hU
  have hv : ∀ k < 4, ∀ k' < 4, (E.reshapeR [2 * 2, 2 * 2]).val [k, k'] = if k = k' then eD f t (k / 2) (k % 2) else 0 := by
    intro k hk k' hk'
    rw [ND.reshapeR_val (idx := [k / 2, k % 2, k' / 2, k' % 2]) (by rw [sE]; exact ⟨by omega, by omega, by omega, by omega, trivial⟩) (by
      rw [sE]; simp only [ravel_cons, ravel_nil, List.prod_cons, List.prod_nil]; omega),
      vE _ (by omega) _ (by omega) _ (by omega) _ (by omega)]
    by_cases h : k = k'
    · simp [h]
    · rw [if_neg (by omega), if_neg h]
  obtain ⟨U', P, e2, sU, vU⟩ := polar_of_unitary hp (S := E.reshapeR [2 * 2, 2 * 2]) (n := 2 * 2) rfl (by norm_num) hN (by
    intro i hi j hj
    rw [sum_congr rfl fun k hk => by rw [hv k (mem_range.1 hk) i hi, hv k (mem_range.1 hk) j hj]]
    rw [sum_eq_single i (fun k _ h => by simp [h]) (fun h => absurd (mem_range.2 hi) h)]
    by_cases h : i = j
    · subst h
      rw [if_pos rfl, if_pos rfl, Complex.star_def, ← Complex.normSq_eq_conj_mul_self, Complex.normSq_eq_norm_sq, hE _ (by omega) _ (by omega)]
    · simp [h])
  refine ⟨U', ?_, sU, ?_⟩
  · unfold polarStep
    show (do
      let U4 ← U.reshape [2, 2, 2, 2]
      let E ← E2 O U4 (psiT t)
      let E' ← E.reshape [2 * 2, 2 * 2]
      let (Unew, _) ← polar E'
      Except.ok Unew) = _
    rw [split4_ok hU.shape, ok_bind, e1, ok_bind, ND.reshape_ok (by rw [sE]; rfl), ok_bind, e2]
    rfl
  · intro i hi j hj
    rw [vU i hi j hj, hv i hi j hj]
    by_cases h : i = j
    · subst h
      rw [if_pos rfl, if_pos rfl, ← hf _ (by omega) _ (by omega)]
      congr 1
      omega
    · simp [h]

theorem diag_trSq (hU : Diag4 U f) : trSq 2 2 2 2 (gated 2 2 (split4 2 2 U) (psiT t)) = ∑ a ∈ range 2, ∑ a' ∈ range 2,
    ‖∑ b ∈ range 2, (f (2 * a + b) * t (2 * a + b)) * star (f (2 * a' + b) * t (2 * a' + b))‖ ^ 2 := by
  unfold trSq
  refine Finset.sum_congr rfl fun a ha => ?_
  rw [sum_eq_single_of_mem a ha]
  · refine Finset.sum_congr rfl fun a' ha' => ?_
    rw [sum_eq_single_of_mem a' ha']
    · rw [diag_rho hU (mem_range.1 ha) (mem_range.1 ha'), if_pos ⟨rfl, rfl⟩]
    · intro l' _ h
      rw [diag_rho hU (mem_range.1 ha) (mem_range.1 ha'), if_neg (fun k => h k.2.symm)]
      simp
  · intro l _ h
    refine sum_eq_zero fun a' ha' => sum_eq_zero fun l' _ => ?_
    rw [diag_rho hU (mem_range.1 ha) (mem_range.1 ha'), if_neg (fun k => h k.1.symm)]
    simp

/-! ### the witness -/

/-- the phase of the state -/
noncomputable def zW : ℂ := ⟨4 / 5, 3 / 5⟩

/-- the amplitudes 1/2, 1/2, 1/2, z/2 -/
noncomputable def tW (k : ℕ) : ℂ := if k = 3 then zW / 2 else 1 / 2

/-- the diagonal of the gates that occur -/
noncomputable def fW (p : ℂ) (k : ℕ) : ℂ := if k = 0 ∨ k = 3 then p else star p

/-- the gates that occur: the phase `y = p⁴ z` is in the first quadrant -/
structure Good (U : ND ℂ) (p : ℂ) : Prop where
  diag : Diag4 U (fW p)
  unit : star p * p = 1
  re : 0 ≤ (p ^ 4 * zW).re
  im : 0 ≤ (p ^ 4 * zW).im

theorem zW_unit : star zW * zW = 1 := by
  apply Complex.ext <;> simp [zW] <;> norm_num

theorem good_entropy {U : ND ℂ} {p : ℂ} (h : Good U p) :
    trSq 2 2 2 2 (gated 2 2 (split4 2 2 U) (psiT tW)) = (3 + (p ^ 4 * zW).re) / 4 := by
  rw [diag_trSq h.diag]
  have hp0 : p ≠ 0 := by rintro rfl; simpa using h.unit
  have hz0 : zW ≠ 0 := by intro h; simpa [h] using zW_unit
  have sp : star p = p⁻¹ := eq_inv_of_mul_eq_one_left h.unit
  have sz : star zW = zW⁻¹ := eq_inv_of_mul_eq_one_left zW_unit
  have nn : ∀ x : ℂ, ((‖x‖ ^ 2 : ℝ) : ℂ) = x * star x := by
    intro x
    rw [Complex.star_def, Complex.mul_conj, Complex.normSq_eq_norm_sq]
  have hre : (((3 + (p ^ 4 * zW).re) / 4 : ℝ) : ℂ) = (3 + (p ^ 4 * zW + star (p ^ 4 * zW)) / 2) / 4 := by
    have := Complex.add_conj (p ^ 4 * zW)
    rw [Complex.star_def, this]
    push_cast
    ring
  have sp' : star p⁻¹ = p := by rw [← sp, star_star]
  apply Complex.ofReal_injective
  rw [hre]
  simp only [sum_range_succ, sum_range_zero, zero_add, Complex.ofReal_add, nn, fW, tW]
  norm_num
  simp only [← Complex.star_def, star_add, star_mul', star_pow, star_div₀, sp, sp', sz, star_inv₀, inv_inv, star_ofNat]
  field_simp
  ring

/-- One polar step keeps the form of the gate, and the phase moves beyond that of the state. -/
theorem good_step (O : SetOrder) {polar : ND ℂ → Py (ND ℂ × ND ℂ)} (hp : PolarLaw polar) {U : ND ℂ} {p : ℂ} (h : Good U p) :
    ∃ U' p', polarStep O polar (psiT tW) U = .ok U' ∧ Good U' p' ∧ (p' ^ 4 * zW).re < 4 / 5 := by
  obtain ⟨y, hy⟩ : ∃ y, y = p ^ 4 * zW := ⟨_, rfl⟩
  have hp0 : p ≠ 0 := by rintro rfl; simpa using h.unit
  have hz0 : zW ≠ 0 := by intro h; simpa [h] using zW_unit
  have sp : star p = p⁻¹ := eq_inv_of_mul_eq_one_left h.unit
  have sp' : star p⁻¹ = p := by rw [← sp, star_star]
  have sz : star zW = zW⁻¹ := eq_inv_of_mul_eq_one_left zW_unit
  have hr : 0 ≤ y.re := hy ▸ h.re
  have hi : 0 ≤ y.im := hy ▸ h.im
  have sy : star y = y⁻¹ := by rw [hy, star_mul', star_pow, sp, sz, mul_inv, inv_pow]
  have hy0 : y ≠ 0 := by rw [hy]; exact mul_ne_zero (pow_ne_zero _ hp0) hz0
  have hyy : star y * y = 1 := by rw [sy, inv_mul_cancel₀ hy0]
  have hcs : y.re ^ 2 + y.im ^ 2 = 1 := by
    have := congrArg Complex.re hyy
    simp at this
    nlinarith
  have h3 : (3 : ℂ) + y ≠ 0 := by
    intro h0
    have := congrArg Complex.re h0
    simp at this
    linarith
  set M : ℝ := ‖3 + y‖ with hM
  have hMpos : 0 < M := norm_pos_iff.2 h3
  have hM2 : M ^ 2 = 10 + 6 * y.re := by
    rw [hM, ← Complex.normSq_eq_norm_sq, Complex.normSq_apply]
    simp
    nlinarith
  have hM0 : (M : ℂ) ≠ 0 := by exact_mod_cast hMpos.ne'
  have e00 : eD (fW p) tW 0 0 = star p * (3 + y) / 16 := by
    simp only [eD, sum_range_succ, sum_range_zero, zero_add, fW, tW]
    norm_num
    simp only [← Complex.star_def, star_add, star_mul', star_pow, star_div₀, sp, sp', sz, star_inv₀, inv_inv, star_ofNat, hy]
    field_simp
    ring
  have e01 : eD (fW p) tW 0 1 = p * (3 + star y) / 16 := by
    simp only [eD, sum_range_succ, sum_range_zero, zero_add, fW, tW]
    norm_num
    simp only [← Complex.star_def, star_add, star_mul', star_pow, star_div₀, sp, sp', sz, star_inv₀, inv_inv, star_ofNat, hy]
    field_simp
    ring
  have e10 : eD (fW p) tW 1 0 = p * (3 + star y) / 16 := by
    simp only [eD, sum_range_succ, sum_range_zero, zero_add, fW, tW]
    norm_num
    simp only [← Complex.star_def, star_add, star_mul', star_pow, star_div₀, sp, sp', sz, star_inv₀, inv_inv, star_ofNat, hy]
    field_simp
    ring
  have e11 : eD (fW p) tW 1 1 = star p * (3 + y) / 16 := by
    simp only [eD, sum_range_succ, sum_range_zero, zero_add, fW, tW]
    norm_num
    simp only [← Complex.star_def, star_add, star_mul', star_pow, star_div₀, sp, sp', sz, star_inv₀, inv_inv, star_ofNat, hy]
    field_simp
    ring
  have np : ‖p‖ = 1 := by
    have := congrArg norm h.unit
    rw [norm_mul, norm_star, norm_one] at this
    nlinarith [norm_nonneg p]
  have n3 : ‖3 + star y‖ = M := by
    rw [hM, ← norm_star (3 + y), star_add, star_ofNat]
  set p' : ℂ := star p * (3 + y) / M with hp'
  have sp2 : star p' = p * (3 + star y) / M := by
    rw [hp', star_div₀, star_mul', star_star, star_add, star_ofNat, show star (M : ℂ) = M from Complex.conj_ofReal M]
  obtain ⟨U', eU, dU⟩ := diag_polar O hp (t := tW) h.diag (N := M / 16) (by positivity) (f' := fW p') (by
    intro i hi j hj
    interval_cases i <;> interval_cases j
    · rw [e00, norm_div, norm_mul, norm_star, np, one_mul, ← hM]; norm_num
    · rw [e01, norm_div, norm_mul, np, one_mul, n3]; norm_num
    · rw [e10, norm_div, norm_mul, np, one_mul, n3]; norm_num
    · rw [e11, norm_div, norm_mul, norm_star, np, one_mul, ← hM]; norm_num) (by
    intro i hi j hj
    push_cast
    interval_cases i <;> interval_cases j
    · rw [e00]; simp only [fW]; norm_num [hp']; field_simp
    · rw [e01]; simp only [fW]; norm_num; rw [← Complex.star_def, sp2]; field_simp
    · rw [e10]; simp only [fW]; norm_num; rw [← Complex.star_def, sp2]; field_simp
    · rw [e11]; simp only [fW]; norm_num [hp']; field_simp)
  have hM2c : (M : ℂ) ^ 2 = (3 + star y) * (3 + y) := by
    rw [hM, ← Complex.ofReal_pow, ← Complex.normSq_eq_norm_sq, Complex.normSq_eq_conj_mul_self, ← Complex.star_def, star_add, star_ofNat]
  have hunit : star p' * p' = 1 := by
    rw [sp2, hp']
    have : p * star p = 1 := by rw [mul_comm]; exact h.unit
    field_simp
    linear_combination (3 + star y) * (3 + y) * this - hM2c
  -- the new phase
  have hnew : p' ^ 4 * zW = zW ^ 2 * (81 * star y + 108 + 54 * y + 12 * y ^ 2 + y ^ 3) / ((M ^ 4 : ℝ) : ℂ) := by
    rw [hp']
    push_cast
    rw [div_pow, div_mul_eq_mul_div]
    congr 1
    rw [mul_pow, sp, sy]
    have : (p⁻¹) ^ 4 * zW = zW ^ 2 * y⁻¹ := by
      rw [hy]
      field_simp
    calc (p⁻¹) ^ 4 * (3 + y) ^ 4 * zW = ((p⁻¹) ^ 4 * zW) * (3 + y) ^ 4 := by ring
      _ = _ := by
        rw [this]
        field_simp
        ring
  have hM4 : M ^ 4 = (10 + 6 * y.re) ^ 2 := by rw [← hM2]; ring
  have hM4pos : 0 < M ^ 4 := by positivity
  set c := y.re with hc
  set s := y.im with hs
  have hre : (p' ^ 4 * zW).re = (7 * (4 * c ^ 3 + 24 * c ^ 2 + 132 * c + 96) - 24 * (4 * s * ((c + 7) * (c - 1)))) / (25 * M ^ 4) := by
    rw [hnew, Complex.div_ofReal_re]
    have : (zW ^ 2 * (81 * star y + 108 + 54 * y + 12 * y ^ 2 + y ^ 3)).re =
        (7 * (4 * c ^ 3 + 24 * c ^ 2 + 132 * c + 96) - 24 * (4 * s * ((c + 7) * (c - 1)))) / 25 := by
      simp [pow_succ, zW, ← hc, ← hs]
      linear_combination (24 / 25 * s - 84 / 25 - 21 / 25 * c) * hcs
    rw [this]
    field_simp
  have him : (p' ^ 4 * zW).im = (24 * (4 * c ^ 3 + 24 * c ^ 2 + 132 * c + 96) + 7 * (4 * s * ((c + 7) * (c - 1)))) / (25 * M ^ 4) := by
    rw [hnew, Complex.div_ofReal_im]
    have : (zW ^ 2 * (81 * star y + 108 + 54 * y + 12 * y ^ 2 + y ^ 3)).im =
        (24 * (4 * c ^ 3 + 24 * c ^ 2 + 132 * c + 96) + 7 * (4 * s * ((c + 7) * (c - 1)))) / 25 := by
      simp [pow_succ, zW, ← hc, ← hs]
      linear_combination (-7 / 25 * s - 288 / 25 - 72 / 25 * c) * hcs
    rw [this]
    field_simp
  have hc1 : c ≤ 1 := by nlinarith
  have hs1 : s ≤ 1 := by nlinarith
  have hI : 0 ≤ (c + 7) * (1 - c) := mul_nonneg (by linarith) (by linarith)
  have hI' : s * ((c + 7) * (1 - c)) ≤ (c + 7) * (1 - c) := by nlinarith
  have hI0 : 0 ≤ s * ((c + 7) * (1 - c)) := mul_nonneg hi hI
  have hI8 : (c + 7) * (1 - c) ≤ 7 := by nlinarith
  have c2 : 0 ≤ c ^ 2 := sq_nonneg c
  have c3 : 0 ≤ c ^ 3 := pow_nonneg hr 3
  have hc2 : c ^ 2 ≤ c := by nlinarith
  have hc3 : c ^ 3 ≤ c ^ 2 := by nlinarith [mul_nonneg c2 (sub_nonneg.2 hc1)]
  refine ⟨U', p', eU, ⟨dU, hunit, ?_, ?_⟩, ?_⟩
  · rw [hre]
    refine div_nonneg ?_ (by positivity)
    nlinarith
  · rw [him]
    refine div_nonneg ?_ (by positivity)
    nlinarith
  · rw [hre, div_lt_div_iff₀ (by positivity) (by norm_num), hM4]
    nlinarith

/-- the state of the witness: two sites of two levels, bonds of two levels, amplitudes 1/2, 1/2, 1/2, (4+3i)/10 -/
noncomputable def psiW : ND ℂ := psiT tW

theorem psiW_norm : sqNorm 2 2 2 2 (fun i j l r => psiW.val [i, j, l, r]) = 1 := by
  have hz : ‖zW‖ = 1 := by
    have := congrArg norm zW_unit
    rw [norm_mul, norm_star, norm_one] at this
    nlinarith [norm_nonneg zW]
  simp [sqNorm, psiW, psiT, tW, sum_range_succ, hz]
  norm_num

theorem eye_good : Good (eyeND (2 * 2)) 1 := by
  refine ⟨⟨rfl, fun i _ j _ => ?_⟩, by simp, ?_, ?_⟩
  · by_cases h : i = j
    · subst h
      simp [eyeND, fW]
    · simp [eyeND, h]
  · simp only [one_pow, one_mul, zW]; norm_num
  · simp only [one_pow, one_mul, zW]; norm_num

theorem good_val {U : ND ℂ} {p : ℂ} (h : Good U p) : entropyOf 2 2 2 2 psiW U = -Real.log ((3 + (p ^ 4 * zW).re) / 4) := by
  unfold entropyOf psiW
  rw [good_entropy h]

/-- the entropy of the state itself -/
theorem psiW_entropy : entropyOf 2 2 2 2 psiW (eyeND (2 * 2)) = -Real.log (19 / 20) := by
  rw [good_val eye_good]
  congr 2
  simp [zW]
  norm_num

variable {O : SetOrder} {polar qr : ND ℂ → Py (ND ℂ × ND ℂ)} {rnd : ℕ → ND ℂ}

theorem good_round (hp : PolarLaw polar) (eps : ℝ) {s : St} {p : ℂ} (hU : IsUnitary s.U (2 * 2)) (h : Good s.U p) :
    ∃ U' p', IsUnitary U' (2 * 2) ∧ Good U' p' ∧ entropyOf 2 2 2 2 psiW (eyeND (2 * 2)) < entropyOf 2 2 2 2 psiW U' ∧
      innerRound O polar psiW eps s = .ok
      { U := U', Ss := s.Ss ++ [entropyOf 2 2 2 2 psiW U'], m := s.m + 1, go := newGo eps s.m s.go (s.Ss ++ [entropyOf 2 2 2 2 psiW U']), draws := s.draws } := by
  obtain ⟨U1, p1, e1, g1, -⟩ := good_step O hp h
  obtain ⟨U2, p2, e2, g2, l2⟩ := good_step O hp g1
  have u1 : IsUnitary U1 (2 * 2) := by
    obtain ⟨V, e, u⟩ := polarStep_ok (O := O) (psi := psiT tW) (d1 := 2) (d2 := 2) (Xl := 2) (Xr := 2) hp rfl two_pos two_pos hU
    rw [e1] at e
    injection e with e
    exact e ▸ u
  have u2 : IsUnitary U2 (2 * 2) := by
    obtain ⟨V, e, u⟩ := polarStep_ok (O := O) (psi := psiT tW) (d1 := 2) (d2 := 2) (Xl := 2) (Xr := 2) hp rfl two_pos two_pos u1
    rw [e2] at e
    injection e with e
    exact e ▸ u
  refine ⟨U2, p2, u2, g2, ?_, ?_⟩
  · rw [psiW_entropy, good_val g2]
    have h0 := g2.re
    exact neg_lt_neg (Real.log_lt_log (by linarith) (by linarith))
  · unfold innerRound
    rw [show polarStep O polar psiW s.U = .ok U1 from e1, ok_bind, show polarStep O polar psiW U1 = .ok U2 from e2, ok_bind]
    show (do
      let U4 ← U2.reshape [2, 2, 2, 2]
      let S ← renyi O U4 psiW
      Except.ok ({ U := U2, Ss := s.Ss ++ [S], m := s.m + 1, go := newGo eps s.m s.go (s.Ss ++ [S]), draws := s.draws } : St)) = _
    rw [split4_ok u2.shape, ok_bind, renyi_value O (gate_of_unitary u2) (show psiW.shape = [2, 2, 2, 2] from rfl), ok_bind]
    rfl

/-- the entropies collected so far are above the bound, as long as no random gate was drawn -/
def UpInv (maxIter : ℕ) (e0 : ℝ) (s : St) : Prop :=
  (s.draws = 0 ∧ (∃ p, Good s.U p) ∧ s.m = s.Ss.length ∧ ∀ S ∈ s.Ss, e0 < S) ∨
    (maxIter ≤ s.Ss.length ∧ (s.go = false → maxIter < s.Ss.length))

theorem loop_up (hp : PolarLaw polar) (hq : QRLaw qr) (hr : ∀ k, (rnd k).shape = [2 * 2, 2 * 2]) {eps : ℝ} {maxIter : ℕ} :
    ∀ (fuel : ℕ) (s : St), IsUnitary s.U (2 * 2) → UpInv maxIter (entropyOf 2 2 2 2 psiW (eyeND (2 * 2))) s → ∀ U Ss,
      loop O polar qr rnd psiW eps maxIter fuel s = .ok (U, Ss) → Ss.length ≤ maxIter → ∀ S ∈ Ss, entropyOf 2 2 2 2 psiW (eyeND (2 * 2)) < S
  | 0, _, _, _, _, _, h, _ => by simp [loop] at h
  | fuel + 1, s, hU, hinv, U, Ss, h, hlen => by
    unfold loop at h
    by_cases hg : s.go = true
    · by_cases hm : s.m < maxIter
      · rw [if_pos ⟨hm, hg⟩] at h
        rcases hinv with ⟨hd, ⟨p, hgood⟩, hml, hS⟩ | ⟨hl, -⟩
        · obtain ⟨U', p', u', g', lt, e⟩ := good_round (O := O) hp eps hU hgood
          rw [e, ok_bind] at h
          refine loop_up hp hq hr fuel _ ?_ ?_ U Ss h hlen
          · exact u'
          refine .inl ⟨hd, ⟨p', g'⟩, by simp [hml], ?_⟩
          intro S hS'
          rcases List.mem_append.1 hS' with k | k
          · exact hS S k
          · rw [List.mem_singleton.1 k]
            exact lt
        · obtain ⟨U', u', e⟩ := innerRound_ok (O := O) (psi := psiW) (d1 := 2) (d2 := 2) (Xl := 2) (Xr := 2) hp rfl two_pos two_pos eps hU
          rw [e, ok_bind] at h
          refine loop_up hp hq hr fuel _ ?_ ?_ U Ss h hlen
          · exact u'
          · exact .inr ⟨by simp; omega, fun _ => by simp; omega⟩
      · rw [if_neg (by tauto), if_pos hg] at h
        obtain ⟨Q, u', e⟩ := restart_ok hq (by norm_num) hr s
        rw [e, ok_bind] at h
        refine loop_up hp hq hr fuel _ ?_ ?_ U Ss h hlen
        · exact u'
        refine .inr ⟨?_, fun k => absurd (k.symm.trans hg) (by decide)⟩
        rcases hinv with ⟨-, -, hml, -⟩ | ⟨hl, -⟩
        · show maxIter ≤ s.Ss.length
          omega
        · exact hl
    · rw [if_neg (by tauto), if_neg hg] at h
      simp only [Except.ok.injEq, Prod.mk.injEq] at h
      obtain ⟨-, rfl⟩ := h
      rcases hinv with ⟨-, -, -, hS⟩ | ⟨-, hl⟩
      · exact hS
      · have := hl (by simpa using hg)
        omega

/-- **C127 fails**: for the normalised state `psiW` every entropy recorded before the first restart, and so the one after the gate returned, is greater
than that of the state left alone; the "disentangler" entangles.  This holds for every `eps` and `max_iter`, for any run that returns within its first
`max_iter` rounds. -/
theorem disentangler_up (hp : PolarLaw polar) (hq : QRLaw qr) (hr : ∀ k, (rnd k).shape = [2 * 2, 2 * 2]) {eps : ℝ} {maxIter fuel : ℕ} {U : ND ℂ}
    {Ss : List ℝ} (h : disentangler O polar qr rnd psiW eps maxIter fuel = .ok (U, Ss)) (hlen : Ss.length ≤ maxIter) :
    (∀ S ∈ Ss, entropyOf 2 2 2 2 psiW (eyeND (2 * 2)) < S) ∧ entropyOf 2 2 2 2 psiW (eyeND (2 * 2)) < entropyOf 2 2 2 2 psiW U := by
  have key : ∀ S ∈ Ss, entropyOf 2 2 2 2 psiW (eyeND (2 * 2)) < S := by
    have h' : loop O polar qr rnd psiW eps maxIter fuel ⟨eyeND (2 * 2), [], 0, true, 0⟩ = .ok (U, Ss) := h
    exact loop_up hp hq hr fuel _ (eye_unitary _) (.inl ⟨rfl, ⟨1, eye_good⟩, rfl, by simp⟩) U Ss h' hlen
  refine ⟨key, key _ ?_⟩
  rcases disentangler_partial (O := O) (psi := psiW) (d1 := 2) (d2 := 2) (Xl := 2) (Xr := 2) hp hq hr rfl two_pos two_pos eps maxIter fuel with k | ⟨U', Ss', k, st⟩
  · rw [h] at k
    exact absurd k (by simp)
  · rw [h] at k
    injection k with k
    injection k with k1 k2
    subst k1 k2
    exact List.mem_of_getLast? st.last

/-- Such runs exist: with `eps = 1` and the default `max_iter = 1000` it returns after three rounds. -/
theorem disentangler_up_run (hp : PolarLaw polar) {eps : ℝ} (he : 1 ≤ eps) {maxIter fuel : ℕ} (hm : 3 ≤ maxIter) (hf : 4 ≤ fuel) :
    ∃ U Ss, disentangler O polar qr rnd psiW eps maxIter fuel = .ok (U, Ss) ∧ Ss.length = 3 := by
  obtain ⟨k, rfl⟩ : ∃ k, fuel = k + 4 := ⟨fuel - 4, by omega⟩
  have bd : ∀ {U : ND ℂ} {p : ℂ}, Good U p → 0 ≤ entropyOf 2 2 2 2 psiW U ∧ entropyOf 2 2 2 2 psiW U ≤ 1 := by
    intro U p g
    have h0 := g.re
    have h1 : (p ^ 4 * zW).re ≤ 1 := by
      have n4 : ‖p ^ 4 * zW‖ = 1 := by
        have a := congrArg norm zW_unit
        have b := congrArg norm g.unit
        rw [norm_mul, norm_star, norm_one] at a b
        have a' : ‖zW‖ = 1 := by nlinarith [norm_nonneg zW]
        have b' : ‖p‖ = 1 := by nlinarith [norm_nonneg p]
        rw [norm_mul, norm_pow, a', b']
        norm_num
      exact n4 ▸ Complex.re_le_norm _
    rw [good_val g]
    constructor
    · linarith [Real.log_nonpos (x := (3 + (p ^ 4 * zW).re) / 4) (by linarith) (by linarith)]
    · have := Real.one_sub_inv_le_log_of_pos (x := (3 + (p ^ 4 * zW).re) / 4) (by linarith)
      have h2 : ((3 + (p ^ 4 * zW).re) / 4)⁻¹ ≤ 2 := by
        rw [inv_le_comm₀ (by linarith) two_pos]
        linarith
      linarith
  obtain ⟨U1, p1, u1, g1, -, e1⟩ := good_round (O := O) hp eps (s := ⟨eyeND (2 * 2), [], 0, true, 0⟩) (eye_unitary _) eye_good
  obtain ⟨U2, p2, u2, g2, -, e2⟩ := good_round (O := O) hp eps (s := ⟨U1, [entropyOf 2 2 2 2 psiW U1], 1, true, 0⟩) u1 g1
  obtain ⟨U3, p3, u3, g3, -, e3⟩ := good_round (O := O) hp eps (s := ⟨U2, [entropyOf 2 2 2 2 psiW U1, entropyOf 2 2 2 2 psiW U2], 2, true, 0⟩) u2 g2
  have hgo : newGo eps 2 true ([entropyOf 2 2 2 2 psiW U1, entropyOf 2 2 2 2 psiW U2] ++ [entropyOf 2 2 2 2 psiW U3]) = false := by
    simp only [newGo]
    rw [if_pos (by norm_num), decide_eq_false_iff_not, not_lt]
    refine le_trans ?_ he
    obtain ⟨a1, a2⟩ := bd g2
    obtain ⟨b1, b2⟩ := bd g3
    simp only [List.cons_append, List.nil_append, List.length_cons, List.length_nil, List.getD_cons_succ, List.getD_cons_zero]
    rw [abs_le]
    constructor <;> linarith
  refine ⟨U3, [entropyOf 2 2 2 2 psiW U1, entropyOf 2 2 2 2 psiW U2, entropyOf 2 2 2 2 psiW U3], ?_, rfl⟩
  show loop O polar qr rnd psiW eps maxIter (k + 3 + 1) ⟨eyeND (2 * 2), [], 0, true, 0⟩ = _
  unfold loop
  rw [if_pos ⟨by show 0 < maxIter; omega, rfl⟩, e1, ok_bind]
  show loop O polar qr rnd psiW eps maxIter (k + 2 + 1) ⟨U1, [entropyOf 2 2 2 2 psiW U1], 1, true, 0⟩ = _
  unfold loop
  rw [if_pos ⟨by show 1 < maxIter; omega, rfl⟩, e2, ok_bind]
  show loop O polar qr rnd psiW eps maxIter (k + 1 + 1) ⟨U2, [entropyOf 2 2 2 2 psiW U1, entropyOf 2 2 2 2 psiW U2], 2, true, 0⟩ = _
  unfold loop
  rw [if_pos ⟨by show 2 < maxIter; omega, rfl⟩, e3, ok_bind, hgo]
  unfold loop
  rw [if_neg (by simp), if_neg (by simp)]
  rfl

/-- The hypotheses can be met together, and the run with `eps = 1`, `max_iter = 1000` raises the entropy. -/
example : ∃ (polar qr : ND ℂ → Py (ND ℂ × ND ℂ)) (U : ND ℂ) (Ss : List ℝ), PolarLaw polar ∧ QRLaw qr ∧
    disentangler O polar qr (fun _ => eyeND (2 * 2)) psiW 1 1000 4 = .ok (U, Ss) ∧
    entropyOf 2 2 2 2 psiW (eyeND (2 * 2)) < entropyOf 2 2 2 2 psiW U := by
  obtain ⟨polar, hp⟩ := polarLaw_exists
  obtain ⟨qr, hq⟩ := qrLaw_exists
  obtain ⟨U, Ss, h, hl⟩ := disentangler_up_run (O := O) (qr := qr) (rnd := fun _ => eyeND (2 * 2)) hp (le_refl (1 : ℝ)) (maxIter := 1000) (fuel := 4)
    (by norm_num) le_rfl
  exact ⟨polar, qr, U, Ss, hp, hq, h, (disentangler_up hp hq (fun _ => rfl) h (by omega)).2⟩

/-- `renyi_value` and `renyi_nonneg` at the identity gate and the state `psiW`: the entropy is `-log (19/20)`. -/
example : Gate 2 2 (split4 2 2 (eyeND (2 * 2))) ∧ renyi O (split4 2 2 (eyeND (2 * 2))) psiW = .ok (-Real.log (19 / 20)) := by
  have g : Gate 2 2 (split4 2 2 (eyeND (2 * 2))) := gate_of_unitary (eye_unitary _)
  refine ⟨g, ?_⟩
  rw [renyi_value O g (show psiW.shape = [2, 2, 2, 2] from rfl), ← psiW_entropy]
  rfl

example (O : SetOrder) : 0 < trSq 2 2 2 2 (gated 2 2 (split4 2 2 (eyeND (2 * 2))) psiW) :=
  (renyi_nonneg O (gate_of_unitary (eye_unitary _)) rfl psiW_norm).1

/-- `disentangler_diverges` for this state and `max_iter = 2` -/
example : ∃ polar qr : ND ℂ → Py (ND ℂ × ND ℂ), ∀ fuel, disentangler O polar qr (fun _ => eyeND (2 * 2)) psiW 1 2 fuel = .error .diverges := by
  obtain ⟨polar, hp⟩ := polarLaw_exists
  obtain ⟨qr, hq⟩ := qrLaw_exists
  exact ⟨polar, qr, fun fuel => disentangler_diverges (d1 := 2) (d2 := 2) (Xl := 2) (Xr := 2) hp hq (fun _ => rfl) rfl two_pos two_pos (.inl le_rfl) fuel⟩

end Xmps.Disent
