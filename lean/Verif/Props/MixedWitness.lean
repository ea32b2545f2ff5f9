import Verif.Props.Mixed
import Verif.Props.LapackExists
import Verif.Props.ImpsWitness

/-!
# The mixed canonical form: concrete cases
-/

namespace Xmps

open Finset Matrix Spec ComplexOrder

theorem rqUpper_exists : ∃ rq : ND ℂ → Py (ND ℂ × ND ℂ), RQLaw rq ∧ RQUpper rq := by
  choose q r h1 h2 h3 using qr_exists
  obtain ⟨rq0, h0⟩ := rqLaw_exists
  let b : ND ℂ → ℕ → ℕ → ℂ := fun A i j => A.val [A.dim 0 - 1 - j, i]
  let f : ND ℂ → ND ℂ × ND ℂ := fun A =>
    (⟨[A.dim 0, A.dim 0], fun idx => r (A.dim 1) (A.dim 0) (b A) (A.dim 0 - 1 - idx.getD 1 0) (A.dim 0 - 1 - idx.getD 0 0)⟩,
      ⟨[A.dim 0, A.dim 1], fun idx => q (A.dim 1) (A.dim 0) (b A) (idx.getD 1 0) (A.dim 0 - 1 - idx.getD 0 0)⟩)
  refine ⟨fun A => if A.dim 0 ≤ A.dim 1 then .ok (f A) else rq0 A, ?_, ?_⟩
  · intro A m n hA hm hn
    have e0 : A.dim 0 = m := by simp [ND.dim, hA]
    have e1 : A.dim 1 = n := by simp [ND.dim, hA]
    by_cases hmn : m ≤ n
    · have hmin : min m n = m := by omega
      have hmin' : min n m = m := by omega
      simp only [e0, e1, hmn, if_true]
      refine ⟨(f A).1, (f A).2, rfl, by simp only [f, e0, hmin], by simp only [f, e0, e1, hmin], ?_, ?_⟩
      · have hs : (f A).2.shape = [m, n] := by simp only [f, e0, e1]
        simp only [RowsOrtho, ND.dim, hs, List.getD_cons_zero, List.getD_cons_succ]
        intro k hk k' hk'
        have := h1 n m (b A) (m - 1 - k') (by omega) (m - 1 - k) (by omega)
        simp only [f, e0, e1, List.getD_cons_zero, List.getD_cons_succ]
        rw [sum_congr rfl fun i _ => mul_comm _ _, this]
        by_cases e : k = k'
        · rw [if_pos e, if_pos (by omega)]
        · rw [if_neg e, if_neg (by omega)]
      · intro i hi j hj
        have := h2 n m (b A) j hj (m - 1 - i) (by omega)
        simp only [b, e0] at this
        rw [show m - 1 - (m - 1 - i) = i by omega] at this
        rw [this, hmin', hmin, ← Finset.sum_range_reflect]
        refine sum_congr rfl fun k hk => ?_
        have hk := mem_range.1 hk
        simp only [f, e0, e1, List.getD_cons_zero, List.getD_cons_succ, b]
        rw [mul_comm]
    · simp only [e0, e1, hmn, if_false]
      exact h0 A m n hA hm hn
  · intro A m n hA hmn R Q hR k hk j hj
    have e0 : A.dim 0 = m := by simp [ND.dim, hA]
    have e1 : A.dim 1 = n := by simp [ND.dim, hA]
    simp only [e0, e1, hmn, if_true] at hR
    obtain rfl : (f A).1 = R := (Prod.mk.inj (Except.ok.inj hR)).1
    simp only [f, e0, e1, List.getD_cons_zero, List.getD_cons_succ]
    exact h3 n m (b A) _ (by omega) _ (by omega)

namespace IMPS

/-- the hypotheses of `mixed_spec` can be met -/
example : ∃ qr rq : ND ℂ → Py (ND ℂ × ND ℂ), QRLaw qr ∧ RQLaw rq ∧ RQUpper rq ∧ exGen.shape = [2, 2, 2] ∧ LeftInjective 2 2 exGen ∧ RightInjective 2 2 exGen ∧
    IsUnit (toM 2 2 exR) := by
  obtain ⟨qr, h1⟩ := qrLaw_exists
  obtain ⟨rq, h2, h3⟩ := rqUpper_exists
  exact ⟨qr, rq, h1, h2, h3, rfl, exGen_fixed.injective.1, exGen_fixed.injective.2, exR_pos.isUnit⟩

/-- A left isometry is left as it is: started from the identity, `_lmixed` ends after one round and returns the tensor. -/
theorem lmixed_fixed {qr : ND ℂ → Py (ND ℂ × ND ℂ)} (hqr : QRLaw qr) (hreal : ∀ A Q R, qr A = .ok (Q, R) → ∀ k < R.dim 0, (R.val [k, k]).im = 0)
    {d D : ℕ} (hd : 0 < d) (hD : 0 < D) {A : ND ℂ} (hA : A.shape = [d, D, D]) (hl : LeftIso A) {eta : ℝ} (he : 0 ≤ eta) (fuel : ℕ) :
    ∃ AL L, lmixed qr (fuel + 1) eta A (eyeND D) = .ok (AL, L, 1) ∧ AL.shape = [d, D, D] ∧
      (∀ s < d, toM3 D D AL s = toM3 D D A s) ∧ toM D D L = (((Real.sqrt D)⁻¹ : ℝ) : ℂ) • 1 := by
  obtain ⟨L, hLe⟩ : ∃ L : ND ℂ, L = (eyeND D).smul (((eyeND D : ND ℂ).norm : ℂ)⁻¹) := ⟨_, rfl⟩
  have hone : toM D D (eyeND D) = 1 := by
    rw [toM_one_iff]
    intro i _ j _
    rfl
  have hsq : 0 < Real.sqrt D := Real.sqrt_pos.2 (by exact_mod_cast hD)
  have hn : (eyeND D : ND ℂ).norm = Real.sqrt D := by
    rw [norm_fro (m := D) (n := D) rfl, hone]
    unfold fro
    congr 1
    have : ∀ i : Fin D, ∑ j, Complex.normSq ((1 : Matrix (Fin D) (Fin D) ℂ) i j) = 1 := by
      intro i
      rw [Finset.sum_eq_single i] <;> simp +contextual [Matrix.one_apply, eq_comm]
    simp [this]
  set c : ℝ := (Real.sqrt D)⁻¹ with hcd
  have hcp : 0 < c := inv_pos.2 hsq
  have hLs : L.shape = [D, D] := by rw [hLe]; rfl
  have hLv : ∀ i j, L.val [i, j] = if i = j then (c : ℂ) else 0 := by
    intro i j
    rw [hLe, hn]
    simp [ND.smul, eyeND, hcd]
  have hLm : toM D D L = (c : ℂ) • 1 := by
    ext i j
    simp only [toM_apply, hLv, Matrix.smul_apply, Matrix.one_apply, Fin.ext_iff]
    split_ifs <;> simp
  have hLf : fro (toM D D L) = 1 := by
    have e1 : toM D D L = (((fro (toM D D (eyeND D)) : ℝ) : ℂ)⁻¹) • toM D D (eyeND D) := by
      rw [hLe, toM_smul, norm_fro (m := D) (n := D) rfl]
    rw [e1]
    refine fro_normalise ?_
    rw [hone]
    have : Nonempty (Fin D) := ⟨⟨0, hD⟩⟩
    exact one_ne_zero
  obtain ⟨B, b1, b2, b3⟩ := matmul23M hLs hA
  obtain ⟨M, hM⟩ : ∃ M, M = B.reshapeR [d * D, D] := ⟨_, rfl⟩
  have m1 : B.reshape [d * D, D] = .ok M := by rw [hM]; exact ND.reshape_ok_any (by simp [b2, mul_assoc])
  have m2 : M.shape = [d * D, D] := by rw [hM]; rfl
  have m3 : ∀ s < d, ∀ a < D, ∀ b < D, M.val [s * D + a, b] = c * A.val [s, a, b] := by
    intro s hs a ha b hb
    have e2 := congrFun (congrFun (b3 s) ⟨a, ha⟩) ⟨b, hb⟩
    rw [hLm, Matrix.smul_mul, Matrix.one_mul] at e2
    simp only [toM3_apply, Matrix.smul_apply, smul_eq_mul] at e2
    rw [← e2, hM]
    refine ND.reshapeR_val_any ?_ ?_
    · rw [b2]
      exact ⟨hs, ha, hb, trivial⟩
    · rw [b2]
      simp only [ravel_cons, ravel_nil, List.prod_cons, List.prod_nil]
      ring
  have hle : D ≤ d * D := Nat.le_mul_of_pos_left D hd
  have hmin : min (d * D) D = D := by omega
  obtain ⟨Qa, hQa⟩ : ∃ Qa : ND ℂ, Qa = ⟨[d * D, D], fun idx => A.val [idx.getD 0 0 / D, idx.getD 0 0 % D, idx.getD 1 0]⟩ := ⟨_, rfl⟩
  have hQs : Qa.shape = [d * D, D] := by rw [hQa]
  have hQv : ∀ s, ∀ a < D, ∀ b, Qa.val [s * D + a, b] = A.val [s, a, b] := by
    intro s a ha b
    rw [hQa]
    simp only [List.getD_cons_zero, List.getD_cons_succ, flat_div ha, flat_mod ha]
  have split : ∀ i < d * D, ∃ s < d, ∃ a < D, i = s * D + a := fun i hi =>
    ⟨i / D, Nat.div_lt_of_lt_mul (by rwa [mul_comm] at hi), i % D, Nat.mod_lt _ hD, (Nat.div_add_mod' i D).symm⟩
  have hfact : QRFact M Qa L (d * D) D := by
    refine ⟨by rw [hmin, hQs], by rw [hmin, hLs], ?_, ?_, ?_⟩
    · have h1 := (leftIso_iff hA).1 hl
      simp only [ColsOrtho, ND.dim, hQs, List.getD_cons_zero, List.getD_cons_succ]
      intro i hi j hj
      have hij := congrFun (congrFun h1 ⟨i, hi⟩) ⟨j, hj⟩
      rw [Matrix.sum_apply, Matrix.one_apply] at hij
      simp only [Matrix.mul_apply, conjTranspose_apply, toM3_apply, Fin.mk.injEq] at hij
      rw [← hij, sum_range_mul]
      refine sum_congr rfl fun s _ => ?_
      rw [Finset.sum_range]
      exact sum_congr rfl fun a _ => by rw [hQv s a a.2, hQv s a a.2]
    · intro i hi j hj
      obtain ⟨s, hs, a, ha, rfl⟩ := split i hi
      rw [m3 s hs a ha j hj, hmin, Finset.sum_eq_single_of_mem j (mem_range.2 hj), hLv, if_pos rfl, hQv s a ha, mul_comm]
      intro k _ hk
      rw [hLv, if_neg hk, mul_zero]
    · intro k _ j hj
      rw [hLv, if_neg (by omega)]
  have hli : LeftInjective d D A := by
    intro v hv
    have h1 := (leftIso_iff hA).1 hl
    have : (1 : Matrix (Fin D) (Fin D) ℂ) *ᵥ v = 0 := by
      rw [← h1, Matrix.sum_mulVec]
      refine Finset.sum_eq_zero fun s hs => ?_
      rw [← mulVec_mulVec, hv s (mem_range.1 hs), mulVec_zero]
    rwa [one_mulVec] at this
  have hcu : IsUnit ((c : ℂ) • (1 : Matrix (Fin D) (Fin D) ℂ)) := isUnit_smul' (by exact_mod_cast hcp.ne') isUnit_one
  have hind : ColsIndep M (d * D) D := by
    refine stack_indep (d := d) (B := B) ?_ (LeftInjective.mul hcu hli (fun s => by rw [b3, hLm]))
    intro s hs a ha b hb
    have e2 := congrFun (congrFun (b3 s) ⟨a, ha⟩) ⟨b, hb⟩
    rw [hLm, Matrix.smul_mul, Matrix.one_mul] at e2
    simp only [toM3_apply, Matrix.smul_apply, smul_eq_mul] at e2
    rw [m3 s hs a ha b hb, e2]
  obtain ⟨Q, R, e, hQR, -, huniq⟩ := uqr_unique hqr hreal m2 hD hle hind
  obtain ⟨u1, u2⟩ := huniq Qa L hfact ⟨fun _ => c, fun k _ => ⟨hcp, by rw [hLv, if_pos rfl]⟩⟩
  have hRs := hQR.r
  have hQs' := hQR.q
  rw [hmin] at hRs hQs'
  have hRm : toM D D R = toM D D L := by
    ext i j
    simp only [toM_apply]
    rw [u1 i i.2 j j.2]
  have hRn : R.norm = 1 := by rw [norm_fro hRs, hRm, hLf]
  have hstep : lmixedStep qr A L = .ok (Q, R.smul ((R.norm : ℂ)⁻¹), 1) := by
    unfold lmixedStep
    simp only [ND.dim, hA, List.getD_cons_zero, List.getD_cons_succ, b1, ok_bind, m1, e, hRn]
  have hRm' : toM D D (R.smul ((R.norm : ℂ)⁻¹)) = toM D D L := by
    rw [toM_smul, hRn, hRm]
    simp
  have hRs' : (R.smul ((R.norm : ℂ)⁻¹)).shape = [D, D] := hRs
  have hdist : dist (R.smul ((R.norm : ℂ)⁻¹)) L = .ok 0 := by
    rw [dist_ok hRs' hLs, hRm', sub_self]
    simp [fro]
  have hloop : lmixedLoop qr eta A (fuel + 1) L = .ok (Q, R.smul ((R.norm : ℂ)⁻¹), 1) := by
    unfold lmixedLoop
    simp only [hstep, ok_bind, hdist]
    rw [if_neg (not_lt.2 he)]
  refine ⟨Q.reshapeR [d, D, D], R.smul ((R.norm : ℂ)⁻¹), ?_, rfl, ?_, by rw [hRm', hLm]⟩
  · unfold lmixed
    rw [← hLe, hloop, ok_bind]
    simp only [ND.dim, hA, List.getD_cons_zero, List.getD_cons_succ]
    rw [ND.reshape_ok_any (by simp [hQs', mul_assoc]), ok_bind]
  · intro s hs
    ext a b
    simp only [toM3_apply]
    rw [← hQv s a a.2 b, u2 _ (mul_add_lt hs a.2) b b.2]
    refine ND.reshapeR_val_any ?_ ?_
    · rw [hQs']
      exact ⟨mul_add_lt hs a.2, b.2, trivial⟩
    · rw [hQs']
      simp only [ravel_cons, ravel_nil, List.prod_cons, List.prod_nil]
      ring

/-- a left isometry of bond dimension one -/
example : ∃ qr : ND ℂ → Py (ND ℂ × ND ℂ), ∃ AL L, lmixed qr 1 0 ⟨[2, 1, 1], fun | [0, _, _] => 1 | _ => 0⟩ (eyeND 1) = .ok (AL, L, 1) := by
  obtain ⟨qr, h1, h2⟩ := realQR_exists
  obtain ⟨AL, L, e, -⟩ := lmixed_fixed h1 h2 (d := 2) (D := 1) (by omega) (by omega) (A := ⟨[2, 1, 1], fun | [0, _, _] => 1 | _ => 0⟩) rfl
    (by rw [leftIso_iff rfl]; ext i j; rw [Subsingleton.elim i 0, Subsingleton.elim j 0]; simp [Finset.sum_range_succ, Matrix.mul_apply])
    (le_refl 0) 0
  exact ⟨qr, AL, L, e⟩

end IMPS

end Xmps
