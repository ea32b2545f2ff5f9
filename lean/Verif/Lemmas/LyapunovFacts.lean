import Verif.Lemmas.Symplectic
import Verif.Props.Isometry
import Mathlib.LinearAlgebra.Matrix.Block

/-! # The rounds of `lyapunov` -/

namespace Xmps

open Finset Spec Matrix

/-- the product of the exponentials `exp(J dt)`, the first one to the right -/
noncomputable def flow (n : ℕ) (dt : ℝ) (Js : List (ND ℂ)) : Matrix (Fin n) (Fin n) ℂ := Js.foldl (fun P J => NormedSpace.exp ((dt : ℂ) • toM n n J) * P) 1

theorem flow_append (n : ℕ) (dt : ℝ) (Js : List (ND ℂ)) (J : ND ℂ) : flow n dt (Js ++ [J]) = NormedSpace.exp ((dt : ℂ) • toM n n J) * flow n dt Js := by
  simp [flow]

theorem colsOrtho_of_toM {Q : ND ℂ} {m n : ℕ} (h : Q.shape = [m, n]) (hQ : (toM m n Q)ᴴ * toM m n Q = 1) : ColsOrtho Q := by
  intro k hk k' hk'
  simp only [ND.dim, h, List.getD_cons_zero, List.getD_cons_succ] at hk hk' ⊢
  have := congrFun (congrFun hQ ⟨k, hk⟩) ⟨k', hk'⟩
  simp only [Matrix.mul_apply, conjTranspose_apply, toM_apply, Matrix.one_apply, Fin.ext_iff] at this
  rw [← this, Finset.sum_range]

theorem rowsOrtho_of_toM {Q : ND ℂ} {m n : ℕ} (h : Q.shape = [m, n]) (hQ : toM m n Q * (toM m n Q)ᴴ = 1) : RowsOrtho Q := by
  intro k hk k' hk'
  simp only [ND.dim, h, List.getD_cons_zero, List.getD_cons_succ] at hk hk' ⊢
  have := congrFun (congrFun hQ ⟨k, hk⟩) ⟨k', hk'⟩
  simp only [Matrix.mul_apply, conjTranspose_apply, toM_apply, Matrix.one_apply, Fin.ext_iff] at this
  rw [← this, Finset.sum_range]

theorem isUnitary_iff {Q : ND ℂ} {n : ℕ} : IsUnitary Q n ↔ Q.shape = [n, n] ∧ (toM n n Q)ᴴ * toM n n Q = 1 :=
  ⟨fun h => ⟨h.shape, colsOrtho_toM h.shape h.cols⟩, fun h => ⟨h.1, colsOrtho_of_toM h.1 h.2, rowsOrtho_of_toM h.1 (_root_.mul_eq_one_comm.1 h.2)⟩⟩

/-- the diagonal of a product of upper triangular matrices -/
theorem upper_mul_diag {n : ℕ} {A B : Matrix (Fin n) (Fin n) ℂ} (hA : A.BlockTriangular id) (hB : B.BlockTriangular id) (i : Fin n) :
    (A * B) i i = A i i * B i i := by
  rw [Matrix.mul_apply, Finset.sum_eq_single i]
  · intro j _ hj
    rcases lt_or_gt_of_ne hj with h | h
    · rw [hA h, zero_mul]
    · rw [hB h, mul_zero]
  · intro h
    exact absurd (Finset.mem_univ i) h

theorem unitary_det {n : ℕ} {Q : Matrix (Fin n) (Fin n) ℂ} (h : Qᴴ * Q = 1) : ‖Q.det‖ = 1 := by
  have := congrArg Matrix.det h
  rw [Matrix.det_mul, Matrix.det_conjTranspose, Matrix.det_one] at this
  have h2 : ‖Q.det‖ * ‖Q.det‖ = 1 := by
    have := congrArg norm this
    rwa [norm_mul, norm_star, norm_one] at this
  nlinarith [norm_nonneg Q.det]

theorem logDiag_length {n : ℕ} {R : ND ℂ} (h : R.shape = [n, n]) : (Tdvp.logDiag R).length = n := by
  simp [Tdvp.logDiag, ND.dim, h]

theorem logDiag_getD {n : ℕ} {R : ND ℂ} (h : R.shape = [n, n]) (k : Fin n) : (Tdvp.logDiag R).getD k 0 = Real.log ‖toM n n R k k‖ := by
  rw [List.getD_eq_getElem _ _ (by rw [logDiag_length h]; exact k.2)]
  simp [Tdvp.logDiag]

theorem list_sum_fin {n : ℕ} {l : List ℝ} (h : l.length = n) : l.sum = ∑ k : Fin n, l.getD k 0 := by
  subst h
  rw [← Fin.sum_univ_getElem]
  exact Finset.sum_congr rfl fun k _ => by rw [List.getD_eq_getElem _ _ k.2]

/-- a round of the `QR` iteration: `exp(A) Q = Q' R` -/
theorem qr_round {qr : ND ℂ → Py (ND ℂ × ND ℂ)} (hqr : QRLaw qr) {D : ℕ} (hD : 0 < D) {A Q : ND ℂ} (hA : A.shape = [2 * D, 2 * D])
    (hham : (toM (2 * D) (2 * D) A)ᵀ * Om D + Om D * toM (2 * D) (2 * D) A = 0) (hQ : IsUnitary Q (2 * D)) :
    ∃ M Q' R, expmMat A Q = .ok M ∧ qr M = .ok (Q', R) ∧ IsUnitary Q' (2 * D) ∧ R.shape = [2 * D, 2 * D] ∧ (toM (2 * D) (2 * D) R).BlockTriangular id ∧
      NormedSpace.exp (toM (2 * D) (2 * D) A) * toM (2 * D) (2 * D) Q = toM (2 * D) (2 * D) Q' * toM (2 * D) (2 * D) R ∧
      (∀ k, toM (2 * D) (2 * D) R k k ≠ 0) ∧ (Tdvp.logDiag R).length = 2 * D ∧ (Tdvp.logDiag R).sum = 0 := by
  obtain ⟨M, e1, hM, vM⟩ := expmMat_ok hA hQ.shape
  obtain ⟨Q', R, e2, hQ', hR, co, hprod, htri⟩ := hqr M (2 * D) (2 * D) hM (by omega) (by omega)
  rw [min_self] at hQ' hR
  simp only [min_self] at hprod htri
  have hu : IsUnitary Q' (2 * D) := isUnitary_iff.2 ⟨hQ', colsOrtho_toM hQ' co⟩
  have hb : (toM (2 * D) (2 * D) R).BlockTriangular id := fun i j h => htri i i.2 j h
  have e3 : toM (2 * D) (2 * D) Q' * toM (2 * D) (2 * D) R = toM (2 * D) (2 * D) M := toM_mul_iff.2 fun i hi j hj => (hprod i hi j hj).symm
  have hdet : ‖(toM (2 * D) (2 * D) R).det‖ = 1 := by
    have h1 := congrArg (fun X => ‖Matrix.det X‖) (e3.trans vM)
    simp only [Matrix.det_mul, norm_mul] at h1
    rw [unitary_det (isUnitary_iff.1 hu).2, unitary_det (isUnitary_iff.1 hQ).2, symp_det (exp_symp hham)] at h1
    simpa using h1
  have hdiag := hdet
  rw [Matrix.det_of_isUpperTriangular hb, norm_prod] at hdiag
  have hne : ∀ k, toM (2 * D) (2 * D) R k k ≠ 0 := by
    intro k hk
    rw [Finset.prod_eq_zero (Finset.mem_univ k) (by rw [hk, norm_zero])] at hdiag
    exact zero_ne_one hdiag
  refine ⟨M, Q', R, e1, e2, hu, hR, hb, by rw [e3, vM], hne, logDiag_length hR, ?_⟩
  rw [list_sum_fin (logDiag_length hR), Finset.sum_congr rfl fun k _ => logDiag_getD hR k, ← Real.log_prod fun k _ => norm_ne_zero_iff.2 (hne k), hdiag, Real.log_one]

/-- `lys` are `n` lists of length `2D` with sum zero; `exps` holds `[0]` and then the means of the first `1`, `2`, .. of them. -/
structure LySeq (D n : ℕ) (lys exps : List (List ℝ)) : Prop where
  len : lys.length = n
  each : ∀ ly ∈ lys, ly.length = 2 * D ∧ ly.sum = 0
  elen : exps.length = n + 1
  first : exps.getD 0 [] = [0]
  mean : ∀ m < n, exps.getD (m + 1) [] = (List.range (2 * D)).map fun k => ((lys.take (m + 1)).map fun l => l.getD k 0).sum / (m + 1)

theorem pyLast_getD {l : List (List ℝ)} {n : ℕ} (h : l.length = n + 1) : FMPS.pyLast l = .ok (l.getD n []) := by
  unfold FMPS.pyLast pyGetI
  simp only [Int.reduceNeg, h]
  rw [if_neg (by omega), List.getD_eq_getElem _ _ (by omega), show (-1 + ((n + 1 : ℕ) : ℤ)).toNat = n by omega, pyGet_ok (by omega), if_pos (by omega)]

theorem LySeq.push {D n : ℕ} (hD : 0 < D) {lys exps : List (List ℝ)} (h : LySeq D n lys exps) {ly : List ℝ} (hl : ly.length = 2 * D) (hs : ly.sum = 0) :
    ∃ ex, Tdvp.runMean exps ly n = .ok ex ∧ LySeq D (n + 1) (lys ++ [ly]) (exps ++ [ex]) := by
  set ex := (List.range (2 * D)).map fun k => (((lys ++ [ly]).take (n + 1)).map fun l => l.getD k 0).sum / ((n : ℝ) + 1) with hex
  refine ⟨ex, ?_, ?_⟩
  · unfold Tdvp.runMean
    rw [pyLast_getD h.elen, ok_bind]
    have e1 : ∃ s, Tdvp.bcast (· + ·) ((exps.getD n []).map fun t => t * (n : ℝ)) ly = .ok s ∧ s.length = 2 * D ∧ ∀ k < 2 * D, s.getD k 0 =
        (lys.map fun l => l.getD k 0).sum + ly.getD k 0 := by
      unfold Tdvp.bcast
      rcases Nat.eq_zero_or_pos n with rfl | hn
      · have h0 : lys = [] := List.length_eq_zero_iff.1 h.len
        rw [h.first, if_neg (by simp; omega), if_pos (by simp)]
        refine ⟨_, rfl, by simpa using hl, fun k hk => ?_⟩
        have e5 : k < ly.length := by omega
        simp [h0, e5]
      · obtain ⟨m, rfl⟩ : ∃ m, n = m + 1 := ⟨n - 1, by omega⟩
        have hm := h.mean m (by omega)
        rw [hm, if_pos (by simp [hl])]
        refine ⟨_, rfl, by simp [hl], fun k hk => ?_⟩
        have e5 : k < ly.length := by omega
        have e6 : ((m : ℝ) + 1) ≠ 0 := by positivity
        rw [List.getD_eq_getElem _ _ (by simp [hl]; omega), List.getD_eq_getElem _ _ e5]
        have e7 : lys.take (m + 1) = lys := List.take_of_length_le (by rw [h.len])
        simp only [List.getElem_zipWith, List.getElem_map, List.getElem_range, e7]
        push_cast
        rw [div_mul_cancel₀ _ e6]
    obtain ⟨s, e2, e3, e4⟩ := e1
    rw [e2, ok_bind, hex]
    congr 1
    refine List.ext_getElem (by simp [e3]) fun k h1 h2 => ?_
    have hk : k < 2 * D := by simpa using h2
    have := e4 k hk
    rw [List.getD_eq_getElem _ _ (by omega)] at this
    rw [List.getElem_map, List.getElem_map, List.getElem_range, this, List.take_of_length_le (by simp [h.len])]
    simp
  · refine ⟨by simp [h.len], ?_, by simp [h.elen], ?_, ?_⟩
    · intro l hl'
      rcases List.mem_append.1 hl' with h1 | h1
      · exact h.each l h1
      · rw [List.mem_singleton.1 h1]
        exact ⟨hl, hs⟩
    · rw [← h.first, List.getD_append _ _ _ _ (by rw [h.elen]; omega)]
    · intro m hm
      by_cases hm' : m < n
      · rw [List.getD_append _ _ _ _ (by rw [h.elen]; omega), h.mean m hm', List.take_append_of_le_length (by rw [h.len]; omega)]
      · obtain rfl : m = n := by omega
        rw [List.getD_append_right _ _ _ _ (by rw [h.elen]), h.elen]
        simpa using hex

/-- the sum over the rounds -/
noncomputable def total (lys : List (List ℝ)) (k : ℕ) : ℝ := (lys.map fun l => l.getD k 0).sum

theorem total_append (lys : List (List ℝ)) (ly : List ℝ) (k : ℕ) : total (lys ++ [ly]) k = total lys k + ly.getD k 0 := by simp [total]

/-- the state of the loop after the rounds with the matrices `Js` -/
structure LyInv (D : ℕ) (dt : ℝ) (Q : ND ℂ) (Js : List (ND ℂ)) (a : Tdvp.LyAcc) : Prop where
  hQ : IsUnitary a.Q (2 * D)
  hQB : IsUnitary a.QB (2 * D)
  seq : LySeq D Js.length a.lys a.exps
  seqB : LySeq D Js.length a.lysB a.expsB
  growth : ∃ T : Matrix (Fin (2 * D)) (Fin (2 * D)) ℂ, T.BlockTriangular id ∧ flow (2 * D) dt Js * toM (2 * D) (2 * D) Q = toM (2 * D) (2 * D) a.Q * T ∧
    ∀ k, T k k ≠ 0 ∧ total a.lys k = Real.log ‖T k k‖
  growthB : ∃ T : Matrix (Fin (2 * D)) (Fin (2 * D)) ℂ, T.BlockTriangular id ∧ (flow (2 * D) dt Js)ᵀ * (toM (2 * D) (2 * D) a.QB * T) = toM (2 * D) (2 * D) Q ∧
    ∀ k, T k k ≠ 0 ∧ total a.lysB k = (total a.lys k + Real.log ‖T k k‖) / 2

theorem LyInv.init {D : ℕ} {dt : ℝ} {Q : ND ℂ} (hQ : IsUnitary Q (2 * D)) : LyInv D dt Q [] ⟨Q, Q, [], [[0]], [], [[0]], []⟩ := by
  refine ⟨hQ, hQ, ⟨rfl, by simp, rfl, rfl, by simp⟩, ⟨rfl, by simp, rfl, rfl, by simp⟩, ⟨1, Matrix.blockTriangular_one, by simp [flow], ?_⟩, 1, Matrix.blockTriangular_one,
    by simp [flow], ?_⟩ <;> simp [total]

/-- a round: all but the convergence criterion succeeds -/
theorem LyInv.step {qr : ND ℂ → Py (ND ℂ × ND ℂ)} (hqr : QRLaw qr) (conv : List (List ℝ) → Py ℝ) {D : ℕ} (hD : 0 < D) {dt : ℝ} {Q J : ND ℂ} {Js : List (ND ℂ)}
    {a : Tdvp.LyAcc} (h : LyInv D dt Q Js a) (hJ : HamND D J) :
    ∃ Q' QB' ly ex lyB exB, Tdvp.lyStep qr conv J dt Js.length a =
        (conv (a.exps ++ [ex]) >>= fun c => .ok ⟨Q', QB', a.lys ++ [ly], a.exps ++ [ex], a.lysB ++ [lyB], a.expsB ++ [exB], a.conv ++ [c]⟩) ∧
      ∀ cs, LyInv D dt Q (Js ++ [J]) ⟨Q', QB', a.lys ++ [ly], a.exps ++ [ex], a.lysB ++ [lyB], a.expsB ++ [exB], cs⟩ := by
  have hham := (ham_iff hJ.shape).1 hJ
  have s1 : (J.smul (dt : ℂ)).shape = [2 * D, 2 * D] := hJ.shape
  have m1 : toM (2 * D) (2 * D) (J.smul (dt : ℂ)) = (dt : ℂ) • toM (2 * D) (2 * D) J := toM_smul _ _
  obtain ⟨s2, t2⟩ := toM_tr hJ.shape
  have m2 : toM (2 * D) (2 * D) ((J.tr.smul (-1)).smul (dt : ℂ)) = (dt : ℂ) • (-(toM (2 * D) (2 * D) J)ᵀ) := by
    rw [toM_smul, toM_smul, t2, neg_one_smul]
  obtain ⟨M, Q', R, e1, e2, hQ', hR, tR, pR, nR, lR, zR⟩ := qr_round hqr hD s1 (by rw [m1]; exact ham_smul hham _) h.hQ
  obtain ⟨MB, QB', RB, f1, f2, hQB', hRB, tRB, pRB, nRB, lRB, zRB⟩ := qr_round hqr hD (A := (J.tr.smul (-1)).smul (dt : ℂ)) s2
    (by rw [m2]; exact ham_smul (ham_neg_tr hham) _) h.hQB
  set lyB := List.zipWith (fun u v : ℝ => (u + v) / 2) (Tdvp.logDiag R) (Tdvp.logDiag RB) with hlyB
  have lB : lyB.length = 2 * D := by simp [hlyB, lR, lRB]
  have gB : ∀ k : Fin (2 * D), lyB.getD k 0 = ((Tdvp.logDiag R).getD k 0 + (Tdvp.logDiag RB).getD k 0) / 2 := by
    intro k
    rw [List.getD_eq_getElem _ _ (by rw [lB]; exact k.2), List.getD_eq_getElem _ _ (by rw [lR]; exact k.2), List.getD_eq_getElem _ _ (by rw [lRB]; exact k.2)]
    simp [hlyB]
  have zB : lyB.sum = 0 := by
    rw [list_sum_fin lB, Finset.sum_congr rfl fun k _ => gB k, ← Finset.sum_div, Finset.sum_add_distrib, ← list_sum_fin lR, ← list_sum_fin lRB, zR, zRB]
    simp
  obtain ⟨ex, e3, hseq⟩ := h.seq.push hD lR zR
  obtain ⟨exB, f3, hseqB⟩ := h.seqB.push hD lB zB
  refine ⟨Q', QB', Tdvp.logDiag R, ex, lyB, exB, ?_, fun cs => ⟨hQ', hQB', by simpa using hseq, by simpa using hseqB, ?_, ?_⟩⟩
  · unfold Tdvp.lyStep
    rw [e1, ok_bind, e2, ok_bind]
    simp only
    rw [e3, ok_bind]
    congr 1
    funext c
    rw [f1, ok_bind, f2, ok_bind]
    simp only
    rw [show Tdvp.bcast (· + ·) (Tdvp.logDiag R) (Tdvp.logDiag RB) = .ok (List.zipWith (· + ·) (Tdvp.logDiag R) (Tdvp.logDiag RB)) by
      unfold Tdvp.bcast; rw [if_pos (by rw [lR, lRB])], ok_bind, List.map_zipWith, f3, ok_bind]
  · obtain ⟨T, hT, hp, hd⟩ := h.growth
    refine ⟨toM (2 * D) (2 * D) R * T, tR.mul hT, ?_, fun k => ?_⟩
    · rw [flow_append, Matrix.mul_assoc, hp, ← Matrix.mul_assoc, ← m1, pR, Matrix.mul_assoc]
    · rw [upper_mul_diag tR hT]
      refine ⟨mul_ne_zero (nR k) (hd k).1, ?_⟩
      simp only [total_append]
      rw [(hd k).2, logDiag_getD hR, norm_mul, Real.log_mul (norm_ne_zero_iff.2 (nR k)) (norm_ne_zero_iff.2 (hd k).1), add_comm]
  · obtain ⟨T, hT, hp, hd⟩ := h.growthB
    refine ⟨toM (2 * D) (2 * D) RB * T, tRB.mul hT, ?_, fun k => ?_⟩
    · rw [flow_append, Matrix.transpose_mul, ← Matrix.mul_assoc (toM (2 * D) (2 * D) QB'), ← pRB, m2, smul_neg, Matrix.exp_neg, ← Matrix.transpose_smul, Matrix.exp_transpose,
        Matrix.mul_assoc, Matrix.mul_assoc _⁻¹, ← Matrix.mul_assoc _ᵀ _⁻¹, Matrix.mul_nonsing_inv _ ((Matrix.isUnit_iff_isUnit_det _).1 ?_), one_mul, hp]
      rw [← Matrix.exp_transpose]
      exact Matrix.isUnit_exp _
    · rw [upper_mul_diag tRB hT]
      refine ⟨mul_ne_zero (nRB k) (hd k).1, ?_⟩
      simp only [total_append]
      rw [(hd k).2, gB, logDiag_getD hRB, norm_mul, Real.log_mul (norm_ne_zero_iff.2 (nRB k)) (norm_ne_zero_iff.2 (hd k).1)]
      ring

end Xmps
