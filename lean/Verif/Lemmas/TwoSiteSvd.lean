import Verif.Lemmas.TwoSite

/-! # The SVD path of a pair gate -/

namespace Xmps

open Finset Spec Xmps.Ncon

theorem list_sum_range : ∀ S : List ℝ, S.sum = ∑ e ∈ range S.length, S.getD e 0
  | [] => by simp
  | a :: S => by rw [List.sum_cons, List.length_cons, Finset.sum_range_succ', list_sum_range S]; simp [add_comm]

theorem listNorm_sq (S : List ℝ) (D : ℕ) : listNorm (S.take D) ^ 2 = ∑ e ∈ range (min D S.length), S.getD e 0 ^ 2 := by
  rw [listNorm, Real.sq_sqrt (List.sum_nonneg (by
    intro a ha; obtain ⟨b, -, rfl⟩ := List.mem_map.1 ha; exact sq_nonneg b)), list_sum_range]
  simp only [List.length_map, List.length_take]
  refine Finset.sum_congr rfl fun e he => ?_
  have he : e < min D S.length := by simpa using he
  simp [List.getD_eq_getElem?_getD, List.getElem?_take, show e < D by omega, show e < S.length by omega]

theorem listNorm_nonneg (S : List ℝ) : 0 ≤ listNorm S := Real.sqrt_nonneg _

theorem svdFactors_ok {U V : ND ℂ} {S : List ℝ} {m n k D : ℕ} (hU : U.shape = [m, k]) (hS : S.length = k) (hV : V.shape = [k, n])
    (hUo : ColsOrtho U) (hVo : RowsOrtho V) (hc : listNorm (S.take D) ≠ 0) {which : Side} (hw : which ≠ .other) :
    ∃ Q R, svdFactors U S V D which = .ok (Q, R) ∧ Q.shape = [m, min D k] ∧ R.shape = [min D k, n] ∧
      (which = .l → ColsOrtho Q ∧ ∑ e ∈ range (min D k), ∑ j ∈ range n, star (R.val [e, j]) * R.val [e, j] = 1) ∧
      (which = .r → RowsOrtho R ∧ ∑ i ∈ range m, ∑ e ∈ range (min D k), star (Q.val [i, e]) * Q.val [i, e] = 1) ∧
      ∀ i < m, ∀ j < n, ∑ e ∈ range (min D k), Q.val [i, e] * R.val [e, j] =
        ((listNorm (S.take D) : ℝ) : ℂ)⁻¹ * ∑ e ∈ range (min D k), U.val [i, e] * (S.getD e 0 : ℝ) * V.val [e, j] := by
  set c := listNorm (S.take D) with hcdef
  have hcC : (c : ℂ) ≠ 0 := by exact_mod_cast hc
  have hsq : ((∑ e ∈ range (min D k), S.getD e 0 ^ 2 : ℝ) : ℂ) = c * c := by
    rw [← hS, ← listNorm_sq, ← hcdef]; push_cast; ring
  match which, hw with
  | .l, _ =>
    obtain ⟨B, e1, hB, hBv⟩ := ND.matmul22 (A := (diagC S).head 0 D) (B := V) (m := min D k) (k := k) (n := n)
      (by simp [ND.head, diagC_shape, hS, ND.dim]) hV
    have hBv' : ∀ e < min D k, ∀ j, B.val [e, j] = (S.getD e 0 : ℝ) * V.val [e, j] := by
      intro e he j
      rw [hBv]
      simp only [ND.head, diagC_val, ite_mul, zero_mul]
      rw [Finset.sum_ite_eq, if_pos (by simp; omega)]
    refine ⟨U.head 1 D, B.smul ((c : ℂ))⁻¹, ?_, by simp [ND.head, hU, ND.dim], by simpa [ND.smul] using hB, ?_, by simp, ?_⟩
    · unfold svdFactors
      rw [← hcdef]
      simp only [ne_eq, hc, not_false_eq_true, decide_true, guardPy_true, ok_bind, e1]
    · intro _
      refine ⟨?_, ?_⟩
      · intro a ha b hb
        have d1 : (U.head 1 D).dim 1 = min D k := by simp [ND.head, hU, ND.dim]
        have d0 : (U.head 1 D).dim 0 = U.dim 0 := by simp [ND.head, hU, ND.dim]
        rw [d1] at ha hb
        rw [d0]
        exact hUo a (by simp [ND.dim, hU]; omega) b (by simp [ND.dim, hU]; omega)
      · have : ∀ e ∈ range (min D k), ∑ j ∈ range n, star ((B.smul ((c : ℂ))⁻¹).val [e, j]) * (B.smul ((c : ℂ))⁻¹).val [e, j] =
            (c : ℂ)⁻¹ * (c : ℂ)⁻¹ * ((S.getD e 0 ^ 2 : ℝ) : ℂ) := by
          intro e he
          have he : e < min D k := by simpa using he
          have ho := hVo e (by simp [ND.dim, hV]; omega) e (by simp [ND.dim, hV]; omega)
          rw [if_pos rfl, show V.dim 1 = n by simp [ND.dim, hV]] at ho
          rw [← mul_one ((c : ℂ)⁻¹ * (c : ℂ)⁻¹ * ((S.getD e 0 ^ 2 : ℝ) : ℂ)), ← ho, Finset.mul_sum]
          refine Finset.sum_congr rfl fun j _ => ?_
          simp only [ND.smul, hBv' e he, star_mul', star_inv₀, Complex.star_def, Complex.conj_ofReal]
          push_cast
          ring
        rw [Finset.sum_congr rfl this, ← Finset.mul_sum, ← Complex.ofReal_sum, hsq]
        field_simp
    · intro i _ j _
      rw [Finset.mul_sum]
      refine Finset.sum_congr rfl fun e he => ?_
      rw [show (B.smul ((c : ℂ))⁻¹).val [e, j] = (c : ℂ)⁻¹ * B.val [e, j] from rfl, hBv' e (by simpa using he) j]
      simp only [ND.head]
      ring
  | .r, _ =>
    obtain ⟨A, e1, hA, hAv⟩ := ND.matmul22 (A := U) (B := (diagC S).head 1 D) (m := m) (k := k) (n := min D k) hU
      (by simp [ND.head, diagC_shape, hS, ND.dim])
    have hAv' : ∀ i, ∀ e < min D k, A.val [i, e] = U.val [i, e] * (S.getD e 0 : ℝ) := by
      intro i e he
      rw [hAv]
      simp only [ND.head, diagC_val, mul_ite, mul_zero]
      rw [Finset.sum_ite_eq', if_pos (by simp; omega)]
    refine ⟨A.smul ((c : ℂ))⁻¹, V.head 0 D, ?_, by simpa [ND.smul] using hA, by simp [ND.head, hV, ND.dim], by simp, ?_, ?_⟩
    · unfold svdFactors
      rw [← hcdef]
      simp only [ne_eq, hc, not_false_eq_true, decide_true, guardPy_true, ok_bind, e1]
    · intro _
      refine ⟨?_, ?_⟩
      · intro a ha b hb
        have d1 : (V.head 0 D).dim 0 = min D k := by simp [ND.head, hV, ND.dim]
        have d0 : (V.head 0 D).dim 1 = V.dim 1 := by simp [ND.head, hV, ND.dim]
        rw [d1] at ha hb
        rw [d0]
        exact hVo a (by simp [ND.dim, hV]; omega) b (by simp [ND.dim, hV]; omega)
      · rw [Finset.sum_comm]
        have : ∀ e ∈ range (min D k), ∑ i ∈ range m, star ((A.smul ((c : ℂ))⁻¹).val [i, e]) * (A.smul ((c : ℂ))⁻¹).val [i, e] =
            (c : ℂ)⁻¹ * (c : ℂ)⁻¹ * ((S.getD e 0 ^ 2 : ℝ) : ℂ) := by
          intro e he
          have he : e < min D k := by simpa using he
          have ho := hUo e (by simp [ND.dim, hU]; omega) e (by simp [ND.dim, hU]; omega)
          rw [if_pos rfl, show U.dim 0 = m by simp [ND.dim, hU]] at ho
          rw [← mul_one ((c : ℂ)⁻¹ * (c : ℂ)⁻¹ * ((S.getD e 0 ^ 2 : ℝ) : ℂ)), ← ho, Finset.mul_sum]
          refine Finset.sum_congr rfl fun j _ => ?_
          simp only [ND.smul, hAv' _ e he, star_mul', star_inv₀, Complex.star_def, Complex.conj_ofReal]
          push_cast
          ring
        rw [Finset.sum_congr rfl this, ← Finset.mul_sum, ← Complex.ofReal_sum, hsq]
        field_simp
    · intro i _ j _
      rw [Finset.mul_sum]
      refine Finset.sum_congr rfl fun e he => ?_
      rw [show (A.smul ((c : ℂ))⁻¹).val [i, e] = (c : ℂ)⁻¹ * A.val [i, e] from rfl, hAv' i e (by simpa using he)]
      simp only [ND.head]
      ring

/-- the norm of the kept singular values is zero only for the zero matrix -/
theorem kept_ne_zero {S : List ℝ} {D : ℕ} (hD : 0 < D) (hpos : ∀ x ∈ S, 0 ≤ x) (hs : S.Pairwise (· ≥ ·)) (hnz : ∃ x ∈ S, x ≠ 0) :
    listNorm (S.take D) ≠ 0 := by
  intro h
  have h2 : listNorm (S.take D) ^ 2 = 0 := by rw [h]; ring
  rw [listNorm_sq] at h2
  obtain ⟨x, hx, hne⟩ := hnz
  match S, hx with
  | a :: S, hx =>
    have ha : a = 0 := by
      have := (Finset.sum_eq_zero_iff_of_nonneg (fun e _ => sq_nonneg _)).1 h2 0 (by simp; omega)
      simpa using this
    rcases List.mem_cons.1 hx with rfl | hx
    · exact hne ha
    · have h1 := (List.pairwise_cons.1 hs).1 x hx
      have h2 := hpos x (List.mem_cons_of_mem _ hx)
      exact hne (by linarith)

theorem separateSvd_ok {svd : Svd} (hsvd : SVDLaw svd) {T : ND ℂ} {d l r D : ℕ} (hd : 0 < d) (hl : 0 < l) (hr : 0 < r) (hD : 0 < D)
    (hT : T.shape = [d * d, l, r]) (hnz : ∃ s < d, ∃ t < d, ∃ a < l, ∃ c < r, T.val [s * d + t, a, c] ≠ 0) {which : Side}
    (hw : which ≠ .other) :
    ∃ A B k, ∃ v : ℝ, separateSvd svd T D which = .ok (A, B) ∧ 0 < v ∧ 0 < k ∧ k ≤ D ∧ A.shape = [d, l, k] ∧ B.shape = [d, k, r] ∧
      (which = .l → LeftIso A ∧ ∑ t ∈ range d, ∑ e ∈ range k, ∑ c ∈ range r, star (B.val [t, e, c]) * B.val [t, e, c] = 1) ∧
      (which = .r → RightIso B ∧ ∑ s ∈ range d, ∑ a ∈ range l, ∑ e ∈ range k, star (A.val [s, a, e]) * A.val [s, a, e] = 1) ∧
      (min (d * l) (d * r) ≤ D → ∀ s < d, ∀ t < d, ∀ a < l, ∀ c < r,
        ∑ e ∈ range k, A.val [s, a, e] * B.val [t, e, c] = (v : ℂ)⁻¹ * T.val [s * d + t, a, c]) := by
  obtain ⟨M, e1, hM, hMv⟩ := separatePre_ok hd hT
  obtain ⟨U, S, V, e2, hU, hS, hV, hUo, hVo, hpos, hsort, hv⟩ := hsvd M _ _ hM (Nat.mul_pos hd hl) (Nat.mul_pos hd hr)
  have hc : listNorm (S.take D) ≠ 0 := by
    refine kept_ne_zero hD hpos hsort ?_
    by_contra hz
    push Not at hz
    obtain ⟨s, hs, t, ht, a, ha, c, hc, hne⟩ := hnz
    apply hne
    rw [← hMv s hs t ht a ha c hc, hv _ (mul_add_lt hs ha) _ (mul_add_lt ht hc)]
    refine Finset.sum_eq_zero fun k _ => ?_
    have : S.getD k 0 = 0 := by
      rw [List.getD_eq_getElem?_getD]
      by_cases hk : k < S.length
      · simp [hk, hz _ (List.getElem_mem hk)]
      · simp [hk]
    rw [this]; simp
  obtain ⟨Q, R, e3, hQ, hR, hl', hr', hQR⟩ := svdFactors_ok hU hS hV hUo hVo hc hw
  obtain ⟨A, B, e4, hA, hB, hAv, hBv⟩ := separatePost_ok hQ hR
  refine ⟨A, B, _, listNorm (S.take D), ?_, lt_of_le_of_ne (listNorm_nonneg _) hc.symm,
    lt_min hD (lt_min (Nat.mul_pos hd hl) (Nat.mul_pos hd hr)), min_le_left _ _, hA, hB, ?_, ?_, ?_⟩
  · unfold separateSvd
    rw [e1, ok_bind]
    simp only
    rw [e2, ok_bind]
    simp only
    rw [e3, ok_bind]
    simp only
    rw [dim1 hT, dim2 hT, e4]
  · intro h
    obtain ⟨h1, h2⟩ := hl' h
    refine ⟨leftIso_of_cols hQ hA hAv h1, ?_⟩
    rw [← h2, Finset.sum_comm]
    refine Finset.sum_congr rfl fun e he => ?_
    rw [sum_range_mul]
    refine Finset.sum_congr rfl fun t ht => Finset.sum_congr rfl fun c hc => ?_
    rw [hBv t (by simpa using ht) e (by simpa using he) c (by simpa using hc)]
  · intro h
    obtain ⟨h1, h2⟩ := hr' h
    refine ⟨rightIso_of_rows hR hB hBv h1, ?_⟩
    rw [← h2, sum_range_mul]
    refine Finset.sum_congr rfl fun s hs => Finset.sum_congr rfl fun a ha => Finset.sum_congr rfl fun e he => ?_
    rw [hAv s (by simpa using hs) a (by simpa using ha) e (by simpa using he)]
  · intro hfull s hs t ht a ha c hc'
    have b1 := mul_add_lt hs ha
    have b2 := mul_add_lt ht hc'
    rw [← hMv s hs t ht a ha c hc', hv _ b1 _ b2]
    rw [min_eq_right hfull] at hQR hAv hBv ⊢
    rw [← hQR _ b1 _ b2]
    refine Finset.sum_congr rfl fun e he => ?_
    have he : e < min (d * l) (d * r) := by simpa using he
    rw [hAv s hs a ha e he, hBv t ht e he c hc']

end Xmps
