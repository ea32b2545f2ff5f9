import Verif.Model.DynExpand
import Verif.Props.TangentVec

/-!
# `right_null_projector` at a site with a diagonal environment
-/

namespace Xmps

open Finset Spec Xmps.Ncon

/-- the vectors `vR` of `right_null_projector`: an orthonormal basis of the kernel of `conj(B) r` -/
structure RNullBasis (d q n k : ℕ) (B : ND ℂ) (rho : ℕ → ℝ) (vR : ND ℂ) : Prop where
  shape : vR.shape = [d, k, n]
  orth : ∀ k1 < k, ∀ k2 < k, ∑ s ∈ range d, ∑ a ∈ range n, star (vR.val [s, k1, a]) * vR.val [s, k2, a] = if k1 = k2 then 1 else 0
  null : ∀ c < q, ∀ k1 < k, ∑ s ∈ range d, ∑ a ∈ range n, star (B.val [s, c, a]) * (rho a : ℂ) * vR.val [s, k1, a] = 0
  complete : ∀ v : ℕ → ℕ → ℂ, (∀ c < q, ∑ s ∈ range d, ∑ a ∈ range n, star (B.val [s, c, a]) * (rho a : ℂ) * v s a = 0) →
    ∀ s < d, ∀ a < n, v s a = ∑ k1 ∈ range k, vR.val [s, k1, a] * ∑ t ∈ range d, ∑ b ∈ range n, star (vR.val [t, k1, b]) * v t b

theorem rightNullVecs_ok {null : ND ℂ → Py (ND ℂ)} (hnull : NullLaw null) {B r : ND ℂ} {d q n : ℕ}
    (hd : 0 < d) (hq : 0 < q) (hn : 0 < n) (hB : B.shape = [d, q, n]) (hr : r.shape = [n, n]) {rho : ℕ → ℝ}
    (hv : ∀ i < n, ∀ j < n, r.val [i, j] = if i = j then (rho i : ℂ) else 0) :
    ∃ vR k, FMPS.rightNullVecs null d B r = .ok vR ∧ RNullBasis d q n k B rho vR := by
  obtain ⟨T, e2, hT, hTv⟩ := diag_mul_right (V := B.conj) hB hr hv
  set L_ := T.transposeR [1, 0, 2] with hL_
  have e3 : T.transpose [1, 0, 2] = .ok L_ :=
    ND.transpose_ok (by simp only [ND.rank, hT, List.length_cons, List.length_nil]; decide)
  have hLs : L_.shape = [q, d, n] := by simp [hL_, ND.transposeR, hT, ND.dim]
  have hLv : ∀ c s a, L_.val [c, s, a] = T.val [s, c, a] := by
    intro c s a
    simp [hL_, ND.transposeR, hT, ND.rank, List.range_succ]
  have hdp : d * n ≠ 0 := (Nat.mul_pos hd hn).ne'
  set L := L_.reshapeR [q, d * n] with hL
  have e4 : L_.reshape [q, d * n] = .ok L := ND.reshape_ok_any (by rw [hLs]; simp)
  have hLv' : ∀ c < q, ∀ s < d, ∀ a < n, L.val [c, s * n + a] = star (B.val [s, c, a]) * (rho a : ℂ) := by
    intro c hc s hs a ha
    have : star (B.val [s, c, a]) * (rho a : ℂ) = L_.val [c, s, a] := by
      rw [hLv, hTv s c a ha]
      rfl
    rw [this]
    refine ND.reshapeR_val_any ?_ ?_
    · rw [hLs]
      exact ⟨hc, hs, ha, trivial⟩
    · rw [hLs]
      simp only [ravel_cons, ravel_nil, List.prod_cons, List.prod_nil]
      ring
  obtain ⟨N, k, e5, hN, hortho, hker, hcomp⟩ := hnull L q (d * n) rfl hq (Nat.pos_of_ne_zero hdp)
  set W := N.reshapeR [d, n, k] with hW
  have e6 : N.reshape [d, n, k] = .ok W := ND.reshape_ok_any (by rw [hN]; simp [mul_assoc])
  have hWs : W.shape = [d, n, k] := rfl
  set vR := W.transposeR [0, 2, 1] with hvR
  have e7 : W.transpose [0, 2, 1] = .ok vR :=
    ND.transpose_ok (by simp only [ND.rank, hWs, List.length_cons, List.length_nil]; decide)
  have hvRv : ∀ s < d, ∀ a < n, ∀ k1 < k, vR.val [s, k1, a] = N.val [s * n + a, k1] := by
    intro s hs a ha k1 hk1
    have : vR.val [s, k1, a] = W.val [s, a, k1] := by
      simp [hvR, ND.transposeR, hWs, ND.rank, List.range_succ]
    rw [this]
    refine ND.reshapeR_val_any ?_ ?_
    · rw [hN]
      exact ⟨mul_add_lt hs ha, hk1, trivial⟩
    · rw [hN]
      simp only [ravel_cons, ravel_nil, List.prod_cons, List.prod_nil]
      ring
  refine ⟨vR, k, ?_, ?_, ?_, ?_, ?_⟩
  · have hd2 : L_.dim 2 = n := by simp [ND.dim, hLs]
    unfold FMPS.rightNullVecs
    rw [e2, ok_bind, e3, ok_bind]
    simp only [hd2]
    have o1 : FMPS.otherExtent L_ (d * n) = .ok q := by
      unfold FMPS.otherExtent
      rw [if_neg hdp]
      congr 1
      rw [ND.size, hLs]
      simp only [List.prod_cons, List.prod_nil, mul_one]
      exact Nat.mul_div_cancel _ (Nat.pos_of_ne_zero hdp)
    have o2 : FMPS.otherExtent N (d * n) = .ok k := by
      unfold FMPS.otherExtent
      rw [if_neg hdp]
      congr 1
      rw [ND.size, hN]
      simp only [List.prod_cons, List.prod_nil, mul_one]
      exact Nat.mul_div_cancel_left _ (Nat.pos_of_ne_zero hdp)
    rw [o1, ok_bind, e4, ok_bind, e5, ok_bind, o2, ok_bind, e6, ok_bind, e7]
  · simp [hvR, ND.transposeR, hWs, ND.dim]
  · intro k1 hk1 k2 hk2
    have h := hortho k1 (by simpa [ND.dim, hN] using hk1) k2 (by simpa [ND.dim, hN] using hk2)
    rw [show N.dim 0 = d * n by simp [ND.dim, hN], sum_range_mul] at h
    rw [← h]
    refine Finset.sum_congr rfl fun s hs => Finset.sum_congr rfl fun a ha => ?_
    simp only [Finset.mem_range] at hs ha
    rw [hvRv s hs a ha k1 hk1, hvRv s hs a ha k2 hk2]
  · intro c hc k1 hk1
    have h := hker c hc k1 hk1
    rw [sum_range_mul] at h
    rw [← h]
    refine Finset.sum_congr rfl fun s hs => Finset.sum_congr rfl fun a ha => ?_
    simp only [Finset.mem_range] at hs ha
    rw [hvRv s hs a ha k1 hk1, hLv' c hc s hs a ha]
  · intro v hv s hs a ha
    have h := hcomp (fun j => v (j / n) (j % n)) (by
      intro c hc
      rw [sum_range_mul, ← hv c hc]
      refine Finset.sum_congr rfl fun s hs => Finset.sum_congr rfl fun a ha => ?_
      simp only [Finset.mem_range] at hs ha
      rw [hLv' c hc s hs a ha, flat_div ha, flat_mod ha]) (s * n + a) (mul_add_lt hs ha)
    simp only [flat_div ha, flat_mod ha] at h
    rw [h]
    refine Finset.sum_congr rfl fun k1 hk1 => ?_
    have hk1 := Finset.mem_range.1 hk1
    rw [hvRv s hs a ha k1 hk1, sum_range_mul]
    congr 1
    refine Finset.sum_congr rfl fun t ht => Finset.sum_congr rfl fun b hb => ?_
    simp only [Finset.mem_range] at ht hb
    rw [hvRv t ht b hb k1 hk1, flat_div hb, flat_mod hb]

/-- `right_null_projector` returns (the projector itself is not used by the callers) -/
theorem rightNull_ok {chol inv null : ND ℂ → Py (ND ℂ)} (hchol : CholTriLaw chol) (hinv : InvLaw inv) (hnull : NullLaw null) (O : SetOrder)
    {x : FMPS ℂ} {B r : ND ℂ} {d q n i : ℕ} {rs : List (ND ℂ)} (hxd : x.d = d) (hi : i < x.data.length) (hBi : x.data[i] = B)
    (hd : 0 < d) (hq : 0 < q) (hn : 0 < n) (hB : B.shape = [d, q, n]) (er : FMPS.envAt rs (i : ℤ) = .ok r) (hr : r.shape = [n, n]) {rho : ℕ → ℝ}
    (hv : ∀ i < n, ∀ j < n, r.val [i, j] = if i = j then (rho i : ℂ) else 0) (hpos : ∀ i < n, 0 < rho i) :
    ∃ pr vR k, FMPS.rightNull chol inv null O x rs i = .ok (pr, vR) ∧ RNullBasis d q n k B rho vR := by
  obtain ⟨vR, k, e1, hb⟩ := rightNullVecs_ok hnull hd hq hn hB hr hv
  obtain ⟨X, Y, e2, e3, hX, hY, hXv, hYv⟩ := inv_chol_diag hchol hinv hr hv hpos
  have hvc : vR.conj.shape = [d, k, n] := hb.shape
  obtain ⟨pr, e5, -, -⟩ := nc_eval O (AA := [Y, vR, vR.conj, Y]) (v := [[-2, 2], [-1, 1, 2], [-3, 1, 4], [-4, 4]])
    (dimOf [(1, k), (2, n), (4, n), (-1, d), (-2, n), (-3, d), (-4, n)]) [1, 2, 4] [-1, -2, -3, -4]
    ⟨by simp, by simp [hY, hvc, hb.shape, dimOf, List.lookup], by simp, by simp, by decide, by decide, by decide, by decide, by decide⟩
    (by decide) (by decide)
  refine ⟨pr, vR, k, ?_, hb⟩
  unfold FMPS.rightNull
  rw [pyGet_ok hi, ok_bind, er, ok_bind, hBi, hxd, e1, ok_bind, e2, ok_bind, e3, ok_bind, e5, ok_bind]

/-- a vector in the span of the null vectors that is orthogonal to them with the weights `rho` vanishes -/
theorem RNullBasis.zero {d q n k : ℕ} {B vR : ND ℂ} {rho : ℕ → ℝ} (hb : RNullBasis d q n k B rho vR) (hpos : ∀ a < n, 0 < rho a) {v : ℕ → ℕ → ℂ}
    (h0 : ∀ c < q, ∑ s ∈ range d, ∑ a ∈ range n, star (B.val [s, c, a]) * (rho a : ℂ) * v s a = 0)
    (h1 : ∀ k1 < k, ∑ s ∈ range d, ∑ a ∈ range n, v s a * (rho a : ℂ) * star (vR.val [s, k1, a]) = 0) : ∀ s < d, ∀ a < n, v s a = 0 := by
  have hc := hb.complete v h0
  have hz : ∑ s ∈ range d, ∑ a ∈ range n, v s a * (rho a : ℂ) * star (v s a) = 0 := by
    calc _ = ∑ s ∈ range d, ∑ a ∈ range n, ∑ k1 ∈ range k, v s a * (rho a : ℂ) * star (vR.val [s, k1, a]) *
          star (∑ t ∈ range d, ∑ b ∈ range n, star (vR.val [t, k1, b]) * v t b) := by
          refine Finset.sum_congr rfl fun s hs => Finset.sum_congr rfl fun a ha => ?_
          conv_lhs => rw [show star (v s a) = star (∑ k1 ∈ range k, vR.val [s, k1, a] * ∑ t ∈ range d, ∑ b ∈ range n, star (vR.val [t, k1, b]) * v t b) from
            congrArg star (hc s (Finset.mem_range.1 hs) a (Finset.mem_range.1 ha)), star_sum, Finset.mul_sum]
          exact Finset.sum_congr rfl fun k1 _ => by rw [star_mul']; ring
      _ = ∑ k1 ∈ range k, (∑ s ∈ range d, ∑ a ∈ range n, v s a * (rho a : ℂ) * star (vR.val [s, k1, a])) *
          star (∑ t ∈ range d, ∑ b ∈ range n, star (vR.val [t, k1, b]) * v t b) := by
          rw [sum_swap2]
          refine Finset.sum_congr rfl fun k1 _ => ?_
          simp only [Finset.sum_mul]
      _ = 0 := Finset.sum_eq_zero fun k1 hk => by rw [h1 k1 (Finset.mem_range.1 hk), zero_mul]
  have hr : ∑ s ∈ range d, ∑ a ∈ range n, rho a * Complex.normSq (v s a) = 0 := by
    have := congrArg Complex.re hz
    rw [Complex.re_sum] at this
    rw [← Complex.zero_re, ← this]
    refine Finset.sum_congr rfl fun s _ => ?_
    rw [Complex.re_sum]
    refine Finset.sum_congr rfl fun a _ => ?_
    rw [mul_comm (v s a), mul_assoc, Complex.star_def, Complex.mul_conj, ← Complex.ofReal_mul, Complex.ofReal_re]
  intro s hs a ha
  have hnn : ∀ s ∈ range d, 0 ≤ ∑ a ∈ range n, rho a * Complex.normSq (v s a) := fun s _ =>
    Finset.sum_nonneg fun a ha => mul_nonneg (hpos a (Finset.mem_range.1 ha)).le (Complex.normSq_nonneg _)
  have h2 := (Finset.sum_eq_zero_iff_of_nonneg hnn).1 hr s (Finset.mem_range.2 hs)
  have h3 := (Finset.sum_eq_zero_iff_of_nonneg fun a ha => mul_nonneg (hpos a (Finset.mem_range.1 ha)).le (Complex.normSq_nonneg (v s a))).1 h2 a
    (Finset.mem_range.2 ha)
  exact Complex.normSq_eq_zero.1 ((mul_eq_zero.1 h3).resolve_left (hpos a ha).ne')

/-- there is a null vector exactly if `q < d n` -/
theorem RNullBasis.count {chol null : ND ℂ → Py (ND ℂ)} (hchol : CholTriLaw chol) (hnull : NullLaw null) {d q n k : ℕ} {B vR : ND ℂ} {rho mu : ℕ → ℝ}
    (hb : RNullBasis d q n k B rho vR) (hd : 0 < d) (hq : 0 < q) (hn : 0 < n)
    (next : ∀ c < q, ∀ c' < q, ∑ s ∈ range d, ∑ a ∈ range n, B.val [s, c, a] * (rho a : ℂ) * star (B.val [s, c', a]) = if c = c' then (mu c : ℂ) else 0)
    (hpos : ∀ a < n, 0 < rho a) (hmu : ∀ a < q, 0 < mu a) : q ≤ d * n ∧ (k = 0 ↔ q = d * n) := by
  obtain ⟨W, k', -, hW⟩ := nullVecs_ok hchol hnull (A := ⟨[d, n, q], fun
      | [s, a, c] => star (B.val [s, c, a])
      | _ => 0⟩) (l := ⟨[n, n], fun
      | [i, j] => if i = j then (rho i : ℂ) else 0
      | _ => 0⟩) hd hn hq rfl rfl (lam := rho) (by simp) hpos
  have hcnt : k' + q = d * n := hW.count (mu := mu) (by
    intro a ha b hb
    rw [← next a ha b hb]
    refine Finset.sum_congr rfl fun s _ => Finset.sum_congr rfl fun c _ => ?_
    simp) hpos hmu
  have hsq : ∀ a < n, ((Real.sqrt (rho a) : ℝ) : ℂ) * ((Real.sqrt (rho a) : ℝ) : ℂ) = (rho a : ℂ) := by
    intro a ha
    rw [← Complex.ofReal_mul, Real.mul_self_sqrt (hpos a ha).le]
  have hne : ∀ a < n, ((Real.sqrt (rho a) : ℝ) : ℂ) ≠ 0 := fun a ha => Complex.ofReal_ne_zero.2 (Real.sqrt_pos.2 (hpos a ha)).ne'
  refine ⟨by omega, ?_, ?_⟩
  · rintro rfl
    by_contra hne'
    have hk' : 0 < k' := by omega
    have hz := hb.complete (fun s a => star (W.val [s, a, 0]) * ((Real.sqrt (rho a) : ℝ) : ℂ)⁻¹) (by
      intro c hc
      have h := congrArg star (hW.null c hc 0 hk')
      rw [star_zero, star_sum] at h
      rw [← h]
      refine Finset.sum_congr rfl fun s _ => ?_
      rw [star_sum]
      refine Finset.sum_congr rfl fun a ha => ?_
      have ha := Finset.mem_range.1 ha
      simp only [star_mul', star_star, ← hsq a ha]
      rw [show star ((Real.sqrt (rho a) : ℝ) : ℂ) = _ from Complex.conj_ofReal _]
      field_simp [hne a ha])
    have h1 := hW.orth 0 hk' 0 hk'
    rw [if_pos rfl, Finset.sum_eq_zero] at h1
    · exact zero_ne_one h1
    · intro s hs
      refine Finset.sum_eq_zero fun a ha => ?_
      have ha := Finset.mem_range.1 ha
      have h2 := hz s (Finset.mem_range.1 hs) a ha
      simp only [Finset.range_zero, Finset.sum_empty, mul_eq_zero, inv_eq_zero, hne a ha, or_false] at h2
      rw [h2, zero_mul]
  · intro hqn
    obtain rfl : k' = 0 := by omega
    by_contra hk0
    have hk : 0 < k := by omega
    have hz := hW.complete (fun s a => ((Real.sqrt (rho a) : ℝ) : ℂ) * star (vR.val [s, 0, a])) (by
      intro c hc
      have h := congrArg star (hb.null c hc 0 hk)
      rw [star_zero, star_sum] at h
      rw [← h]
      refine Finset.sum_congr rfl fun s _ => ?_
      rw [star_sum]
      refine Finset.sum_congr rfl fun a ha => ?_
      have ha := Finset.mem_range.1 ha
      simp only [star_mul', star_star]
      rw [show star ((rho a : ℝ) : ℂ) = _ from Complex.conj_ofReal _, ← hsq a ha]
      ring)
    have h1 := hb.orth 0 hk 0 hk
    rw [if_pos rfl, Finset.sum_eq_zero] at h1
    · exact zero_ne_one h1
    · intro s hs
      refine Finset.sum_eq_zero fun a ha => ?_
      have ha := Finset.mem_range.1 ha
      have h2 := hz s (Finset.mem_range.1 hs) a ha
      simp only [Finset.range_zero, Finset.sum_empty, mul_eq_zero, hne a ha, false_or] at h2
      rw [h2, zero_mul]

end Xmps
