import Verif.Model.DAdt
import Verif.Props.Chol
import Verif.Props.Envs
import Verif.Props.Tfd
import Verif.Props.Vidal

/-!
# Theorems about `left_null_projector` (C48)
-/

namespace Xmps

open Finset Spec Xmps.Ncon

/-- What `vL` of `left_null_projector` is, for a site tensor `A` and the diagonal environment `lam`: an orthonormal basis of the
vectors `v` with `Σ_s A_s† sqrt(l) v_s = 0`. -/
structure NullBasis (d p q k : ℕ) (A : ND ℂ) (lam : ℕ → ℝ) (vL : ND ℂ) : Prop where
  shape : vL.shape = [d, p, k]
  orth : ∀ k1 < k, ∀ k2 < k, ∑ s ∈ range d, ∑ a ∈ range p, star (vL.val [s, a, k1]) * vL.val [s, a, k2] = if k1 = k2 then 1 else 0
  null : ∀ c < q, ∀ k1 < k, ∑ s ∈ range d, ∑ a ∈ range p, star (A.val [s, a, c]) * (Real.sqrt (lam a) : ℝ) * vL.val [s, a, k1] = 0
  complete : ∀ v : ℕ → ℕ → ℂ, (∀ c < q, ∑ s ∈ range d, ∑ a ∈ range p, star (A.val [s, a, c]) * (Real.sqrt (lam a) : ℝ) * v s a = 0) →
    ∀ s < d, ∀ a < p, v s a = ∑ k1 ∈ range k, vL.val [s, a, k1] * ∑ t ∈ range d, ∑ b ∈ range p, star (vL.val [t, b, k1]) * v t b

theorem nullVecs_ok {chol null : ND ℂ → Py (ND ℂ)} (hchol : CholTriLaw chol) (hnull : NullLaw null) {A l : ND ℂ} {d p q : ℕ}
    (hd : 0 < d) (hp : 0 < p) (hq : 0 < q) (hA : A.shape = [d, p, q]) (hl : l.shape = [p, p]) {lam : ℕ → ℝ}
    (hv : ∀ i < p, ∀ j < p, l.val [i, j] = if i = j then (lam i : ℂ) else 0) (hpos : ∀ i < p, 0 < lam i) :
    ∃ vL k, FMPS.nullVecs chol null d A l = .ok vL ∧ NullBasis d p q k A lam vL := by
  obtain ⟨X, e1, hX, hXv⟩ := chol_diag hchol hl hv hpos
  obtain ⟨hs, hhc⟩ := hc3 hA
  obtain ⟨T, e2, hT, hTv⟩ := ND.matmul32 hs hX
  have hT' : ∀ s c a, a < p → T.val [s, c, a] = star (A.val [s, a, c]) * (Real.sqrt (lam a) : ℝ) := by
    intro s c a ha
    rw [hTv, Finset.sum_eq_single a]
    · rw [hhc, hXv a ha a ha, if_pos rfl]
    · intro b hb hba
      rw [hXv b (Finset.mem_range.1 hb) a ha, if_neg hba, mul_zero]
    · intro hn
      exact absurd (Finset.mem_range.2 ha) hn
  set L_ := T.transposeR [1, 0, 2] with hL_
  have e3 : T.transpose [1, 0, 2] = .ok L_ :=
    ND.transpose_ok (by simp only [ND.rank, hT, List.length_cons, List.length_nil]; decide)
  have hLs : L_.shape = [q, d, p] := by simp [hL_, ND.transposeR, hT, ND.dim]
  have hLv : ∀ c s a, L_.val [c, s, a] = T.val [s, c, a] := by
    intro c s a
    simp [hL_, ND.transposeR, hT, ND.rank, List.range_succ]
  have hdp : d * p ≠ 0 := (Nat.mul_pos hd hp).ne'
  set L := L_.reshapeR [q, d * p] with hL
  have e4 : L_.reshape [q, d * p] = .ok L := ND.reshape_ok_any (by rw [hLs]; simp)
  have hLv' : ∀ c < q, ∀ s < d, ∀ a < p, L.val [c, s * p + a] = star (A.val [s, a, c]) * (Real.sqrt (lam a) : ℝ) := by
    intro c hc s hs a ha
    rw [← hT' s c a ha, ← hLv]
    refine ND.reshapeR_val_any ?_ ?_
    · rw [hLs]
      exact ⟨hc, hs, ha, trivial⟩
    · rw [hLs]
      simp only [ravel_cons, ravel_nil, List.prod_cons, List.prod_nil]
      ring
  obtain ⟨N, k, e5, hN, hortho, hker, hcomp⟩ := hnull L q (d * p) rfl hq (Nat.pos_of_ne_zero hdp)
  set vL := N.reshapeR [d, p, k] with hvL
  have e6 : N.reshape [d, p, k] = .ok vL := ND.reshape_ok_any (by rw [hN]; simp [mul_assoc])
  have hvLv : ∀ s < d, ∀ a < p, ∀ k1 < k, vL.val [s, a, k1] = N.val [s * p + a, k1] := by
    intro s hs a ha k1 hk1
    refine ND.reshapeR_val_any ?_ ?_
    · rw [hN]
      exact ⟨mul_add_lt hs ha, hk1, trivial⟩
    · rw [hN]
      simp only [ravel_cons, ravel_nil, List.prod_cons, List.prod_nil]
      ring
  refine ⟨vL, k, ?_, rfl, ?_, ?_, ?_⟩
  · have hd2 : L_.dim 2 = p := by simp [ND.dim, hLs]
    have hl1 : L.dim 1 = d * p := rfl
    unfold FMPS.nullVecs
    rw [e1, ok_bind, e2, ok_bind, e3, ok_bind]
    simp only [hd2]
    have o1 : FMPS.otherExtent L_ (d * p) = .ok q := by
      unfold FMPS.otherExtent
      rw [if_neg hdp]
      congr 1
      rw [ND.size, hLs]
      simp only [List.prod_cons, List.prod_nil, mul_one]
      exact Nat.mul_div_cancel _ (Nat.pos_of_ne_zero hdp)
    have o2 : FMPS.otherExtent N (d * p) = .ok k := by
      unfold FMPS.otherExtent
      rw [if_neg hdp]
      congr 1
      rw [ND.size, hN]
      simp only [List.prod_cons, List.prod_nil, mul_one]
      exact Nat.mul_div_cancel_left _ (Nat.pos_of_ne_zero hdp)
    rw [o1, ok_bind, e4, ok_bind, e5, ok_bind, hl1, Nat.mul_div_cancel_left _ hd, o2, ok_bind, e6]
  · intro k1 hk1 k2 hk2
    have h := hortho k1 (by simpa [ND.dim, hN] using hk1) k2 (by simpa [ND.dim, hN] using hk2)
    rw [show N.dim 0 = d * p by simp [ND.dim, hN], sum_range_mul] at h
    rw [← h]
    refine Finset.sum_congr rfl fun s hs => Finset.sum_congr rfl fun a ha => ?_
    simp only [Finset.mem_range] at hs ha
    rw [hvLv s hs a ha k1 hk1, hvLv s hs a ha k2 hk2]
  · intro c hc k1 hk1
    have h := hker c hc k1 hk1
    rw [sum_range_mul] at h
    rw [← h]
    refine Finset.sum_congr rfl fun s hs => Finset.sum_congr rfl fun a ha => ?_
    simp only [Finset.mem_range] at hs ha
    rw [hvLv s hs a ha k1 hk1, hLv' c hc s hs a ha]
  · intro v hv s hs a ha
    have h := hcomp (fun j => v (j / p) (j % p)) (by
      intro c hc
      rw [sum_range_mul, ← hv c hc]
      refine Finset.sum_congr rfl fun s hs => Finset.sum_congr rfl fun a ha => ?_
      simp only [Finset.mem_range] at hs ha
      rw [hLv' c hc s hs a ha, flat_div ha, flat_mod ha]) (s * p + a) (mul_add_lt hs ha)
    simp only [flat_div ha, flat_mod ha] at h
    rw [h]
    refine Finset.sum_congr rfl fun k1 hk1 => ?_
    have hk1 := Finset.mem_range.1 hk1
    rw [hvLv s hs a ha k1 hk1, sum_range_mul]
    congr 1
    refine Finset.sum_congr rfl fun t ht => Finset.sum_congr rfl fun b hb => ?_
    simp only [Finset.mem_range] at ht hb
    rw [hvLv t ht b hb k1 hk1, flat_div hb, flat_mod hb]

/-- `inv(ch(l))` of a diagonal `l` -/
theorem inv_chol_diag {chol inv : ND ℂ → Py (ND ℂ)} (hchol : CholTriLaw chol) (hinv : InvLaw inv) {l : ND ℂ} {p : ℕ} (hl : l.shape = [p, p])
    {lam : ℕ → ℝ} (hv : ∀ i < p, ∀ j < p, l.val [i, j] = if i = j then (lam i : ℂ) else 0) (hpos : ∀ i < p, 0 < lam i) :
    ∃ X Y, chol l = .ok X ∧ inv X = .ok Y ∧ X.shape = [p, p] ∧ Y.shape = [p, p] ∧
      (∀ i < p, ∀ j < p, X.val [i, j] = if i = j then ((Real.sqrt (lam i) : ℝ) : ℂ) else 0) ∧
      ∀ i < p, ∀ j < p, Y.val [i, j] = if i = j then (((Real.sqrt (lam i))⁻¹ : ℝ) : ℂ) else 0 := by
  obtain ⟨X, e1, hX, hXv⟩ := chol_diag hchol hl hv hpos
  obtain ⟨Y, e2, hY, hYv⟩ := hinv X ⟨[p, p], fun
      | [i, j] => if i = j then (((Real.sqrt (lam i))⁻¹ : ℝ) : ℂ) else 0
      | _ => 0⟩ p hX rfl (by
    intro i hi j hj
    rw [Finset.sum_eq_single i]
    · rw [hXv i hi i hi, if_pos rfl]
      simp only
      split_ifs
      · rw [← Complex.ofReal_mul, mul_inv_cancel₀ (Real.sqrt_pos.2 (hpos i hi)).ne', Complex.ofReal_one]
      · rw [mul_zero]
    · intro k hk hki
      rw [hXv i hi k (Finset.mem_range.1 hk), if_neg (Ne.symm hki), zero_mul]
    · intro hn
      exact absurd (Finset.mem_range.2 hi) hn)
  exact ⟨X, Y, e1, e2, hX, hY, hXv, hYv⟩

/-- a diagonal matrix on the left of a stack -/
theorem diag_mul_left {Y V : ND ℂ} {d p k : ℕ} (hY : Y.shape = [p, p]) (hV : V.shape = [d, p, k]) {mu : ℕ → ℂ}
    (hYv : ∀ i < p, ∀ j < p, Y.val [i, j] = if i = j then mu i else 0) :
    ∃ R, Y.matmul V = .ok R ∧ R.shape = [d, p, k] ∧ ∀ s, ∀ a < p, ∀ c, R.val [s, a, c] = mu a * V.val [s, a, c] := by
  obtain ⟨R, e, hR, hRv⟩ := ND.matmul23 hY hV
  refine ⟨R, e, hR, ?_⟩
  intro s a ha c
  rw [hRv, Finset.sum_eq_single a]
  · rw [hYv a ha a ha, if_pos rfl]
  · intro b hb hba
    rw [hYv a ha b (Finset.mem_range.1 hb), if_neg (Ne.symm hba), zero_mul]
  · intro hn
    exact absurd (Finset.mem_range.2 ha) hn

/-- a diagonal matrix on the right of a stack -/
theorem diag_mul_right {Y V : ND ℂ} {d p k : ℕ} (hV : V.shape = [d, p, k]) (hY : Y.shape = [k, k]) {mu : ℕ → ℂ}
    (hYv : ∀ i < k, ∀ j < k, Y.val [i, j] = if i = j then mu i else 0) :
    ∃ R, V.matmul Y = .ok R ∧ R.shape = [d, p, k] ∧ ∀ s a, ∀ c < k, R.val [s, a, c] = V.val [s, a, c] * mu c := by
  obtain ⟨R, e, hR, hRv⟩ := ND.matmul32 hV hY
  refine ⟨R, e, hR, ?_⟩
  intro s a c hc
  rw [hRv, Finset.sum_eq_single c]
  · rw [hYv c hc c hc, if_pos rfl]
  · intro b hb hba
    rw [hYv b (Finset.mem_range.1 hb) c hc, if_neg hba, mul_zero]
  · intro hn
    exact absurd (Finset.mem_range.2 hc) hn

/-- What `pr` of `left_null_projector` is, for a site tensor `A` and the diagonal environment `lam`: `Σ_k U_k conj(U_k)` for a basis `U` of the
tensors `W` with `Σ_s A_s† l W_s = 0`, orthonormal with respect to `l`. -/
structure NullProj (d p q k : ℕ) (A : ND ℂ) (lam : ℕ → ℝ) (U : ℕ → ℕ → ℕ → ℂ) (pr : ND ℂ) : Prop where
  shape : pr.shape = [d, p, d, p]
  val : ∀ s, ∀ a < p, ∀ t, ∀ b < p, pr.val [s, a, t, b] = ∑ k1 ∈ range k, U s a k1 * star (U t b k1)
  orth : ∀ k1 < k, ∀ k2 < k, ∑ s ∈ range d, ∑ a ∈ range p, star (U s a k1) * (lam a : ℂ) * U s a k2 = if k1 = k2 then 1 else 0
  null : ∀ c < q, ∀ k1 < k, ∑ s ∈ range d, ∑ a ∈ range p, star (A.val [s, a, c]) * (lam a : ℂ) * U s a k1 = 0
  complete : ∀ v : ℕ → ℕ → ℂ, (∀ c < q, ∑ s ∈ range d, ∑ a ∈ range p, star (A.val [s, a, c]) * (lam a : ℂ) * v s a = 0) →
    ∀ s < d, ∀ a < p, v s a = ∑ k1 ∈ range k, U s a k1 * ∑ t ∈ range d, ∑ b ∈ range p, star (U t b k1) * (lam b : ℂ) * v t b

theorem projector_ok {chol inv : ND ℂ → Py (ND ℂ)} (hchol : CholTriLaw chol) (hinv : InvLaw inv) (O : SetOrder) {A l vL : ND ℂ} {d p q k : ℕ}
    (hl : l.shape = [p, p]) {lam : ℕ → ℝ}
    (hv : ∀ i < p, ∀ j < p, l.val [i, j] = if i = j then (lam i : ℂ) else 0) (hpos : ∀ i < p, 0 < lam i) (hb : NullBasis d p q k A lam vL) :
    ∃ pr, FMPS.projector chol inv O vL l = .ok pr ∧
      NullProj d p q k A lam (fun s a k1 => (((Real.sqrt (lam a))⁻¹ : ℝ) : ℂ) * vL.val [s, a, k1]) pr := by
  obtain ⟨X, Y, e1, e2, hX, hY, hXv, hYv⟩ := inv_chol_diag hchol hinv hl hv hpos
  obtain ⟨u, e3, hu, huv⟩ := diag_mul_left hY hb.shape hYv
  obtain ⟨w, e4, hw, hwv⟩ := diag_mul_left (V := vL.conj) hY hb.shape hYv
  obtain ⟨pr, e5, hpr, hprv⟩ := nc_eval O (AA := [u, w]) (v := [[-1, -2, 1], [-3, -4, 1]])
    (dimOf [(1, k), (-1, d), (-2, p), (-3, d), (-4, p)]) [1] [-1, -2, -3, -4]
    ⟨by simp, by simp [hu, hw, dimOf, List.lookup], by simp, by simp, by decide, by decide, by decide, by decide, by decide⟩
    (by decide) (by decide)
  have hsq : ∀ a < p, (((Real.sqrt (lam a))⁻¹ : ℝ) : ℂ) * (lam a : ℂ) = ((Real.sqrt (lam a) : ℝ) : ℂ) := by
    intro a ha
    have h := Real.mul_self_sqrt (hpos a ha).le
    have hne := (Real.sqrt_pos.2 (hpos a ha)).ne'
    rw [← Complex.ofReal_mul]
    congr 1
    field_simp
    nlinarith
  have hsq1 : ∀ a < p, (((Real.sqrt (lam a))⁻¹ : ℝ) : ℂ) * ((Real.sqrt (lam a) : ℝ) : ℂ) = 1 := by
    intro a ha
    rw [← Complex.ofReal_mul, inv_mul_cancel₀ (Real.sqrt_pos.2 (hpos a ha)).ne', Complex.ofReal_one]
  refine ⟨pr, ?_, ?_, ?_, ?_, ?_, ?_⟩
  · unfold FMPS.projector
    rw [e1, ok_bind, e2, ok_bind, e3, ok_bind, e4, ok_bind, e5]
  · rw [hpr]
    simp [dimOf, List.lookup]
  · intro s a ha t b hb'
    rw [hprv _ rfl]
    simp [labelSum, netTerm, assign, dimOf, List.lookup, Function.update]
    refine Finset.sum_congr rfl fun k1 _ => ?_
    rw [huv s a ha, hwv t b hb']
    simp [ND.conj]
  · intro k1 h1 k2 h2
    rw [← hb.orth k1 h1 k2 h2]
    refine Finset.sum_congr rfl fun s _ => Finset.sum_congr rfl fun a ha => ?_
    have ha := Finset.mem_range.1 ha
    rw [star_mul', show star (((Real.sqrt (lam a))⁻¹ : ℝ) : ℂ) = (((Real.sqrt (lam a))⁻¹ : ℝ) : ℂ) from Complex.conj_ofReal _]
    linear_combination (star (vL.val [s, a, k1]) * vL.val [s, a, k2]) * (((((Real.sqrt (lam a))⁻¹ : ℝ) : ℂ) * hsq a ha) + hsq1 a ha)
  · intro c hc k1 h1
    rw [← hb.null c hc k1 h1]
    refine Finset.sum_congr rfl fun s _ => Finset.sum_congr rfl fun a ha => ?_
    have ha := Finset.mem_range.1 ha
    linear_combination (star (A.val [s, a, c]) * vL.val [s, a, k1]) * hsq a ha
  · intro v hv s hs a ha
    have h := hb.complete (fun s a => ((Real.sqrt (lam a) : ℝ) : ℂ) * v s a) (by
      intro c hc
      rw [← hv c hc]
      refine Finset.sum_congr rfl fun s _ => Finset.sum_congr rfl fun a ha => ?_
      have ha := Finset.mem_range.1 ha
      have : (lam a : ℂ) = ((Real.sqrt (lam a) : ℝ) : ℂ) * ((Real.sqrt (lam a) : ℝ) : ℂ) := by
        rw [← Complex.ofReal_mul, Real.mul_self_sqrt (hpos a ha).le]
      rw [this]
      ring) s hs a ha
    calc v s a = (((Real.sqrt (lam a))⁻¹ : ℝ) : ℂ) * (((Real.sqrt (lam a) : ℝ) : ℂ) * v s a) := by
          rw [← mul_assoc, hsq1 a ha, one_mul]
      _ = _ := by
          rw [h, Finset.mul_sum]
          refine Finset.sum_congr rfl fun k1 _ => ?_
          rw [mul_assoc]
          congr 2
          refine Finset.sum_congr rfl fun t _ => Finset.sum_congr rfl fun b hb' => ?_
          have hb' := Finset.mem_range.1 hb'
          rw [star_mul', show star (((Real.sqrt (lam b))⁻¹ : ℝ) : ℂ) = (((Real.sqrt (lam b))⁻¹ : ℝ) : ℂ) from Complex.conj_ofReal _]
          linear_combination -(star (vL.val [t, b, k1]) * v t b) * hsq b hb'

end Xmps
