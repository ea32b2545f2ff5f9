import Verif.Props.Jac
import Mathlib.LinearAlgebra.Matrix.ToLinearEquiv

/-!
# `jac` generates a flow that preserves the symplectic form (C93, C94)
-/

namespace Xmps

open Finset Spec Xmps.Ncon

section
variable {L d : ℕ} {x : FMPS ℂ} {ls rs : List (ND ℂ)} {E : FMPS.InvEnvs} {N : ℝ} {vL l r : ℕ → ND ℂ} {p q k : ℕ → ℕ} {lam rho : ℕ → ℕ → ℝ} {i j : ℕ}

/-- `F1(j, i)` is the conjugated transpose of `F1(i, j)` for Hermitian terms -/
theorem F2Ctx.f1herm (c : F2Ctx L 2 x ls rs E N vL l r p q k lam rho) (O : SetOrder) (hi : i < L) {H : List (ND ℂ)} (hL : H.length < L)
    (hH : ∀ h ∈ H, h.shape = [4, 4]) (hh : ∀ h ∈ H, ∀ a < 4, ∀ b < 4, star (h.val [b, a]) = h.val [a, b]) {G G' : ND ℂ}
    (e : FMPS.f1With O x ls rs ((List.range L).map vL) E H i j = .ok G) (e' : FMPS.f1With O x ls rs ((List.range L).map vL) E H j i = .ok G')
    (hG : G.shape = [k i, q i, k j, q j]) (hG' : G'.shape = [k j, q j, k i, q i]) :
    ∀ a < k i, ∀ b < q i, ∀ a' < k j, ∀ b' < q j, star (G'.val [a', b', a, b]) = G.val [a, b, a', b'] := by
  intro a ha b hb a' ha' b' hb'
  unfold FMPS.f1With at e e'
  rcases Nat.lt_trichotomy i j with h | h | h
  · rw [if_neg (by omega)] at e
    rw [if_pos h, e, ok_bind, ND.transpose_ok (by rw [ND.rank, hG]; exact (by decide : List.Perm [2, 3, 0, 1] (List.range 4))), ok_bind] at e'
    rw [← Except.ok.inj e']
    simp [ND.conj, ND.transposeR, hG, ND.rank, List.range_succ, List.idxOf_cons]
  · subst h
    rw [if_neg (by omega)] at e e'
    obtain ⟨G0, g1, g2, g3⟩ := c.f1diag O hi hL hH
    rw [g1] at e e'
    rw [← Except.ok.inj e, ← Except.ok.inj e']
    exact g3 hh a ha b hb a' ha' b' hb'
  · rw [if_neg (by omega)] at e'
    rw [if_pos h, e', ok_bind, ND.transpose_ok (by rw [ND.rank, hG']; exact (by decide : List.Perm [2, 3, 0, 1] (List.range 4))), ok_bind] at e
    rw [← Except.ok.inj e]
    simp [ND.conj, ND.transposeR, hG', ND.rank, List.range_succ, List.idxOf_cons]

/-- the tensor of one coordinate -/
theorem F2Ctx.unit_tensor (c : F2Ctx L d x ls rs E N vL l r p q k lam rho) {a b : ℕ} (ha : a < k i) (hb : b < q i) {s al be : ℕ} (hbe : be < q i) :
    (c.unit i a b).val [s, al, be] = siteTensor (k i) (vL i) (lam i) (rho i) (fun a' b' => if a' = a ∧ b' = b then 1 else 0) s al be := by
  rw [c.unit_sum _ hbe, Finset.sum_eq_single a, Finset.sum_eq_single b]
  · simp
  · intro b' _ h
    simp [h]
  · intro h
    exact absurd (Finset.mem_range.2 hb) h
  · intro a' _ h
    exact Finset.sum_eq_zero fun b' _ => by simp [h]
  · intro h
    exact absurd (Finset.mem_range.2 ha) h

/-- a form on the coordinates is determined by its values on pairs of tensors -/
theorem F2Ctx.form_entry (c : F2Ctx L d x ls rs E N vL l r p q k lam rho) (hi : i < L) (hj : j < L) {T : ND ℂ} {φ : ND ℂ → ND ℂ → ℂ}
    (h : ∀ Bi Bj : ND ℂ, c.Tan i Bi → c.Tan j Bj → ∑ a ∈ range (k i), ∑ b ∈ range (q i), ∑ a' ∈ range (k j), ∑ e ∈ range (q j),
      star (siteCoord d (p i) (vL i) (lam i) (rho i) Bi a b) * star (siteCoord d (p j) (vL j) (lam j) (rho j) Bj a' e) * T.val [a, b, a', e] = φ Bi Bj)
    {a b a' b' : ℕ} (ha : a < k i) (hb : b < q i) (ha' : a' < k j) (hb' : b' < q j) :
    T.val [a, b, a', b'] = φ (c.unit i a b) (c.unit j a' b') := by
  have hl := c.len
  have tan : ∀ {i a b : ℕ}, i < L → a < k i → b < q i → c.Tan i (c.unit i a b) := fun {i a b} hi ha hb =>
    ⟨rfl, fun hi' => (c.site i hi').gauge_tensor fun s _ al _ be hbe => c.unit_tensor ha hb hbe⟩
  have crd : ∀ {i a b : ℕ}, i < L → a < k i → b < q i → ∀ a1 < k i, ∀ b1 < q i,
      siteCoord d (p i) (vL i) (lam i) (rho i) (c.unit i a b) a1 b1 = if a1 = a ∧ b1 = b then 1 else 0 := fun {i a b} hi ha hb a1 h1 b1 h2 =>
    (c.site i (by omega)).coord_tensor (fun s _ al _ be hbe => c.unit_tensor ha hb hbe) h1 h2
  rw [← h _ _ (tan hi ha hb) (tan hj ha' hb'), Finset.sum_eq_single a, Finset.sum_eq_single b, Finset.sum_eq_single a', Finset.sum_eq_single b']
  · rw [crd hi ha hb a ha b hb, crd hj ha' hb' a' ha' b' hb']
    simp
  · intro e he hne
    rw [crd hj ha' hb' a' ha' e (Finset.mem_range.1 he)]
    simp [hne]
  · intro h
    exact absurd (Finset.mem_range.2 hb') h
  · intro a1 h1 hne
    refine Finset.sum_eq_zero fun e he => ?_
    rw [crd hj ha' hb' a1 (Finset.mem_range.1 h1) e (Finset.mem_range.1 he)]
    simp [hne]
  · intro h
    exact absurd (Finset.mem_range.2 ha') h
  · intro b1 h1 hne
    refine Finset.sum_eq_zero fun _ _ => Finset.sum_eq_zero fun _ _ => ?_
    rw [crd hi ha hb a ha b1 (Finset.mem_range.1 h1)]
    simp [hne]
  · intro h
    exact absurd (Finset.mem_range.2 hb) h
  · intro a1 h1 hne
    refine Finset.sum_eq_zero fun b1 h2 => Finset.sum_eq_zero fun _ _ => Finset.sum_eq_zero fun _ _ => ?_
    rw [crd hi ha hb a1 (Finset.mem_range.1 h1) b1 (Finset.mem_range.1 h2)]
    simp [hne]
  · intro h
    exact absurd (Finset.mem_range.2 ha) h

end

theorem jacOff_split {sz : ℕ → ℕ} : ∀ {N μ : ℕ}, μ < jacOff sz N → ∃ i < N, ∃ a < sz i, μ = jacOff sz i + a
  | 0, μ, h => absurd h (by simp [jacOff])
  | N + 1, μ, h => by
    by_cases h' : μ < jacOff sz N
    · obtain ⟨i, hi, a, ha, e⟩ := jacOff_split h'
      exact ⟨i, by omega, a, ha, e⟩
    · rw [jacOff_succ] at h
      exact ⟨N, by omega, μ - jacOff sz N, by omega, by omega⟩

/-- the standard symplectic form -/
def symp (D : ℕ) (u v : ℕ → ℂ) : ℂ := ∑ μ ∈ range D, (u μ * v (D + μ) - u (D + μ) * v μ)

/-- a matrix applied to a vector -/
def applyMat (J : ND ℂ) (n : ℕ) (u : ℕ → ℂ) (μ : ℕ) : ℂ := ∑ ν ∈ range n, J.val [μ, ν] * u ν

/-- the entries of the real form -/
theorem jacReal_entries {J1 J2 G2 : ND ℂ} {D : ℕ} (s1 : J1.shape = [D, D]) (s2 : J2.shape = [D, D]) (s3 : G2.shape = [D, D]) :
    ∃ J, jacReal J1 J2 G2 = .ok J ∧ J.shape = [2 * D, 2 * D] ∧ ∀ μ < D, ∀ ν < D,
      J.val [μ, ν] = (((J1.val [μ, ν]).re + (J2.val [μ, ν] + G2.val [μ, ν]).re : ℝ) : ℂ) ∧
      J.val [μ, D + ν] = ((-(J1.val [μ, ν]).im + (J2.val [μ, ν] + G2.val [μ, ν]).im : ℝ) : ℂ) ∧
      J.val [D + μ, ν] = (((J1.val [μ, ν]).im + (J2.val [μ, ν] + G2.val [μ, ν]).im : ℝ) : ℂ) ∧
      J.val [D + μ, D + ν] = (((J1.val [μ, ν]).re - (J2.val [μ, ν] + G2.val [μ, ν]).re : ℝ) : ℂ) := by
  obtain ⟨J, e1, e2, e3⟩ := jacReal_ok s1 s2 s3
  refine ⟨J, e1, e2, fun μ hμ ν hν => ?_⟩
  have pick : ∀ f : ℕ → ℂ, (∀ t ≠ ν, f t = 0) → ∑ t ∈ range D, f t = f ν := fun f hf =>
    Finset.sum_eq_single ν (fun t _ h => hf t h) (fun h => absurd (Finset.mem_range.2 hν) h)
  obtain ⟨a1, a2⟩ := e3 (fun t => if t = ν then 1 else 0) μ hμ
  obtain ⟨b1, b2⟩ := e3 (fun t => if t = ν then Complex.I else 0) μ hμ
  rw [pick _ (fun t h => by simp [h]), pick _ (fun t h => by simp [h])] at a1 a2 b1 b2
  simp only [if_true, Complex.one_re, Complex.one_im, Complex.I_re, Complex.I_im, Complex.ofReal_one, Complex.ofReal_zero, mul_one, mul_zero, add_zero, zero_add, star_one] at a1 a2 b1 b2
  refine ⟨?_, ?_, ?_, ?_⟩
  · rw [a1]
    simp
  · rw [b1]
    simp
  · rw [a2]
    simp
  · rw [b2]
    simp [sub_eq_add_neg]

/-- the unit vector -/
def unitVec (t μ : ℕ) : ℂ := if μ = t then 1 else 0

theorem applyMat_unit {J : ND ℂ} {n t μ : ℕ} (ht : t < n) : applyMat J n (unitVec t) μ = J.val [μ, t] := by
  unfold applyMat unitVec
  rw [Finset.sum_eq_single t]
  · simp
  · intro ν _ h
    simp [h]
  · intro h
    exact absurd (Finset.mem_range.2 ht) h

theorem symp_unit_left {D μ : ℕ} (hμ : μ < D) (v : ℕ → ℂ) : symp D (unitVec μ) v = v (D + μ) := by
  unfold symp unitVec
  rw [Finset.sum_eq_single μ]
  · simp; omega
  · intro ν h hne
    have := Finset.mem_range.1 h
    rw [if_neg hne, if_neg (by omega)]
    simp
  · intro h
    exact absurd (Finset.mem_range.2 hμ) h

theorem symp_unit_left' {D μ : ℕ} (hμ : μ < D) (v : ℕ → ℂ) : symp D (unitVec (D + μ)) v = -v μ := by
  unfold symp unitVec
  rw [Finset.sum_eq_single μ]
  · simp; omega
  · intro ν h hne
    have := Finset.mem_range.1 h
    rw [if_neg (by omega), if_neg (by omega)]
    simp
  · intro h
    exact absurd (Finset.mem_range.2 hμ) h

theorem symp_unit_right {D μ : ℕ} (hμ : μ < D) (u : ℕ → ℂ) : symp D u (unitVec (D + μ)) = u μ := by
  unfold symp unitVec
  rw [Finset.sum_eq_single μ]
  · simp; omega
  · intro ν h hne
    have := Finset.mem_range.1 h
    rw [if_neg (by omega), if_neg (by omega)]
    simp
  · intro h
    exact absurd (Finset.mem_range.2 hμ) h

section
variable {J : ND ℂ} {D : ℕ} (hJ : ∀ u v, symp D (applyMat J (2 * D) u) v + symp D u (applyMat J (2 * D) v) = 0)
include hJ

theorem symp_trace : ∑ μ ∈ range (2 * D), J.val [μ, μ] = 0 := by
  rw [two_mul, Finset.sum_range_add, ← Finset.sum_add_distrib]
  refine Finset.sum_eq_zero fun μ hμ => ?_
  have hμ := Finset.mem_range.1 hμ
  have := hJ (unitVec μ) (unitVec (D + μ))
  rwa [symp_unit_right hμ, symp_unit_left hμ, applyMat_unit (by omega), applyMat_unit (by omega)] at this

theorem symp_spectrum {z : ℂ} {u : ℕ → ℂ} (h0 : ∃ μ < 2 * D, u μ ≠ 0) (hu : ∀ μ < 2 * D, applyMat J (2 * D) u μ = z * u μ) :
    ∃ w : ℕ → ℂ, (∃ μ < 2 * D, w μ ≠ 0) ∧ ∀ μ < 2 * D, applyMat J (2 * D) w μ = -z * w μ := by
  classical
  -- an eigenvector of the transpose
  let M : Matrix (Fin (2 * D)) (Fin (2 * D)) ℂ := Matrix.of fun a b => J.val [a.1, b.1] - if a = b then z else 0
  have hdet : M.det = 0 := by
    refine Matrix.exists_mulVec_eq_zero_iff.1 ⟨fun a => u a, ?_, ?_⟩
    · obtain ⟨μ, hμ, h⟩ := h0
      intro hc
      exact h (congrFun hc ⟨μ, hμ⟩)
    · funext a
      have h := hu a a.2
      unfold applyMat at h
      rw [Finset.sum_range] at h
      simp only [Matrix.mulVec, dotProduct, M, Matrix.of_apply, sub_mul, Finset.sum_sub_distrib, ite_mul, zero_mul, Finset.sum_ite_eq, Finset.mem_univ, if_true,
        Pi.zero_apply]
      rw [h, sub_self]
  obtain ⟨w0, hw0, hw⟩ := Matrix.exists_vecMul_eq_zero_iff.2 hdet
  let f : ℕ → ℂ := fun μ => if h : μ < 2 * D then w0 ⟨μ, h⟩ else 0
  have hf : ∀ ν < 2 * D, ∑ μ ∈ range (2 * D), f μ * J.val [μ, ν] = z * f ν := by
    intro ν hν
    have h := congrFun hw ⟨ν, hν⟩
    simp only [Matrix.vecMul, dotProduct, M, Matrix.of_apply, mul_sub, Finset.sum_sub_distrib, mul_ite, mul_zero, Finset.sum_ite_eq', Finset.mem_univ, if_true,
      Pi.zero_apply] at h
    rw [Finset.sum_range]
    have e : ∀ a : Fin (2 * D), f a = w0 a := fun a => by simp [f]
    simp only [e]
    rw [show f ν = w0 ⟨ν, hν⟩ from e ⟨ν, hν⟩, mul_comm z, ← sub_eq_zero]
    exact h
  let w : ℕ → ℂ := fun μ => if μ < D then -f (D + μ) else f (μ - D)
  have hsymp : ∀ v, symp D v w = ∑ μ ∈ range (2 * D), v μ * f μ := by
    intro v
    unfold symp
    rw [two_mul, Finset.sum_range_add, ← Finset.sum_add_distrib]
    refine Finset.sum_congr rfl fun μ hμ => ?_
    have hμ := Finset.mem_range.1 hμ
    simp only [w]
    rw [if_neg (by omega), if_pos hμ, show D + μ - D = μ by omega]
    ring
  have key : ∀ v, symp D v (applyMat J (2 * D) w) = -z * symp D v w := by
    intro v
    have h := hJ v w
    have h1 : symp D (applyMat J (2 * D) v) w = z * symp D v w := by
      rw [hsymp, hsymp, Finset.mul_sum]
      unfold applyMat
      simp only [Finset.sum_mul]
      rw [Finset.sum_comm]
      refine Finset.sum_congr rfl fun ν hν => ?_
      have h2 := hf ν (Finset.mem_range.1 hν)
      calc _ = v ν * ∑ μ ∈ range (2 * D), f μ * J.val [μ, ν] := by
            rw [Finset.mul_sum]
            exact Finset.sum_congr rfl fun μ _ => by ring
        _ = _ := by
            rw [h2]
            ring
    rw [h1] at h
    linear_combination h
  refine ⟨w, ?_, ?_⟩
  · by_contra hc
    push Not at hc
    refine hw0 (funext fun a => ?_)
    have e : f a = w0 a := by simp [f]
    rw [← e, Pi.zero_apply]
    by_cases ha : a.1 < D
    · have := hc (D + a) (by omega)
      simp only [w] at this
      rwa [if_neg (by omega), show D + a.1 - D = a.1 by omega] at this
    · have := hc (a - D) (by omega)
      simp only [w] at this
      rw [if_pos (by omega), show D + (a.1 - D) = a.1 by omega] at this
      exact neg_eq_zero.1 this
  · intro μ hμ
    by_cases h : μ < D
    · have := key (unitVec (D + μ))
      rw [symp_unit_left' h, symp_unit_left' h] at this
      linear_combination -this
    · have := key (unitVec (μ - D))
      rw [symp_unit_left (by omega), symp_unit_left (by omega), show D + (μ - D) = μ by omega] at this
      exact this

end

theorem F2Ctx.jac_sym {L : ℕ} {x : FMPS ℂ} {ls rs : List (ND ℂ)} {E : FMPS.InvEnvs} {N : ℝ} {vL l r : ℕ → ND ℂ} {p q k : ℕ → ℕ} {lam rho : ℕ → ℕ → ℝ}
    (c : F2Ctx L 2 x ls rs E N vL l r p q k lam rho) (O : SetOrder) {H : List (ND ℂ)} (hL : H.length < L) (hH : ∀ h ∈ H, h.shape = [4, 4]) {m : ℕ}
    (hm : EmptyPrefix 2 x.data m) {y : FMPS ℂ} {parts : Py (ND ℂ × ND ℂ × ND ℂ)} (hB : JacBlocks c O H y parts) :
    ∃ J1 J2 G2, parts = .ok (J1, J2, G2) ∧
    J1.shape = [tangentDim 2 x.data, tangentDim 2 x.data] ∧ J2.shape = [tangentDim 2 x.data, tangentDim 2 x.data] ∧
    G2.shape = [tangentDim 2 x.data, tangentDim 2 x.data] ∧
    (∀ μ < tangentDim 2 x.data, ∀ ν < tangentDim 2 x.data, J2.val [μ, ν] = J2.val [ν, μ] ∧ G2.val [μ, ν] = G2.val [ν, μ]) ∧
    ((∀ h ∈ H, ∀ a < 4, ∀ b < 4, star (h.val [b, a]) = h.val [a, b]) → ∀ μ < tangentDim 2 x.data, ∀ ν < tangentDim 2 x.data,
      star (J1.val [ν, μ]) = -J1.val [μ, ν]) := by
  obtain ⟨M, rfl, hM, hz, hdim, F1, F2, G, J1, J2, J3, hF, eJ, s1, s2, s3, hJ⟩ := c.jacForm hm hB
  refine ⟨J1, J2, J3, eJ, s1, s2, s3, ?_, ?_⟩
  · intro μ hμ ν hν
    rw [hdim] at hμ hν
    obtain ⟨i, hi, a, ha, rfl⟩ := jacOff_split hμ
    obtain ⟨j, hj, b, hb, rfl⟩ := jacOff_split hν
    obtain ⟨-, h1, h2⟩ := hJ i hi j hj a ha b hb
    obtain ⟨-, h3, h4⟩ := hJ j hj i hi b hb a ha
    have bi := (c.site (m + i) (by have := c.len; omega)).bq
    have bj := (c.site (m + j) (by have := c.len; omega)).bq
    have a1 : a / q (m + i) < k (m + i) := Nat.div_lt_of_lt_mul (by rw [mul_comm]; exact ha)
    have a2 : a % q (m + i) < q (m + i) := Nat.mod_lt _ bi
    have b1 : b / q (m + j) < k (m + j) := Nat.div_lt_of_lt_mul (by rw [mul_comm]; exact hb)
    have b2 : b % q (m + j) < q (m + j) := Nat.mod_lt _ bj
    obtain ⟨-, -, f1, g1⟩ := hF (m + i) (by omega) (m + j) (by omega)
    obtain ⟨-, -, f2, g2⟩ := hF (m + j) (by omega) (m + i) (by omega)
    constructor
    · rw [h1, h3]
      simp only [blkVal, ND.smul]
      rw [c.form_entry (by omega) (by omega) f1 a1 a2 b1 b2, c.form_entry (by omega) (by omega) f2 b1 b2 a1 a2]
      by_cases hij : m + i = m + j
      · rw [if_pos hij, if_pos hij.symm]
      · rw [if_neg hij, if_neg (Ne.symm hij), List.set_comm _ _ hij]
        simp only [or_comm]
    · rw [h2, h4]
      simp only [blkVal]
      rw [c.form_entry (by omega) (by omega) g1 a1 a2 b1 b2, c.form_entry (by omega) (by omega) g2 b1 b2 a1 a2]
      by_cases hij : m + i = m + j
      · rw [if_pos hij, if_pos hij.symm]
      · rw [if_neg hij, if_neg (Ne.symm hij), List.set_comm _ _ hij, min_comm]
  · intro hh μ hμ ν hν
    rw [hdim] at hμ hν
    obtain ⟨i, hi, a, ha, rfl⟩ := jacOff_split hμ
    obtain ⟨j, hj, b, hb, rfl⟩ := jacOff_split hν
    rw [(hJ i hi j hj a ha b hb).1, (hJ j hj i hi b hb a ha).1]
    have bi := (c.site (m + i) (by have := c.len; omega)).bq
    have bj := (c.site (m + j) (by have := c.len; omega)).bq
    have a1 : a / q (m + i) < k (m + i) := Nat.div_lt_of_lt_mul (by rw [mul_comm]; exact ha)
    have a2 : a % q (m + i) < q (m + i) := Nat.mod_lt _ bi
    have b1 : b / q (m + j) < k (m + j) := Nat.div_lt_of_lt_mul (by rw [mul_comm]; exact hb)
    have b2 : b % q (m + j) < q (m + j) := Nat.mod_lt _ bj
    have f1 := (hF (m + i) (by omega) (m + j) (by omega)).1
    have f2 := (hF (m + j) (by omega) (m + i) (by omega)).1
    have g1 : (F1 (m + i) (m + j)).shape = [k (m + i), q (m + i), k (m + j), q (m + j)] := by
      obtain ⟨G0, u1, u2⟩ := c.f1all O (i := m + i) (j := m + j) (by omega) (by omega) hL hH
      rw [f1] at u1
      rw [Except.ok.inj u1, u2]
    have g2 : (F1 (m + j) (m + i)).shape = [k (m + j), q (m + j), k (m + i), q (m + i)] := by
      obtain ⟨G0, u1, u2⟩ := c.f1all O (i := m + j) (j := m + i) (by omega) (by omega) hL hH
      rw [f2] at u1
      rw [Except.ok.inj u1, u2]
    simp only [blkVal, ND.smul]
    rw [star_mul', c.f1herm O (by omega) hL hH hh f1 f2 g1 g2 _ a1 _ a2 _ b1 _ b2]
    simp

theorem jacReal_hamiltonian {J1 J2 G2 : ND ℂ} {D : ℕ} (s1 : J1.shape = [D, D]) (s2 : J2.shape = [D, D]) (s3 : G2.shape = [D, D])
    (hsym : ∀ μ < D, ∀ ν < D, J2.val [μ, ν] + G2.val [μ, ν] = J2.val [ν, μ] + G2.val [ν, μ])
    (hanti : ∀ μ < D, ∀ ν < D, star (J1.val [ν, μ]) = -J1.val [μ, ν]) :
    ∃ J, jacReal J1 J2 G2 = .ok J ∧ J.shape = [2 * D, 2 * D] ∧ (∀ μ < 2 * D, ∀ ν < 2 * D, (J.val [μ, ν]).im = 0) ∧
      ∀ u v, symp D (applyMat J (2 * D) u) v + symp D u (applyMat J (2 * D) v) = 0 := by
  obtain ⟨J, e1, e2, e3⟩ := jacReal_entries s1 s2 s3
  refine ⟨J, e1, e2, ?_, ?_⟩
  · intro μ hμ ν hν
    by_cases h1 : μ < D <;> by_cases h2 : ν < D
    · rw [(e3 μ h1 ν h2).1, Complex.ofReal_im]
    · have := (e3 μ h1 (ν - D) (by omega)).2.1
      rw [show D + (ν - D) = ν by omega] at this
      rw [this, Complex.ofReal_im]
    · have := (e3 (μ - D) (by omega) ν h2).2.2.1
      rw [show D + (μ - D) = μ by omega] at this
      rw [this, Complex.ofReal_im]
    · have := (e3 (μ - D) (by omega) (ν - D) (by omega)).2.2.2
      rw [show D + (μ - D) = μ by omega, show D + (ν - D) = ν by omega] at this
      rw [this, Complex.ofReal_im]
  · have r1 : ∀ μ < D, ∀ ν < D, J.val [D + ν, D + μ] = -J.val [μ, ν] := by
      intro μ hμ ν hν
      have h1 := congrArg Complex.re (hanti μ hμ ν hν)
      simp only [Complex.star_def, Complex.conj_re, Complex.neg_re] at h1
      rw [(e3 ν hν μ hμ).2.2.2, (e3 μ hμ ν hν).1, hsym ν hν μ hμ, h1]
      push_cast
      ring
    have him : ∀ μ < D, ∀ ν < D, (J1.val [ν, μ]).im = (J1.val [μ, ν]).im := by
      intro μ hμ ν hν
      have h1 := congrArg Complex.im (hanti μ hμ ν hν)
      simp only [Complex.star_def, Complex.conj_im, Complex.neg_im] at h1
      linarith
    have r2 : ∀ μ < D, ∀ ν < D, J.val [ν, D + μ] = J.val [μ, D + ν] := by
      intro μ hμ ν hν
      rw [(e3 ν hν μ hμ).2.1, (e3 μ hμ ν hν).2.1, hsym ν hν μ hμ, him μ hμ ν hν]
    have r3 : ∀ μ < D, ∀ ν < D, J.val [D + ν, μ] = J.val [D + μ, ν] := by
      intro μ hμ ν hν
      rw [(e3 ν hν μ hμ).2.2.1, (e3 μ hμ ν hν).2.2.1, hsym ν hν μ hμ, him μ hμ ν hν]
    intro u v
    have ap : ∀ w μ, applyMat J (2 * D) w μ = ∑ ν ∈ range D, (J.val [μ, ν] * w ν + J.val [μ, D + ν] * w (D + ν)) := by
      intro w μ
      unfold applyMat
      rw [two_mul, Finset.sum_range_add, Finset.sum_add_distrib]
    have l1 : symp D (applyMat J (2 * D) u) v = ∑ μ ∈ range D, ∑ ν ∈ range D,
        ((J.val [μ, ν] * u ν + J.val [μ, D + ν] * u (D + ν)) * v (D + μ) - (J.val [D + μ, ν] * u ν + J.val [D + μ, D + ν] * u (D + ν)) * v μ) := by
      unfold symp
      refine Finset.sum_congr rfl fun μ _ => ?_
      rw [ap, ap, Finset.sum_mul, Finset.sum_mul, ← Finset.sum_sub_distrib]
    have l2 : symp D u (applyMat J (2 * D) v) = ∑ μ ∈ range D, ∑ ν ∈ range D,
        (u ν * (J.val [D + ν, μ] * v μ + J.val [D + ν, D + μ] * v (D + μ)) - u (D + ν) * (J.val [ν, μ] * v μ + J.val [ν, D + μ] * v (D + μ))) := by
      unfold symp
      rw [Finset.sum_comm]
      refine Finset.sum_congr rfl fun μ _ => ?_
      rw [ap, ap, Finset.mul_sum, Finset.mul_sum, ← Finset.sum_sub_distrib]
    rw [l1, l2, ← Finset.sum_add_distrib]
    refine Finset.sum_eq_zero fun μ hμ => ?_
    rw [← Finset.sum_add_distrib]
    refine Finset.sum_eq_zero fun ν hν => ?_
    have hμ := Finset.mem_range.1 hμ
    have hν := Finset.mem_range.1 hν
    rw [r1 μ hμ ν hν, r2 μ hμ ν hν, r3 μ hμ ν hν, r1 ν hν μ hμ]
    ring

section main
variable {chol inv null : ND ℂ → Py (ND ℂ)} (hchol : CholTriLaw chol) (hinv : InvLaw inv) (hnull : NullLaw null) (O : SetOrder)
  {x : FMPS ℂ} {L m : ℕ} (hx : x.Holds (List.replicate L 2)) (hf : FullEnvs (List.replicate L 2) x.data) (hm : EmptyPrefix 2 x.data m)
  {H : List (ND ℂ)} (hL : H.length < L) (hH : ∀ h ∈ H, h.shape = [4, 4])
include hchol hinv hnull hx hf hm hL hH

/-- For any state `J2` and `Γ2` are symmetric, and for Hermitian terms `J1` is anti-Hermitian. -/
theorem FMPS.jac_parts_sym : ∃ J1 J2 G2, FMPS.jacParts chol inv null O x H = .ok (J1, J2, G2) ∧
    J1.shape = [tangentDim 2 x.data, tangentDim 2 x.data] ∧ J2.shape = [tangentDim 2 x.data, tangentDim 2 x.data] ∧
    G2.shape = [tangentDim 2 x.data, tangentDim 2 x.data] ∧
    (∀ μ < tangentDim 2 x.data, ∀ ν < tangentDim 2 x.data, J2.val [μ, ν] = J2.val [ν, μ] ∧ G2.val [μ, ν] = G2.val [ν, μ]) ∧
    ((∀ h ∈ H, ∀ a < 4, ∀ b < 4, star (h.val [b, a]) = h.val [a, b]) → ∀ μ < tangentDim 2 x.data, ∀ ν < tangentDim 2 x.data,
      star (J1.val [ν, μ]) = -J1.val [μ, ν]) := by
  obtain ⟨ls, rs, E, e, pr, vL, l, r, p, q, k, lam, rho, hnl, hD, c, y, ey, hy, hyT, hB⟩ := jac_pre hchol hinv hnull O hx hf hL hH
  exact c.jac_sym O hL hH hm hB

/-- For Hermitian terms the matrix `jac(H)` is real and Hamiltonian: the flow it generates preserves the symplectic form of the real and imaginary parts of
the coordinates.  This holds for every state, also where entries of `J1` are not those of the projected Hamiltonian. -/
theorem FMPS.jac_hamiltonian (hh : ∀ h ∈ H, ∀ a < 4, ∀ b < 4, star (h.val [b, a]) = h.val [a, b]) :
    ∃ J, FMPS.jac chol inv null O x H = .ok J ∧ J.shape = [2 * tangentDim 2 x.data, 2 * tangentDim 2 x.data] ∧
      (∀ μ < 2 * tangentDim 2 x.data, ∀ ν < 2 * tangentDim 2 x.data, (J.val [μ, ν]).im = 0) ∧
      ∀ u v, symp (tangentDim 2 x.data) (applyMat J (2 * tangentDim 2 x.data) u) v + symp (tangentDim 2 x.data) u (applyMat J (2 * tangentDim 2 x.data) v) = 0 := by
  obtain ⟨J1, J2, G2, eJ, s1, s2, s3, hsym, hanti⟩ := FMPS.jac_parts_sym hchol hinv hnull O hx hf hm hL hH
  obtain ⟨J, e1, e2⟩ := jacReal_hamiltonian s1 s2 s3 (fun μ hμ ν hν => congrArg₂ (· + ·) (hsym μ hμ ν hν).1 (hsym μ hμ ν hν).2) (hanti hh)
  exact ⟨J, by unfold FMPS.jac; rw [eJ, ok_bind]; exact e1, e2⟩

/-- For Hermitian terms the trace of `jac(H)` is zero (the flow preserves volumes), and with `z` also `-z` is an eigenvalue: the exponents come in pairs. -/
theorem FMPS.jac_spectrum (hh : ∀ h ∈ H, ∀ a < 4, ∀ b < 4, star (h.val [b, a]) = h.val [a, b]) :
    ∃ J, FMPS.jac chol inv null O x H = .ok J ∧ ∑ μ ∈ range (2 * tangentDim 2 x.data), J.val [μ, μ] = 0 ∧
      ∀ (z : ℂ) (u : ℕ → ℂ), (∃ μ < 2 * tangentDim 2 x.data, u μ ≠ 0) →
        (∀ μ < 2 * tangentDim 2 x.data, ∑ ν ∈ range (2 * tangentDim 2 x.data), J.val [μ, ν] * u ν = z * u μ) →
        ∃ w : ℕ → ℂ, (∃ μ < 2 * tangentDim 2 x.data, w μ ≠ 0) ∧
          ∀ μ < 2 * tangentDim 2 x.data, ∑ ν ∈ range (2 * tangentDim 2 x.data), J.val [μ, ν] * w ν = -z * w μ := by
  obtain ⟨J, e, -, -, h⟩ := FMPS.jac_hamiltonian hchol hinv hnull O hx hf hm hL hH hh
  exact ⟨J, e, symp_trace h, fun z u h0 hu => symp_spectrum h h0 hu⟩

end main

/-! ### examples -/

theorem exPair_herm : ∀ h ∈ [exPairTerm], ∀ a < 4, ∀ b < 4, star (h.val [b, a]) = h.val [a, b] := by
  intro h hh a ha b hb
  rw [List.mem_singleton.1 hh]
  interval_cases a <;> interval_cases b <;> simp [exPairTerm]

section
variable {chol inv null : ND ℂ → Py (ND ℂ)} (hchol : CholTriLaw chol) (hinv : InvLaw inv) (hnull : NullLaw null) (O : SetOrder)
include hchol hinv hnull

/-- `2|00⟩`, which is not normalised, with the term `|11⟩⟨00| + |00⟩⟨11|` -/
example := FMPS.jac_hamiltonian hchol hinv hnull O (exScaled_holds (2 : ℝ)) (exScaled_full 2 two_ne_zero) (exScaled_prefix _) (H := [exPairTerm]) (by simp)
  (by simp [exPairTerm]) exPair_herm

example := FMPS.jac_spectrum hchol hinv hnull O (exScaled_holds (2 : ℝ)) (exScaled_full 2 two_ne_zero) (exScaled_prefix _) (H := [exPairTerm]) (by simp)
  (by simp [exPairTerm]) exPair_herm

example := FMPS.jac_parts_sym hchol hinv hnull O (exScaled_holds (2 : ℝ)) (exScaled_full 2 two_ne_zero) (exScaled_prefix _) (H := [exPairTerm]) (by simp)
  (by simp [exPairTerm])

end

end Xmps
