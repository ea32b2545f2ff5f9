import Verif.Lemmas.JacFacts
import Verif.Props.F1
import Verif.Props.TangentVec
import Verif.Props.SpinAlgebra

/-!
# `jac`: the linearised equation of motion (C92)
-/

namespace Xmps

open Finset Spec Xmps.Ncon

/-- the real form of two complex matrices -/
theorem jacReal_ok {J1 J2 G2 : ND ℂ} {D : ℕ} (s1 : J1.shape = [D, D]) (s2 : J2.shape = [D, D]) (s3 : G2.shape = [D, D]) :
    ∃ J, jacReal J1 J2 G2 = .ok J ∧ J.shape = [2 * D, 2 * D] ∧ ∀ u : ℕ → ℂ, ∀ μ < D,
      ∑ ν ∈ range D, (J.val [μ, ν] * (u ν).re + J.val [μ, D + ν] * (u ν).im) =
        (∑ ν ∈ range D, (J1.val [μ, ν] * u ν + (J2.val [μ, ν] + G2.val [μ, ν]) * star (u ν))).re ∧
      ∑ ν ∈ range D, (J.val [D + μ, ν] * (u ν).re + J.val [D + μ, D + ν] * (u ν).im) =
        (∑ ν ∈ range D, (J1.val [μ, ν] * u ν + (J2.val [μ, ν] + G2.val [μ, ν]) * star (u ν))).im := by
  unfold jacReal
  rw [ND.zipNd, if_pos (by rw [s2, s3]), ok_bind, Spin.paulis_eq]
  simp only
  rw [ND.zipNd, if_pos (by simp [kron, mat2, eyeND, ND.dim, ND.re, s1, s2]), ok_bind, ND.zipNd, if_pos (by simp [kron, mat2, ND.dim, ND.re, ND.im, s2]), ok_bind,
    ND.zipNd, if_pos (by simp [kron, mat2, ND.dim, ND.re, ND.im, ND.smul, s1, s2])]
  refine ⟨_, rfl, by simp [kron, mat2, ND.dim, ND.re, s2], ?_⟩
  intro u μ hμ
  have d1 : ∀ a < D, (D + a) / D = 1 := fun a ha => by rw [Nat.add_div_left _ (by omega), Nat.div_eq_of_lt ha]
  have d2 : ∀ a < D, a / D = 0 := fun a ha => Nat.div_eq_of_lt ha
  have d3 : ∀ a < D, (D + a) % D = a := fun a ha => by rw [Nat.add_mod_left, Nat.mod_eq_of_lt ha]
  have d4 : ∀ a < D, a % D = a := fun a ha => Nat.mod_eq_of_lt ha
  constructor
  · rw [Complex.re_sum, Complex.ofReal_sum]
    refine Finset.sum_congr rfl fun ν hν => ?_
    have hν := Finset.mem_range.1 hν
    simp [kron, mat2, eyeND, ND.dim, ND.re, ND.im, ND.smul, s1, s2, d1 _ hμ, d2 _ hμ, d3 _ hμ, d4 _ hμ, d1 _ hν, d2 _ hν, d3 _ hν, d4 _ hν]
    ring
  · rw [Complex.im_sum, Complex.ofReal_sum]
    refine Finset.sum_congr rfl fun ν hν => ?_
    have hν := Finset.mem_range.1 hν
    simp [kron, mat2, eyeND, ND.dim, ND.re, ND.im, ND.smul, s1, s2, d1 _ hμ, d2 _ hμ, d3 _ hμ, d4 _ hμ, d1 _ hν, d2 _ hν, d3 _ hν, d4 _ hν]
    ring

section main
variable {chol inv null : ND ℂ → Py (ND ℂ)} (hchol : CholTriLaw chol) (hinv : InvLaw inv) (hnull : NullLaw null) (O : SetOrder)
  {x : FMPS ℂ} {L m : ℕ} (hx : x.Holds (List.replicate L 2)) (hf : FullEnvs (List.replicate L 2) x.data) (hm : EmptyPrefix 2 x.data m)
  {H : List (ND ℂ)} (hL : H.length < L) (hH : ∀ h ∈ H, h.shape = [4, 4])
include hchol hinv hnull hx hf hm hL hH

/-- `jac(H, real_matrix=False)` returns three square matrices of the dimension of the tangent space.  For a normalised state the sum of the second and
the third, contracted with the conjugated coordinates of two tangent vectors, is minus the sum over pairs of different sites of the matrix elements
`⟨∂_i∂_jψ| (∂_tψ + iHψ)⟩`, where `∂_tψ` is the evolution `dA_dt` gives. -/
theorem FMPS.jac_projection {dA dB : List (ND ℂ)} (hA : Gauged L 2 x.data dA) (hB : Gauged L 2 x.data dB)
    (hn : pairing (List.replicate L 2) (psi x.data) (psi x.data) = 1) :
    ∃ y J1 J2 G2 v w, FMPS.dAdt chol inv null O x H = .ok y ∧ FMPS.jacParts chol inv null O x H = .ok (J1, J2, G2) ∧
      FMPS.extractTangent chol inv null O x dA = .ok v ∧ FMPS.extractTangent chol inv null O x dB = .ok w ∧
      v.length = tangentDim 2 x.data ∧ w.length = tangentDim 2 x.data ∧ J1.shape = [tangentDim 2 x.data, tangentDim 2 x.data] ∧
      J2.shape = [tangentDim 2 x.data, tangentDim 2 x.data] ∧ G2.shape = [tangentDim 2 x.data, tangentDim 2 x.data] ∧
      ∑ μ ∈ range (tangentDim 2 x.data), ∑ ν ∈ range (tangentDim 2 x.data), star (v.getD μ 0) * star (w.getD ν 0) * (J2.val [μ, ν] + G2.val [μ, ν]) =
        -∑ i ∈ range L, ∑ j ∈ range L, if i = j then 0 else
          pairing (List.replicate L 2) (psi ((x.data.set i (dA.getD i (zerosND []))).set j (dB.getD j (zerosND []))))
            (fun s => tangentPsi x.data y.data s + Complex.I * hamAct 2 H (psi x.data) s) := by
  obtain ⟨M, ls, rs, E, rfl, hM, e, pr, vL, l, r, p, q, k, lam, rho, hnl, hD, hz, hdim, c, y, ey, hy, hyT, F1, F2, G, J1, J2, J3, hF, eJ, s1, s2, s3, hJ⟩ :=
    jac_facts hchol hinv hnull O hx hf hL hH hm
  have hl := c.len
  have hyl : y.data.length = m + M := by
    have := hy.chain.length_eq
    simp only [List.length_replicate] at this
    omega
  have hex : ∀ {Bs : List (ND ℂ)}, Gauged (m + M) 2 x.data Bs → ∀ i < m + M,
      pyGet Bs i = .ok (Bs.getD i (zerosND [])) ∧ (Bs.getD i (zerosND [])).shape = [2, p i, q i] := by
    intro Bs hB i hi
    have hBl := hB.1
    rw [List.getD_eq_getElem _ _ (by omega : i < Bs.length)]
    exact ⟨pyGet_ok (by omega), (hB.2 i (by omega) (by omega) _ _ (c.site i (by omega)).hA).1⟩
  have htan : ∀ {Bs : List (ND ℂ)}, Gauged (m + M) 2 x.data Bs → ∀ i < m + M, c.Tan i (Bs.getD i (zerosND [])) := by
    intro Bs hB i hi
    have hBl := hB.1
    rw [List.getD_eq_getElem _ _ (by omega : i < Bs.length)]
    exact ⟨(hB.2 i (by omega) (by omega) _ _ (c.site i (by omega)).hA).1, fun h => (hB.2 i h (by omega) _ _ (c.site i h).hA).2⟩
  have hzq : ∀ i < m + M, k i * q i = 0 ↔ i < m := by
    intro i hi
    rw [← hz i hi, Nat.mul_eq_zero]
    have := (c.site i (by omega)).bq
    omega
  have hs : ∀ i (hi : i < x.data.length), FMPS.leftNull chol inv null O x ls i = .ok (pr i, vL i) ∧
      TSite (m + M) 2 x.data ls rs i x.data[i] (vL i) (l i) (r i) (p i) (q i) (k i) (lam i) (rho i) := fun i hi => ⟨hnl i (by omega), c.site i hi⟩
  obtain ⟨v, ev, hv⟩ := extract_ok (B := fun i => dA.getD i (zerosND [])) hchol e hl hM hs hD hzq (hex hA)
  obtain ⟨w, ew, hw⟩ := extract_ok (B := fun i => dB.getD i (zerosND [])) hchol e hl hM hs hD hzq (hex hB)
  refine ⟨y, J1, J2, J3, _, _, ey, eJ, ev, ew, ?_, ?_, s1, s2, s3, ?_⟩
  · rw [hdim]
    refine flatten_length M fun t ht => ?_
    simp [ND.flat, ND.size, (hv (m + t) (by omega)).1]
  · rw [hdim]
    refine flatten_length M fun t ht => ?_
    simp [ND.flat, ND.size, (hw (m + t) (by omega)).1]
  rw [hdim]
  simp only [mul_add, Finset.sum_add_distrib]
  rw [blocks_form (A := fun i j => (F2 (m + i) (m + j)).smul (-Complex.I)) star star (fun i hi j hj a ha b hb => (hJ i hi j hj a ha b hb).2.1)
      (fun i hi => (hv i hi).1) (fun i hi => (hw i hi).1),
    blocks_form (A := fun i j => G (m + i) (m + j)) star star (fun i hi j hj a ha b hb => (hJ i hi j hj a ha b hb).2.2)
      (fun i hi => (hv i hi).1) (fun i hi => (hw i hi).1)]
  -- one pair of sites
  have pair : ∀ i < m + M, ∀ j < m + M,
      ∑ a ∈ range (k i), ∑ b ∈ range (q i), ∑ c ∈ range (k j), ∑ e ∈ range (q j),
          star ((v i).val [a, b]) * star ((w j).val [c, e]) * ((F2 i j).smul (-Complex.I)).val [a, b, c, e] +
        ∑ a ∈ range (k i), ∑ b ∈ range (q i), ∑ c ∈ range (k j), ∑ e ∈ range (q j),
          star ((v i).val [a, b]) * star ((w j).val [c, e]) * (G i j).val [a, b, c, e] =
      -(if i = j then 0 else
          pairing (List.replicate (m + M) 2) (psi ((x.data.set i (dA.getD i (zerosND []))).set j (dB.getD j (zerosND []))))
            (fun s => tangentPsi x.data y.data s + Complex.I * hamAct 2 H (psi x.data) s)) := by
    intro i hi j hj
    obtain ⟨-, -, h2, h3⟩ := hF i hi j hj
    have h2 := h2 _ _ (htan hA i hi) (htan hB j hj)
    have h3 := h3 _ _ (htan hA i hi) (htan hB j hj)
    have c2 : ∑ a ∈ range (k i), ∑ b ∈ range (q i), ∑ c ∈ range (k j), ∑ e ∈ range (q j),
          star ((v i).val [a, b]) * star ((w j).val [c, e]) * ((F2 i j).smul (-Complex.I)).val [a, b, c, e] = -Complex.I *
        ∑ a ∈ range (k i), ∑ b ∈ range (q i), ∑ a' ∈ range (k j), ∑ e ∈ range (q j),
          star (siteCoord 2 (p i) (vL i) (lam i) (rho i) (dA.getD i (zerosND [])) a b) *
            star (siteCoord 2 (p j) (vL j) (lam j) (rho j) (dB.getD j (zerosND [])) a' e) * (F2 i j).val [a, b, a', e] := by
      simp only [Finset.mul_sum]
      refine Finset.sum_congr rfl fun a ha => Finset.sum_congr rfl fun b hb => Finset.sum_congr rfl fun c1 hc1 => Finset.sum_congr rfl fun e1 he1 => ?_
      simp only [Finset.mem_range] at ha hb hc1 he1
      rw [(hv i hi).2 a ha b hb, (hw j hj).2 c1 hc1 e1 he1]
      simp only [ND.smul, siteCoord]
      ring
    have c3 : ∑ a ∈ range (k i), ∑ b ∈ range (q i), ∑ c ∈ range (k j), ∑ e ∈ range (q j),
          star ((v i).val [a, b]) * star ((w j).val [c, e]) * (G i j).val [a, b, c, e] =
        ∑ a ∈ range (k i), ∑ b ∈ range (q i), ∑ a' ∈ range (k j), ∑ e ∈ range (q j),
          star (siteCoord 2 (p i) (vL i) (lam i) (rho i) (dA.getD i (zerosND [])) a b) *
            star (siteCoord 2 (p j) (vL j) (lam j) (rho j) (dB.getD j (zerosND [])) a' e) * (G i j).val [a, b, a', e] := by
      refine Finset.sum_congr rfl fun a ha => Finset.sum_congr rfl fun b hb => Finset.sum_congr rfl fun c1 hc1 => Finset.sum_congr rfl fun e1 he1 => ?_
      simp only [Finset.mem_range] at ha hb hc1 he1
      rw [(hv i hi).2 a ha b hb, (hw j hj).2 c1 hc1 e1 he1]
      rfl
    rw [c2, c3, h2, h3]
    by_cases hij : i = j
    · simp [hij]
    · simp only [if_neg hij]
      have hone : (if i = 0 ∨ j = 0 then ((Real.sqrt (pairing (List.replicate (m + M) 2) (psi x.data) (psi x.data)).re : ℝ) : ℂ) else 1) = 1 := by
        rw [hn]
        simp
      -- the other sites of the evolution do not contribute
      have htp : pairing (List.replicate (m + M) 2) (psi ((x.data.set i (dA.getD i (zerosND []))).set j (dB.getD j (zerosND [])))) (tangentPsi x.data y.data) =
          pairing (List.replicate (m + M) 2) (psi ((x.data.set i (dA.getD i (zerosND []))).set j (dB.getD j (zerosND []))))
            (psi (x.data.set (min i j) (y.data.getD (min i j) (zerosND [])))) := by
        have e1 : tangentPsi x.data y.data = fun s => ∑ n ∈ range x.data.length, psi (swapIn x.data n (y.data.getD n ⟨[], fun _ => 0⟩)) s := rfl
        rw [e1, pairing_sum, Finset.sum_eq_single (min i j)]
        · rfl
        · intro n hn' hne
          have hn' := Finset.mem_range.1 hn'
          have tn := hyT n (by omega)
          have en : swapIn x.data n (y.data.getD n ⟨[], fun _ => 0⟩) = x.data.set n y.data[n] := by
            rw [List.getD_eq_getElem _ _ (by omega : n < y.data.length)]
            rfl
          rw [en]
          have tA := htan hA i hi
          have tB := htan hB j hj
          rcases Nat.lt_or_ge i j with h | h
          · rw [min_eq_left h.le] at hne
            exact c.chVanish h (by omega) hn' hne tA.1 tB.1 tn.1 (tA.2 (by omega)) (tn.2 hn')
          · rw [min_eq_right h] at hne
            rw [List.set_comm _ _ hij]
            exact c.chVanish (by omega) (by omega) hn' hne tB.1 tA.1 tn.1 (tB.2 (by omega)) (tn.2 hn')
        · intro h
          exact absurd (Finset.mem_range.2 (by omega)) h
      have hadd : ∀ f g h : List ℕ → ℂ, pairing (List.replicate (m + M) 2) f (fun s => g s + Complex.I * h s) =
          pairing (List.replicate (m + M) 2) f g + Complex.I * pairing (List.replicate (m + M) 2) f h := by
        intro f g h
        rw [← pairing_smul]
        unfold pairing
        rw [← sumIdx_add]
        exact sumIdx_congr fun s _ => by ring
      rw [hone, one_mul, hadd, htp]
      ring
  have hzero : ∀ i < m, k i = 0 := fun i hi => (hz i (by omega)).2 hi
  -- the sites without coordinates
  have hout : ∀ i < m + M, ∀ j < m + M, i < m ∨ j < m → (if i = j then 0 else
          pairing (List.replicate (m + M) 2) (psi ((x.data.set i (dA.getD i (zerosND []))).set j (dB.getD j (zerosND []))))
            (fun s => tangentPsi x.data y.data s + Complex.I * hamAct 2 H (psi x.data) s)) = 0 := by
    intro i hi j hj hij
    have := pair i hi j hj
    rcases hij with h | h
    · rw [hzero i h] at this
      simpa using this.symm
    · rw [hzero j h] at this
      simpa using this.symm
  rw [Finset.sum_range_add, Finset.sum_eq_zero (s := range m), zero_add, ← Finset.sum_neg_distrib, ← Finset.sum_add_distrib]
  · refine Finset.sum_congr rfl fun i hi => ?_
    have hi := Finset.mem_range.1 hi
    rw [Finset.sum_range_add, Finset.sum_eq_zero (s := range m), zero_add, ← Finset.sum_neg_distrib, ← Finset.sum_add_distrib]
    · refine Finset.sum_congr rfl fun j hj => ?_
      have hj := Finset.mem_range.1 hj
      exact pair (m + i) (by omega) (m + j) (by omega)
    · intro j hj
      have hj := Finset.mem_range.1 hj
      exact hout _ (by omega) _ (by omega) (Or.inr hj)
  · intro i hi
    have hi := Finset.mem_range.1 hi
    exact Finset.sum_eq_zero fun j hj => hout _ (by omega) _ (Finset.mem_range.1 hj) (Or.inl hi)

/-- Where the evolution stays in the tangent space up to a change of norm and phase, the part of the linearised equation with the conjugated coordinates is zero: this is the comment in the
code, "should be zero for no projection". -/
theorem FMPS.jac_exact (hn : pairing (List.replicate L 2) (psi x.data) (psi x.data) = 1) {y : FMPS ℂ} (ey : FMPS.dAdt chol inv null O x H = .ok y)
    {z : ℂ} (hev : ∀ s, InB (List.replicate L 2) s → tangentPsi x.data y.data s = -Complex.I * hamAct 2 H (psi x.data) s + z * psi x.data s) :
    ∃ J1 J2 G2, FMPS.jacParts chol inv null O x H = .ok (J1, J2, G2) ∧ J2.shape = [tangentDim 2 x.data, tangentDim 2 x.data] ∧
      G2.shape = [tangentDim 2 x.data, tangentDim 2 x.data] ∧
      ∀ μ < tangentDim 2 x.data, ∀ ν < tangentDim 2 x.data, J2.val [μ, ν] + G2.val [μ, ν] = 0 := by
  obtain ⟨M, ls, rs, E, rfl, hM, e, pr, vL, l, r, p, q, k, lam, rho, hnl, hD, hz, hdim, c, y', ey', hy, hyT, F1, F2, G, J1, J2, J3, hF, eJ, s1, s2, s3, hJ⟩ :=
    jac_facts hchol hinv hnull O hx hf hL hH hm
  refine ⟨J1, J2, J3, eJ, s2, s3, ?_⟩
  intro μ hμ ν hν
  set D := tangentDim 2 x.data with hDdef
  have hb : ∀ t, ((List.range D).map fun i => if i = t then (1 : ℂ) else 0).length = D := by simp
  obtain ⟨a, -, -, ga, ea⟩ := FMPS.extract_import hchol hinv hnull O (by omega) hx hf hm (hb μ)
  obtain ⟨b, -, -, gb, eb⟩ := FMPS.extract_import hchol hinv hnull O (by omega) hx hf hm (hb ν)
  obtain ⟨y2, K1, K2, K3, v, w, ey2, eK, ev, ew, -, -, -, -, -, hsum⟩ := FMPS.jac_projection hchol hinv hnull O hx hf hm hL hH ga gb hn
  rw [ey] at ey2
  rw [ea] at ev
  rw [eb] at ew
  rw [eJ] at eK
  obtain rfl := Except.ok.inj ey2
  obtain rfl := Except.ok.inj ev
  obtain rfl := Except.ok.inj ew
  obtain ⟨rfl, h2⟩ := Prod.mk.inj (Except.ok.inj eK)
  obtain ⟨rfl, rfl⟩ := Prod.mk.inj h2
  have hget : ∀ t, ∀ i < D, ((List.range D).map fun i => if i = t then (1 : ℂ) else 0).getD i 0 = if i = t then 1 else 0 := by
    intro t i hi
    rw [List.getD_eq_getElem _ _ (by simpa using hi)]
    simp
  have hl : ∑ μ' ∈ range D, ∑ ν' ∈ range D, star (((List.range D).map fun i => if i = μ then (1 : ℂ) else 0).getD μ' 0) *
      star (((List.range D).map fun i => if i = ν then (1 : ℂ) else 0).getD ν' 0) * (J2.val [μ', ν'] + J3.val [μ', ν']) = J2.val [μ, ν] + J3.val [μ, ν] := by
    rw [Finset.sum_eq_single μ, Finset.sum_eq_single ν]
    · rw [hget μ μ hμ, hget ν ν hν]
      simp
    · intro t ht hne
      rw [hget ν t (Finset.mem_range.1 ht), if_neg hne]
      simp
    · intro h
      exact absurd (Finset.mem_range.2 hν) h
    · intro t ht hne
      refine Finset.sum_eq_zero fun u _ => ?_
      rw [hget μ t (Finset.mem_range.1 ht), if_neg hne]
      simp
    · intro h
      exact absurd (Finset.mem_range.2 hμ) h
  rw [hl] at hsum
  rw [hsum, neg_eq_zero]
  have htan : ∀ {Bs : List (ND ℂ)}, Gauged (m + M) 2 x.data Bs → ∀ i < m + M, c.Tan i (Bs.getD i (zerosND [])) := by
    intro Bs hB i hi
    have hBl := hB.1
    have hl := c.len
    rw [List.getD_eq_getElem _ _ (by omega : i < Bs.length)]
    exact ⟨(hB.2 i (by omega) (by omega) _ _ (c.site i (by omega)).hA).1, fun h => (hB.2 i h (by omega) _ _ (c.site i h).hA).2⟩
  refine Finset.sum_eq_zero fun i hi => Finset.sum_eq_zero fun j hj => ?_
  have hi := Finset.mem_range.1 hi
  have hj := Finset.mem_range.1 hj
  have hl := c.len
  split_ifs with hij
  · rfl
  · have h0 : pairing (List.replicate (m + M) 2) (psi ((x.data.set i (a.data.getD i (zerosND []))).set j (b.data.getD j (zerosND [])))) (psi x.data) = 0 := by
      have tA := htan ga i hi
      have tB := htan gb j hj
      rcases Nat.lt_or_gt_of_ne hij with h | h
      · exact c.chPsi h (by omega) tA.1 tB.1 (tA.2 (by omega))
      · rw [List.set_comm _ _ hij]
        exact c.chPsi h (by omega) tB.1 tA.1 (tB.2 (by omega))
    have h1 : pairing (List.replicate (m + M) 2) (psi ((x.data.set i (a.data.getD i (zerosND []))).set j (b.data.getD j (zerosND []))))
        (fun s => tangentPsi x.data y.data s + Complex.I * hamAct 2 H (psi x.data) s) =
        z * pairing (List.replicate (m + M) 2) (psi ((x.data.set i (a.data.getD i (zerosND []))).set j (b.data.getD j (zerosND [])))) (psi x.data) := by
      rw [← pairing_smul]
      unfold pairing
      exact sumIdx_congr fun s hs => by
        beta_reduce
        rw [hev s hs]
        ring
    rw [h1, h0, mul_zero]

/-- `jac(H)` is the real matrix of `u ↦ J1 u + (J2 + Γ2) u*`: it maps the real parts followed by the imaginary parts of the coordinates `u` to the real
parts followed by the imaginary parts of the image. -/
theorem FMPS.jac_real : ∃ J J1 J2 G2, FMPS.jacParts chol inv null O x H = .ok (J1, J2, G2) ∧ FMPS.jac chol inv null O x H = .ok J ∧
    J.shape = [2 * tangentDim 2 x.data, 2 * tangentDim 2 x.data] ∧ ∀ u : ℕ → ℂ, ∀ μ < tangentDim 2 x.data,
      let D := tangentDim 2 x.data
      let image := ∑ ν ∈ range D, (J1.val [μ, ν] * u ν + (J2.val [μ, ν] + G2.val [μ, ν]) * star (u ν))
      ∑ ν ∈ range D, (J.val [μ, ν] * (u ν).re + J.val [μ, D + ν] * (u ν).im) = image.re ∧
      ∑ ν ∈ range D, (J.val [D + μ, ν] * (u ν).re + J.val [D + μ, D + ν] * (u ν).im) = image.im := by
  obtain ⟨M, ls, rs, E, rfl, hM, e, pr, vL, l, r, p, q, k, lam, rho, hnl, hD, hz, hdim, c, y', ey', hy, hyT, F1, F2, G, J1, J2, J3, hF, eJ, s1, s2, s3, hJ⟩ :=
    jac_facts hchol hinv hnull O hx hf hL hH hm
  obtain ⟨J, e1, e2, e3⟩ := jacReal_ok s1 s2 s3
  refine ⟨J, J1, J2, J3, eJ, by unfold FMPS.jac; rw [eJ, ok_bind]; exact e1, e2, ?_⟩
  intro u μ hμ
  exact e3 u μ hμ

omit hm in
/-- `jac` numbers the sites with coordinates as if those without came first.  Otherwise it raises. -/
theorem FMPS.jac_gap (hgap : ¬ ∃ m, EmptyPrefix 2 x.data m) : FMPS.jac chol inv null O x H = .error .valueError := by
  obtain ⟨ls, rs, E, e, pr, vL, l, r, p, q, k, lam, rho, hnl, hD, c, y, ey, hy, hyT, F1, F2, G, f1, f2, g, eJ, hF⟩ := jac_pre hchol hinv hnull O hx hf hL hH
  have hl := c.len
  have hq : ∀ i < L, 0 < q i := fun i hi => (c.site i (by omega)).bq
  obtain ⟨n, hn, hk, hle⟩ := jacNulls_gap (k := k) hq (by
    rintro ⟨m, hm⟩
    refine hgap ⟨m, fun i hi => ?_⟩
    rw [dim1 (c.site i hi).hA, dim2 (c.site i hi).hA, ← hm i (by omega)]
    have := (c.site i hi).count
    omega)
  unfold FMPS.jac
  rw [eJ, jacFill_gap hq (A1 := fun i j => (F1 i j).smul (-Complex.I)) (A2 := fun i j => (F2 i j).smul (-Complex.I)) (A3 := G) (fun i hi j hj => by
    obtain ⟨a1, a2, a3, a4, -⟩ := hF i hi j hj
    exact ⟨a1, a2, a3, a4⟩) hn hk hle, err_bind]

end main

/-! ### examples -/

theorem exScaled_prefix (c : ℂ) : EmptyPrefix 2 (exScaled c).data 0 := by
  intro i hi
  have : i < 2 := hi
  interval_cases i <;> simp [exScaled, ND.dim]

theorem exScaled_one : pairing (List.replicate 2 2) (psi (exScaled (1 : ℝ)).data) (psi (exScaled (1 : ℝ)).data) = 1 := by
  unfold pairing
  rw [sumIdx_congr fun s hs => by rw [psi_eq_amp (exScaled_holds (1 : ℝ)).chain (exScaled_holds (1 : ℝ)).data_ne hs.length_eq]]
  simp [exScaled, amp, ND.dim, Finset.sum_range_succ]

theorem exScaled_gauged : Gauged 2 2 (exScaled (1 : ℝ)).data [exUp, exUp] := by
  refine ⟨rfl, ?_⟩
  intro i hi hi' p q hA
  have hi2 : i < 2 := hi
  interval_cases i
  · obtain ⟨rfl, rfl⟩ : p = 1 ∧ q = 1 := by simpa [exScaled, eq_comm] using hA
    exact ⟨rfl, by intro a ha b hb; simp [exScaled, exUp, Finset.sum_range_succ]⟩
  · obtain ⟨rfl, rfl⟩ : p = 1 ∧ q = 1 := by simpa [exScaled, eq_comm] using hA
    exact ⟨rfl, by intro a ha b hb; simp [exScaled, exUp, Finset.sum_range_succ]⟩

/-- the term `(|1⟩⟨0| + |0⟩⟨1|) ⊗ 1` -/
def exFlip : ND ℂ := ⟨[4, 4], fun
  | [a, b] => if b = (a + 2) % 4 then 1 else 0
  | _ => 0⟩

section
variable {chol inv null : ND ℂ → Py (ND ℂ)} (hchol : CholTriLaw chol) (hinv : InvLaw inv) (hnull : NullLaw null) (O : SetOrder)
include hchol hinv hnull

/-- `|00⟩` with the term `|11⟩⟨00| + |00⟩⟨11|`: two coordinates; the evolution leaves the tangent space. -/
example := FMPS.jac_projection hchol hinv hnull O (exScaled_holds (1 : ℝ)) (exScaled_full 1 one_ne_zero) (exScaled_prefix _) (H := [exPairTerm]) (by simp)
  (by simp [exPairTerm]) (dA := [exUp, exUp]) (dB := [exUp, exUp]) exScaled_gauged exScaled_gauged exScaled_one

/-- `|00⟩` with the term `exFlip`: the evolution stays in the tangent space. -/
theorem exFlip_exact : ∃ y, FMPS.dAdt chol inv null O (exScaled (1 : ℝ)) [exFlip] = .ok y ∧ ∀ s, InB (List.replicate 2 2) s →
    tangentPsi (exScaled (1 : ℝ)).data y.data s = -Complex.I * hamAct 2 [exFlip] (psi (exScaled (1 : ℝ)).data) s + 0 * psi (exScaled (1 : ℝ)).data s := by
  have hH : ∀ h ∈ [exFlip], h.shape = [2 * 2, 2 * 2] := by simp [exFlip]
  obtain ⟨y, ey, hy, hg⟩ := FMPS.dAdt_gauge hchol hinv hnull O (d := 2) (by omega) (exScaled_holds (1 : ℝ)) (exScaled_full 1 one_ne_zero) (H := [exFlip]) (by simp) hH
  have ht := fun i hi => FMPS.dAdt_tdvp hchol hinv hnull O (d := 2) (by omega) (exScaled_holds (1 : ℝ)) (exScaled_full 1 one_ne_zero) (H := [exFlip]) (by simp) hH ey
    (i := i) hi (p := 1) (q := 1)
  refine ⟨y, ey, ?_⟩
  have hyl : y.data.length = 2 := by
    have := hy.chain.length_eq
    simpa using this
  obtain ⟨A, B, hAB⟩ : ∃ A B, y.data = [A, B] := List.length_eq_two.1 hyl
  obtain ⟨a1, a2⟩ := hg 0 (by simp [exScaled]) (by omega) 1 1 rfl
  obtain ⟨b1, b2⟩ := hg 1 (by simp [exScaled]) (by omega) 1 1 rfl
  have tA := ht 0 (by simp [exScaled]) rfl (W := exUp) rfl (by intro a ha b hb; simp [exScaled, exUp, Finset.sum_range_succ])
  have tB := ht 1 (by simp [exScaled]) rfl (W := exUp) rfl (by intro a ha b hb; simp [exScaled, exUp, Finset.sum_range_succ])
  have hps : ∀ (U V : ND ℂ), U.shape = [2, 1, 1] → V.shape = [2, 1, 1] → ∀ a b, psi [U, V] [a, b] = U.val [a, 0, 0] * V.val [b, 0, 0] := by
    intro U V hU hV a b
    have hch : MpsChain [2, 2] [U, V] 1 1 := ⟨1, hU, 1, hV, rfl⟩
    rw [psi_eq_amp (ss := [a, b]) hch (by simp) rfl]
    simp [amp, ND.dim, hU, hV]
  simp only [hAB, List.getElem_cons_zero, List.getElem_cons_succ] at a1 a2 b1 b2
  have a2 := a2 0 (by omega) 0 (by omega)
  have b2 := b2 0 (by omega) 0 (by omega)
  simp [exScaled, Finset.sum_range_succ, leftEnv, amp, ND.dim] at a2 b2
  have h0 : ∀ a b, psi (exScaled (1 : ℝ)).data [a, b] = if a = 0 ∧ b = 0 then 1 else 0 := by
    intro a b
    rw [exScaled, hps _ _ rfl rfl]
    simp
    split_ifs <;> simp_all
  have hA : ∀ a b, psi (swapIn (exScaled (1 : ℝ)).data 0 exUp) [a, b] = if a = 1 ∧ b = 0 then 1 else 0 := by
    intro a b
    simp only [exScaled, swapIn, List.set_cons_zero]
    rw [hps _ _ rfl rfl]
    simp [exUp]
    split_ifs <;> simp_all
  have hB : ∀ a b, psi (swapIn (exScaled (1 : ℝ)).data 1 exUp) [a, b] = if a = 0 ∧ b = 1 then 1 else 0 := by
    intro a b
    simp only [exScaled, swapIn, List.set_cons_succ, List.set_cons_zero]
    rw [hps _ _ rfl rfl]
    simp [exUp]
    split_ifs <;> simp_all
  have hT : ∀ a b, tangentPsi (exScaled (1 : ℝ)).data y.data [a, b] = (if b = 0 then A.val [a, 0, 0] else 0) + (if a = 0 then B.val [b, 0, 0] else 0) := by
    intro a b
    rw [hAB]
    unfold tangentPsi
    simp only [exScaled, swapIn, List.length_cons, List.length_nil, Finset.sum_range_succ, Finset.range_zero, Finset.sum_empty, zero_add, List.getD_cons_zero,
      List.getD_cons_succ, List.set_cons_succ, List.set_cons_zero]
    rw [hps _ _ a1 rfl, hps _ _ rfl b1]
    simp
  have hHam : ∀ a < 2, ∀ b < 2, hamAct 2 [exFlip] (psi (exScaled (1 : ℝ)).data) [a, b] = if a = 1 ∧ b = 0 then 1 else 0 := by
    intro a ha b hb
    unfold hamAct gateAct
    interval_cases a <;> interval_cases b <;> simp [Finset.sum_range_succ, h0, exFlip, -Complex.ofReal_one]
  unfold pairing at tA tB
  simp [List.replicate, sumIdx_cons, sumIdx_nil, Finset.sum_range_succ, hA, hT, hHam, -Complex.ofReal_one] at tA
  simp [List.replicate, sumIdx_cons, sumIdx_nil, Finset.sum_range_succ, hB, hT, hHam, -Complex.ofReal_one] at tB
  intro s hs
  match s, hs with
  | [a, b], ⟨ha, hb, _⟩ =>
    rw [hT, hHam a ha b hb]
    interval_cases a <;> interval_cases b <;> simp [a2, b2, tA, tB]

/-- the term `exFlip` -/
example := by
  have h := (exFlip_exact hchol hinv hnull O).choose_spec
  exact FMPS.jac_exact hchol hinv hnull O (exScaled_holds (1 : ℝ)) (exScaled_full 1 one_ne_zero) (exScaled_prefix _) (H := [exFlip]) (by simp)
    (by simp [exFlip]) exScaled_one h.1 h.2

/-- the state `|0⟩ ⊗ (|00⟩ + |11⟩)`: there are no coordinates at the second site only -/
theorem FMPS.exGap_jac : FMPS.jac chol inv null O exGap [exPairTerm] = .error .valueError := by
  refine FMPS.jac_gap hchol hinv hnull O exGap_holds exGap_full (by simp) (by simp [exPairTerm]) ?_
  rintro ⟨m, hm⟩
  have h0 := hm 0 (by simp [exGap])
  have h1 := hm 1 (by simp [exGap])
  simp [exGap, ND.dim] at h0 h1
  omega

end

end Xmps
