import Verif.Lemmas.DAdtFullSite
import Verif.Props.TdvpCanon

/-!
# `dA_dt(H, fullH=True)` is the time-dependent variational principle for a matrix on the whole chain (C48, C64)
-/

namespace Xmps

open Finset Spec Xmps.Ncon

section
variable {chol inv null : ND ℂ → Py (ND ℂ)} (hchol : CholTriLaw chol) (hinv : InvLaw inv) (hnull : NullLaw null) (O : SetOrder)
  {x : FMPS ℂ} {L d : ℕ} (hd : 0 < d) (hx : x.Holds (List.replicate L d)) (hf : FullEnvs (List.replicate L d) x.data)
  {H : ND ℂ} (hH : H.shape = [d ^ L, d ^ L])
include hchol hinv hnull hd hx hf hH

theorem dAdtFull_facts : ∃ y, FMPS.dAdtFull chol inv null O x H = .ok y ∧ y.Holds (List.replicate L d) ∧ y.data.length = L ∧
    ∀ i (hi : i < x.data.length) (hi' : i < y.data.length), ∃ p q k U pr lam rho mu,
      SiteFacts L d x.data (fun t b c => -Complex.I * envAmp ((List.replicate L d).take i) (x.data.take i) ((List.replicate L d).drop (i + 1))
        (x.data.drop (i + 1)) (fullAct (List.replicate L d) H (psi x.data)) t b c) i x.data[i] y.data[i] p q k U pr lam rho mu := by
  obtain ⟨hlen, hxL, -⟩ := hx.rep_L
  have hL : 0 < L := by
    rcases Nat.eq_zero_or_pos L with h | h
    · subst h
      exact absurd rfl hx.ne
    · exact h
  obtain ⟨ls, rs, e, henv, pr, vL, p, q, k, U, lam, e1, hs⟩ := env_sites hx hchol hinv hnull O hd hL hf
  have hB : ∀ i, ∃ B rho mu, ∀ (hi : i < x.data.length),
      x.dAdtFullSite inv O rs (((List.range x.L).map fun n => (pr n, vL n)).map Prod.fst) H i = .ok B ∧
        SiteFacts L d x.data (fun t b c => -Complex.I * envAmp ((List.replicate L d).take i) (x.data.take i) ((List.replicate L d).drop (i + 1))
          (x.data.drop (i + 1)) (fullAct (List.replicate L d) H (psi x.data)) t b c) i x.data[i] B (p i) (q i) (k i) (U i) (pr i) (lam i) rho mu := by
    intro i
    by_cases hi : i < x.data.length
    · obtain ⟨w2, w3, w4, w5, w6, w7, w8⟩ := hs i hi
      obtain ⟨l2, r2, mu, rho, E⟩ := henv (i + 1) (by omega) (q i) w4
      obtain ⟨B, v1, v2, v3⟩ := dAdtFullSite_ok hinv O hx hi w2 w5 (prs := (((List.range x.L).map fun n => (pr n, vL n)).map Prod.fst)) (pr := pr i) E (by
        rw [pyGet_ok (by simp; omega)]
        simp) w8.shape hH
      have hn := site_next hx hi w2 w3 E w6
      -- without a tangent space the projector is zero
      have hz : d * p i = q i → ∀ s < d, ∀ a < p i, ∀ k1 < k i, U i s a k1 = 0 := by
        intro hq s hs' a ha k1 hk1
        have S0 : SiteFacts L d x.data (fun _ _ _ => 0) i x.data[i] (zerosND [d, p i, q i]) (p i) (q i) (k i) (U i) (pr i) (lam i) rho mu :=
          ⟨w2, w3, w5, w6, E.right, hn, w7, E.pos', E.pos, w8, rfl, by intro s _ a _ c _; simp [zerosND]⟩
        have hq0 : 0 < q i := by rw [← hq]; exact Nat.mul_pos hd (by omega)
        exact S0.gauge_zero hq (W := ⟨[d, p i, q i], fun
          | [s, a, _] => U i s a k1
          | _ => 0⟩) ((S0.gauge_iff _).2 fun c hc _ _ => w8.null c hc k1 hk1) s hs' a ha 0 hq0
      refine ⟨B, rho, mu, fun _ => ⟨v1, w2, w3, w5, w6, E.right, hn, w7, E.pos', E.pos, w8, v2, ?_⟩⟩
      intro s hs' a ha c hc
      rw [v3 s a c hc]
      have hsum : -Complex.I * ∑ t ∈ range d, ∑ b ∈ range (p i), (pr i).val [s, a, t, b] * (envAmp ((List.replicate L d).take i) (x.data.take i)
          ((List.replicate L d).drop (i + 1)) (x.data.drop (i + 1)) (fullAct (List.replicate L d) H (psi x.data)) t b c * (rho c : ℂ)⁻¹) =
          ∑ k1 ∈ range (k i), U i s a k1 * ∑ t ∈ range d, ∑ b ∈ range (p i), star (U i t b k1) * (-Complex.I *
            envAmp ((List.replicate L d).take i) (x.data.take i) ((List.replicate L d).drop (i + 1))
              (x.data.drop (i + 1)) (fullAct (List.replicate L d) H (psi x.data)) t b c * (rho c : ℂ)⁻¹) := by
        rw [← sum_pr, Finset.mul_sum]
        refine Finset.sum_congr rfl fun t _ => ?_
        rw [Finset.mul_sum]
        refine Finset.sum_congr rfl fun b hb => ?_
        rw [w8.val s a ha t b (Finset.mem_range.1 hb)]
        ring
      rw [hsum]
      split_ifs with hq
      · exact Finset.sum_eq_zero fun k1 hk1 => by rw [hz hq s hs' a ha k1 (Finset.mem_range.1 hk1), zero_mul]
      · rfl
    · exact ⟨zerosND [], fun _ => 0, fun _ => 0, fun h => absurd h hi⟩
  choose B rho mu hBs using hB
  have e2 : ((List.range x.L).mapM fun i => x.dAdtFullSite inv O rs (((List.range x.L).map fun n => (pr n, vL n)).map Prod.fst) H i) =
      .ok ((List.range x.L).map B) := by
    refine mapM_ok ?_
    intro n hn
    rw [List.mem_range, hxL, ← hlen] at hn
    exact (hBs n hn).1
  have hch : MpsChain (List.replicate L d) ((List.range L).map B) 1 1 :=
    sites_chain hx (p := p) (q := q) fun i hi => ⟨(hs i hi).1, (hs i hi).2.2.1, (hBs i hi).2.hB⟩
  obtain ⟨y, e3, hy, hyh, -⟩ := init_holds hch (by simp; omega) none (Or.inl rfl)
  refine ⟨y, ?_, hyh, by rw [hy]; simp, ?_⟩
  · unfold FMPS.dAdtFull
    rw [e, ok_bind]
    simp only
    rw [e1, ok_bind, e2, ok_bind, hxL, e3]
  · intro i hi hi'
    have : y.data[i] = B i := by simp [hy]
    rw [this]
    exact ⟨_, _, _, _, _, _, _, _, (hBs i hi).2⟩

/-- **C48** `dA_dt(H, fullH=True)` for any matrix `H` on the whole chain, at a chain whose environments are diagonal with positive entries, succeeds,
and every tensor of the result has the shape of the tensor of the state and is in the left gauge. -/
theorem FMPS.dAdtFull_gauge : ∃ y, FMPS.dAdtFull chol inv null O x H = .ok y ∧ y.Holds (List.replicate L d) ∧
    ∀ i (hi : i < x.data.length) (hi' : i < y.data.length), ∀ p q, x.data[i].shape = [d, p, q] → y.data[i].shape = [d, p, q] ∧
      LeftGauge d p q (leftEnv ((List.replicate L d).take i) (x.data.take i)) x.data[i] y.data[i] := by
  obtain ⟨y, e, hy, -, hs⟩ := dAdtFull_facts hchol hinv hnull O hd hx hf hH
  refine ⟨y, e, hy, ?_⟩
  intro i hi hi' p q hA
  obtain ⟨p', q', k, U, pr, lam, rho, mu, h⟩ := hs i hi hi'
  have h' := h.hA
  rw [hA] at h'
  obtain ⟨rfl, rfl⟩ : p = p' ∧ q = q' := by simpa using h'
  exact ⟨h.hB, h.gauge⟩

/-- **C64** The vector of `dA_dt(H, fullH=True)` is the projection of `-i H ψ` on the tangent vectors in the left gauge. -/
theorem FMPS.dAdtFull_tdvp {y : FMPS ℂ} (e : FMPS.dAdtFull chol inv null O x H = .ok y) {i : ℕ} (hi : i < x.data.length) {p q : ℕ}
    (hA : x.data[i].shape = [d, p, q]) {W : ND ℂ} (hW : W.shape = [d, p, q])
    (hg : LeftGauge d p q (leftEnv ((List.replicate L d).take i) (x.data.take i)) x.data[i] W) :
    pairing (List.replicate L d) (psi (swapIn x.data i W)) (tangentPsi x.data y.data) =
      pairing (List.replicate L d) (psi (swapIn x.data i W)) (fun s => -Complex.I * fullAct (List.replicate L d) H (psi x.data) s) := by
  obtain ⟨y', e', hy, hyl, hs⟩ := dAdtFull_facts hchol hinv hnull O hd hx hf hH
  rw [e] at e'
  injection e' with e'
  subst e'
  obtain ⟨hlen, -, -⟩ := hx.rep_L
  obtain ⟨p', q', k, U, pr, lam, rho, mu, h⟩ := hs i hi (by omega)
  have h' := h.hA
  rw [hA] at h'
  obtain ⟨rfl, rfl⟩ : p = p' ∧ q = q' := by simpa using h'
  have hdsi := replicate_cut (L := L) (d := d) (i := i) (by omega)
  rw [sites_left hx hyl hs hi hA hW hg, pairing_smul, swapIn, set_cut hi W]
  conv_rhs => arg 2; arg 1; rw [hdsi]
  rw [inner_site h.hp hW h.hn]
  simp only [Finset.mul_sum]
  refine Finset.sum_congr rfl fun t _ => Finset.sum_congr rfl fun b _ => Finset.sum_congr rfl fun c _ => ?_
  ring

/-- the tangent vector is orthogonal to the state: the norm does not change to first order -/
theorem FMPS.dAdtFull_norm {y : FMPS ℂ} (e : FMPS.dAdtFull chol inv null O x H = .ok y) :
    pairing (List.replicate L d) (psi x.data) (tangentPsi x.data y.data) = 0 := by
  obtain ⟨y', e', hy, hyl, hs⟩ := dAdtFull_facts hchol hinv hnull O hd hx hf hH
  rw [e] at e'
  injection e' with e'
  subst e'
  exact sites_norm hx hyl hs

/-- the variational equation for sums of tangent vectors -/
theorem FMPS.dAdtFull_project {y : FMPS ℂ} (e : FMPS.dAdtFull chol inv null O x H = .ok y) {Ws : List (ND ℂ)} (hWl : Ws.length = x.data.length)
    (hW : ∀ i (hi : i < x.data.length) (hi' : i < Ws.length), ∀ p q, x.data[i].shape = [d, p, q] → Ws[i].shape = [d, p, q] ∧
      LeftGauge d p q (leftEnv ((List.replicate L d).take i) (x.data.take i)) x.data[i] Ws[i]) :
    pairing (List.replicate L d) (tangentPsi x.data Ws) (tangentPsi x.data y.data) =
      pairing (List.replicate L d) (tangentPsi x.data Ws) (fun s => -Complex.I * fullAct (List.replicate L d) H (psi x.data) s) := by
  have h1 : ∀ g, pairing (List.replicate L d) (tangentPsi x.data Ws) g =
      ∑ i ∈ range x.data.length, pairing (List.replicate L d) (psi (swapIn x.data i (Ws.getD i ⟨[], fun _ => 0⟩))) g :=
    fun g => pairing_sum_left _ _ _ _
  rw [h1, h1]
  refine Finset.sum_congr rfl fun i hi => ?_
  have hi := Finset.mem_range.1 hi
  obtain ⟨p, q, -, hA, -, -⟩ := chain_site hx.chain hi
  obtain ⟨g1, g2⟩ := hW i hi (by omega) p q hA
  rw [List.getD_eq_getElem _ _ (by omega : i < Ws.length)]
  exact FMPS.dAdtFull_tdvp hchol hinv hnull O hd hx hf hH e hi hA g1 g2

/-- the energy does not change to first order -/
theorem FMPS.dAdtFull_energy {y : FMPS ℂ} (e : FMPS.dAdtFull chol inv null O x H = .ok y) :
    (pairing (List.replicate L d) (tangentPsi x.data y.data) (fullAct (List.replicate L d) H (psi x.data))).re = 0 := by
  obtain ⟨y', e', hy, hg⟩ := FMPS.dAdtFull_gauge hchol hinv hnull O hd hx hf hH
  rw [e] at e'
  injection e' with e'
  subst e'
  have key := FMPS.dAdtFull_project hchol hinv hnull O hd hx hf hH e (Ws := y.data) (by rw [hy.chain.length_eq, hx.chain.length_eq]) hg
  rw [pairing_smul] at key
  have him : (pairing (List.replicate L d) (tangentPsi x.data y.data) (tangentPsi x.data y.data)).im = 0 :=
    Complex.conj_eq_iff_im.1 (pairing_star _ _ _)
  rw [key] at him
  simpa using him

/-- among the tangent vectors in the left gauge the result is the closest to `-i H ψ` -/
theorem FMPS.dAdtFull_best {y : FMPS ℂ} (e : FMPS.dAdtFull chol inv null O x H = .ok y) {Ws : List (ND ℂ)} (hWl : Ws.length = x.data.length)
    (hW : ∀ i (hi : i < x.data.length) (hi' : i < Ws.length), ∀ p q, x.data[i].shape = [d, p, q] → Ws[i].shape = [d, p, q] ∧
      LeftGauge d p q (leftEnv ((List.replicate L d).take i) (x.data.take i)) x.data[i] Ws[i]) :
    distSq (List.replicate L d) (tangentPsi x.data y.data) (fun s => -Complex.I * fullAct (List.replicate L d) H (psi x.data) s) ≤
      distSq (List.replicate L d) (tangentPsi x.data Ws) (fun s => -Complex.I * fullAct (List.replicate L d) H (psi x.data) s) := by
  obtain ⟨y', e', hy, hg⟩ := FMPS.dAdtFull_gauge hchol hinv hnull O hd hx hf hH
  rw [e] at e'
  injection e' with e'
  subst e'
  exact distSq_le (FMPS.dAdtFull_project hchol hinv hnull O hd hx hf hH e hWl hW)
    (FMPS.dAdtFull_project hchol hinv hnull O hd hx hf hH e (by rw [hy.chain.length_eq, hx.chain.length_eq]) hg)

end

/-- **C48, C64** `x.left_canonicalise()` followed by `dA_dt(H, fullH=True)`, for any state that is not zero and any matrix `H`. -/
theorem FMPS.dAdtFull_leftCanonicalise {svd : Svd} {eig : Eig} (hsvd : SVDLaw svd) (heig : EigOrthoLaw eig) {chol inv null : ND ℂ → Py (ND ℂ)}
    (hchol : CholTriLaw chol) (hinv : InvLaw inv) (hnull : NullLaw null) (O : SetOrder) {x : FMPS ℂ} {d L : ℕ} (hd : 0 < d)
    (hx : x.Holds (List.replicate L d)) (hp : PosDims x.data) (hnz : ∃ s, InB (List.replicate L d) s ∧ psi x.data s ≠ 0)
    {H : ND ℂ} (hH : H.shape = [d ^ L, d ^ L]) :
    ∃ y Ls z, x.leftCanonicalise svd eig none = .ok (y, some Ls) ∧ FMPS.dAdtFull chol inv null O y H = .ok z ∧ z.Holds (List.replicate L d) ∧
      (∀ i (hi : i < y.data.length) (hi' : i < z.data.length), ∀ p q, y.data[i].shape = [d, p, q] → z.data[i].shape = [d, p, q] ∧
        LeftGauge d p q (leftEnv ((List.replicate L d).take i) (y.data.take i)) y.data[i] z.data[i]) ∧
      pairing (List.replicate L d) (psi y.data) (tangentPsi y.data z.data) = 0 ∧
      (pairing (List.replicate L d) (tangentPsi y.data z.data) (fullAct (List.replicate L d) H (psi y.data))).re = 0 ∧
      ∀ Ws : List (ND ℂ), Ws.length = y.data.length →
        (∀ i (hi : i < y.data.length) (hi' : i < Ws.length), ∀ p q, y.data[i].shape = [d, p, q] → Ws[i].shape = [d, p, q] ∧
          LeftGauge d p q (leftEnv ((List.replicate L d).take i) (y.data.take i)) y.data[i] Ws[i]) →
        distSq (List.replicate L d) (tangentPsi y.data z.data) (fun s => -Complex.I * fullAct (List.replicate L d) H (psi y.data) s) ≤
          distSq (List.replicate L d) (tangentPsi y.data Ws) (fun s => -Complex.I * fullAct (List.replicate L d) H (psi y.data) s) := by
  obtain ⟨y, Ls, e, hy, hf⟩ := FMPS.fullEnvs_leftCanonicalise hsvd heig hx (by intro t ht; rw [hx.d]; exact replicate_headI ht) hp none (by simp)
    (fun _ => hnz)
  obtain ⟨z, e', hz, hg⟩ := FMPS.dAdtFull_gauge hchol hinv hnull O hd hy hf hH
  exact ⟨y, Ls, z, e, e', hz, hg, FMPS.dAdtFull_norm hchol hinv hnull O hd hy hf hH e', FMPS.dAdtFull_energy hchol hinv hnull O hd hy hf hH e',
    fun Ws h1 h2 => FMPS.dAdtFull_best hchol hinv hnull O hd hy hf hH e' h1 h2⟩

/-! ### the hypotheses can be met -/

example {chol inv null : ND ℂ → Py (ND ℂ)} (hchol : CholTriLaw chol) (hinv : InvLaw inv) (hnull : NullLaw null) (O : SetOrder) :=
  FMPS.dAdtFull_gauge hchol hinv hnull O (d := 2) (L := 2) (by omega) exBellState_holds exBellState_full (H := eyeND 4) (by simp [eyeND])

example {svd : Svd} {eig : Eig} (hsvd : SVDLaw svd) (heig : EigOrthoLaw eig) {chol inv null : ND ℂ → Py (ND ℂ)}
    (hchol : CholTriLaw chol) (hinv : InvLaw inv) (hnull : NullLaw null) (O : SetOrder) :=
  FMPS.dAdtFull_leftCanonicalise hsvd heig hchol hinv hnull O (d := 2) (L := 2) (by omega) (exTwo_holds 2) (exTwo_pos 2) exTwo_nonzero (H := eyeND 4)
    (by simp [eyeND])

end Xmps
