import Verif.Lemmas.GaugeFix
import Verif.Props.ProjError

/-!
# `dA_dt` among all tangent vectors, and when it is the exact time derivative (C64, C106)

The energy `⟨ψ|H|ψ⟩/⟨ψ|ψ⟩` is `meanH`.
-/

namespace Xmps

open Spec Finset Xmps.Ncon

/-- `⟨ψ|H|ψ⟩ / ⟨ψ|ψ⟩` -/
noncomputable def Spec.meanH (L d : ℕ) (H As : List (ND ℂ)) : ℂ :=
  pairing (List.replicate L d) (psi As) (hamAct d H (psi As)) / pairing (List.replicate L d) (psi As) (psi As)

/-- `-i (H - ⟨H⟩) ψ`, the time derivative up to the phase of the state -/
noncomputable def Spec.flowH (L d : ℕ) (H As : List (ND ℂ)) (s : List ℕ) : ℂ := -Complex.I * (hamAct d H (psi As) s - meanH L d H As * psi As s)

theorem pairing_add (ds : List ℕ) (f g h : List ℕ → ℂ) : pairing ds f (fun s => g s + h s) = pairing ds f g + pairing ds f h := by
  unfold pairing
  rw [← sumIdx_add]
  exact sumIdx_congr fun s _ => by ring

theorem pairing_add_left (ds : List ℕ) (f g h : List ℕ → ℂ) : pairing ds (fun s => g s + h s) f = pairing ds g f + pairing ds h f := by
  rw [← pairing_star, pairing_add, star_add, pairing_star, pairing_star]

theorem pairing_smul_left (ds : List ℕ) (f g : List ℕ → ℂ) (c : ℂ) : pairing ds (fun s => c * g s) f = star c * pairing ds g f := by
  rw [← pairing_star, pairing_smul, star_mul', pairing_star]

/-- a vector at distance 0 is the vector itself -/
theorem eq_of_distSq {ds : List ℕ} {f g : List ℕ → ℂ} (h : distSq ds f g = 0) {s : List ℕ} (hs : InB ds s) : f s = g s := by
  by_contra hne
  have e : pairing ds (fun s => f s - g s) (fun s => f s - g s) = ((sumIdx ds fun s => ‖f s - g s‖ ^ 2 : ℝ) : ℂ) := by
    rw [sumIdx_ofReal]
    exact sumIdx_congr fun s _ => by rw [star_mul_norm]
  unfold distSq at h
  rw [e, Complex.ofReal_re] at h
  have hp : 0 < ‖f s - g s‖ := norm_pos_iff.2 (sub_ne_zero.2 hne)
  have := sumIdx_pos (s := ds) (f := fun s => ‖f s - g s‖ ^ 2) (fun _ => by positivity) hs (by positivity)
  linarith

section
variable {L d : ℕ} {As : List (ND ℂ)} (hc : MpsChain (List.replicate L d) As 1 1) (hf : FullEnvs (List.replicate L d) As) (hL : 0 < L)
include hc hf hL

theorem norm_ne_zero_of_full : pairing (List.replicate L d) (psi As) (psi As) ≠ 0 := by
  have hlen := hc.length_eq
  rw [List.length_replicate] at hlen
  obtain ⟨lam, rho, hpos, hv⟩ := hf L (by simp) 1 (by
    rw [List.take_of_length_le (by simp), List.take_of_length_le (by omega)]
    exact hc)
  have h1 := (hv 0 (by omega) 0 (by omega)).1
  rw [if_pos rfl, List.take_of_length_le (by simp), List.take_of_length_le (by omega)] at h1
  have h2 : pairing (List.replicate L d) (psi As) (psi As) = leftEnv (List.replicate L d) As 0 0 := by
    unfold pairing leftEnv
    refine sumIdx_congr fun s hs => ?_
    have hne : As ≠ [] := by
      intro h
      rw [h] at hlen
      simp at hlen
      omega
    rw [psi_eq_amp hc hne hs.length_eq]
  rw [h2, h1]
  have := (hpos 0 (by omega)).1
  exact_mod_cast this.ne'

/-- every tangent vector is one in the left gauge plus a multiple of the state -/
theorem tangent_decomp {Bs : List (ND ℂ)} (hB : Bs.length = As.length)
    (hBs : ∀ i (h1 : i < Bs.length) (h2 : i < As.length), Bs[i].shape = As[i].shape) :
    ∃ (Cs : List (ND ℂ)) (z : ℂ), Cs.length = As.length ∧
      (∀ i (hi : i < As.length) (hi' : i < Cs.length), ∀ p q, As[i].shape = [d, p, q] → Cs[i].shape = [d, p, q] ∧
        LeftGauge d p q (leftEnv ((List.replicate L d).take i) (As.take i)) As[i] Cs[i]) ∧
      ∀ s, InB (List.replicate L d) s → tangentPsi As Bs s = tangentPsi As Cs s + z * psi As s := by
  have hlen := hc.length_eq
  rw [List.length_replicate] at hlen
  have hne : As ≠ [] := by
    intro h
    rw [h] at hlen
    simp at hlen
    omega
  have hBf : List.Forall₂ (fun B A : ND ℂ => B.shape = A.shape) Bs As := List.forall₂_iff_get.2 ⟨hB, fun i h1 h2 => hBs i h1 h2⟩
  obtain ⟨Cs, z, c1, c2, c3⟩ := gauge_fix (List.replicate L d) As Bs [] [] 1 (fun _ _ => 0) rfl hc hBf (by
    intro k hk q hq
    obtain ⟨lam, rho, h1, h2⟩ := hf k hk q hq
    exact ⟨lam, fun a ha => (h1 a ha).1, fun a ha b hb => by simpa using (h2 a ha b hb).1⟩)
  refine ⟨Cs, z, c1.length_eq, ?_, ?_⟩
  · intro i hi hi' p q hs
    refine ⟨?_, by simpa using c2 i hi hi' d p q hs⟩
    rw [← hs]
    exact c1.get hi' hi
  · intro s hs
    have := c3 s hs 0 (by omega)
    rw [tangentPsi_eq hc hBf hs.length_eq, tangentPsi_eq hc c1 hs.length_eq, psi_eq_amp hc hne hs.length_eq]
    simpa using this

omit hf hL in
/-- tangent vectors in the left gauge are orthogonal to the state -/
theorem gauge_norm {Cs : List (ND ℂ)} (hCl : Cs.length = As.length)
    (hC : ∀ i (hi : i < As.length) (hi' : i < Cs.length), ∀ p q, As[i].shape = [d, p, q] → Cs[i].shape = [d, p, q] ∧
        LeftGauge d p q (leftEnv ((List.replicate L d).take i) (As.take i)) As[i] Cs[i]) :
    pairing (List.replicate L d) (tangentPsi As Cs) (psi As) = 0 := by
  have hlen := hc.length_eq
  rw [List.length_replicate] at hlen
  have h1 : pairing (List.replicate L d) (tangentPsi As Cs) (psi As) =
      ∑ i ∈ range As.length, pairing (List.replicate L d) (psi (swapIn As i (Cs.getD i ⟨[], fun _ => 0⟩))) (psi As) := pairing_sum_left _ _ _ _
  rw [h1]
  refine Finset.sum_eq_zero fun j hj => ?_
  have hj := Finset.mem_range.1 hj
  obtain ⟨p, q, c1, sA, c2, c3⟩ := chain_site hc hj
  obtain ⟨g1, g2⟩ := hC j hj (by omega) p q sA
  rw [List.getD_eq_getElem _ _ (by omega : j < Cs.length), swapIn, set_cut hj]
  conv_lhs => rw [replicate_cut (L := L) (d := d) (i := j) (by omega)]
  refine inner_gauge (g := fun s2 c => amp (As.drop (j + 1)) s2 c 0) c1 g1 c3 g2 ?_
  intro s1 hs1 t ht s2 hs2
  conv_lhs => rw [list_cut hj]
  exact psi_agree c1 sA c3 hs1 hs2.length_eq t

theorem flowH_norm (H : List (ND ℂ)) : pairing (List.replicate L d) (psi As) (flowH L d H As) = 0 := by
  have hn := norm_ne_zero_of_full hc hf hL
  unfold flowH
  rw [pairing_smul, pairing_sub, pairing_smul]
  unfold meanH
  rw [div_mul_cancel₀ _ hn]
  simp

end

/-! ### sums of tangent vectors -/

/-- `u B + w C` -/
def lin2 (u w : ℂ) (B C : ND ℂ) : ND ℂ := ⟨B.shape, fun v => u * B.val v + w * C.val v⟩

theorem tanAmp_lin (u w : ℂ) : ∀ (As Bs Cs : List (ND ℂ)) (s : List ℕ) (a : ℕ), Bs.length = As.length → Cs.length = As.length →
    tanAmp As (List.zipWith (lin2 u w) Bs Cs) s a = u * tanAmp As Bs s a + w * tanAmp As Cs s a
  | [], [], [], _, _, _, _ => by simp [tanAmp]
  | A :: As, B :: Bs, C :: Cs, [], _, _, _ => by simp [tanAmp]
  | A :: As, B :: Bs, C :: Cs, t :: s, a, h1, h2 => by
    have ih := fun c => tanAmp_lin u w As Bs Cs s c (by simpa using h1) (by simpa using h2)
    simp only [List.zipWith_cons_cons, tanAmp, ih, Finset.mul_sum]
    rw [← Finset.sum_add_distrib]
    refine Finset.sum_congr rfl fun c _ => ?_
    simp only [lin2]
    ring

theorem tanAmp_zero : ∀ (As : List (ND ℂ)) (s : List ℕ) (a : ℕ), tanAmp As (As.map fun A => ⟨A.shape, fun _ => 0⟩) s a = 0
  | [], _, _ => by simp [tanAmp]
  | A :: As, [], _ => by simp [tanAmp]
  | A :: As, t :: s, a => by
    have ih := fun c => tanAmp_zero As s c
    simp only [List.map_cons, tanAmp, ih]
    simp

/-- the state as a tangent vector: the first tensor kept -/
def keepFirst (As : List (ND ℂ)) : List (ND ℂ) :=
  match As with
  | [] => []
  | A :: As => A :: As.map fun A => ⟨A.shape, fun _ => 0⟩

theorem tanAmp_keep {A : ND ℂ} {As : List (ND ℂ)} {t : ℕ} {s : List ℕ} {a : ℕ} : tanAmp (A :: As) (keepFirst (A :: As)) (t :: s) a = amp (A :: As) (t :: s) a 0 := by
  simp only [keepFirst, tanAmp, amp_cons, tanAmp_zero]
  simp

theorem keepFirst_shapes (As : List (ND ℂ)) : List.Forall₂ (fun B A : ND ℂ => B.shape = A.shape) (keepFirst As) As := by
  cases As with
  | nil => exact List.Forall₂.nil
  | cons A As =>
    refine List.Forall₂.cons rfl ?_
    rw [List.forall₂_map_left_iff]
    exact List.forall₂_same.2 fun _ _ => rfl

section
variable {chol inv null : ND ℂ → Py (ND ℂ)} (hchol : CholTriLaw chol) (hinv : InvLaw inv) (hnull : NullLaw null) (O : SetOrder)
  {x : FMPS ℂ} {L d : ℕ} (hd : 0 < d) (hx : x.Holds (List.replicate L d)) (hf : FullEnvs (List.replicate L d) x.data)
  {H : List (ND ℂ)} (hL : H.length < L) (hH : ∀ h ∈ H, h.shape = [d * d, d * d]) {y : FMPS ℂ} (e : FMPS.dAdt chol inv null O x H = .ok y)
include hchol hinv hnull hd hx hf hL hH e

/-- inner products of the vector of `dA_dt(H)` with any tangent vector are those of `-i (H - ⟨H⟩) ψ` -/
theorem FMPS.dAdt_project_all {Bs : List (ND ℂ)} (hB : Bs.length = x.data.length)
    (hBs : ∀ i (h1 : i < Bs.length) (h2 : i < x.data.length), Bs[i].shape = x.data[i].shape) :
    pairing (List.replicate L d) (tangentPsi x.data Bs) (tangentPsi x.data y.data) =
      pairing (List.replicate L d) (tangentPsi x.data Bs) (flowH L d H x.data) := by
  have h0 : 0 < L := by omega
  obtain ⟨Cs, z, c1, c2, c3⟩ := tangent_decomp hx.chain hf h0 hB hBs
  have ec : ∀ g, pairing (List.replicate L d) (tangentPsi x.data Bs) g =
      pairing (List.replicate L d) (tangentPsi x.data Cs) g + star z * pairing (List.replicate L d) (psi x.data) g := by
    intro g
    rw [pairing_congr (f' := fun s => tangentPsi x.data Cs s + z * psi x.data s) (g' := g) c3 fun _ _ => rfl, pairing_add_left, pairing_smul_left]
  rw [ec, ec, FMPS.dAdt_norm hchol hinv hnull O hd hx hf hL hH e, flowH_norm hx.chain hf h0, mul_zero, add_zero, add_zero,
    FMPS.dAdt_project hchol hinv hnull O hd hx hf hL hH e c1 c2]
  unfold flowH
  rw [pairing_smul, pairing_smul, pairing_sub, pairing_smul, gauge_norm hx.chain c1 c2]
  ring

/-- **C64** of all tangent vectors at the state, in whatever gauge, the one of `dA_dt(H)` is the closest to `-i (H - ⟨H⟩) ψ`. -/
theorem FMPS.dAdt_best_all {Bs : List (ND ℂ)} (hB : Bs.length = x.data.length)
    (hBs : ∀ i (h1 : i < Bs.length) (h2 : i < x.data.length), Bs[i].shape = x.data[i].shape) :
    distSq (List.replicate L d) (tangentPsi x.data y.data) (flowH L d H x.data) ≤
      distSq (List.replicate L d) (tangentPsi x.data Bs) (flowH L d H x.data) := by
  obtain ⟨y', e', hy, hg⟩ := FMPS.dAdt_gauge hchol hinv hnull O hd hx hf hL hH
  rw [e] at e'
  injection e' with e'
  subst e'
  refine distSq_le (FMPS.dAdt_project_all hchol hinv hnull O hd hx hf hL hH e hB hBs)
    (FMPS.dAdt_project_all hchol hinv hnull O hd hx hf hL hH e (by rw [hy.chain.length_eq, hx.chain.length_eq]) ?_)
  intro i h1 h2
  obtain ⟨p, q, -, sA, -⟩ := chain_site hx.chain h2
  rw [(hg i h2 h1 p q sA).1, sA]

/-- **C64** the tangent vector of `dA_dt(H)` is the time derivative `-i (H - ⟨H⟩) ψ` itself exactly when `H ψ` is a tangent vector. -/
theorem FMPS.dAdt_exact : (∀ s, InB (List.replicate L d) s → tangentPsi x.data y.data s = flowH L d H x.data s) ↔ HamTangent L d H x.data := by
  have h0 : 0 < L := by omega
  have hlen := hx.chain.length_eq
  rw [List.length_replicate] at hlen
  obtain ⟨y', e', hy, hg⟩ := FMPS.dAdt_gauge hchol hinv hnull O hd hx hf hL hH
  rw [e] at e'
  injection e' with e'
  subst e'
  have hyl : y.data.length = x.data.length := by rw [hy.chain.length_eq, hx.chain.length_eq]
  have hys : ∀ i (h1 : i < y.data.length) (h2 : i < x.data.length), y.data[i].shape = x.data[i].shape := by
    intro i h1 h2
    obtain ⟨p, q, -, sA, -⟩ := chain_site hx.chain h2
    rw [(hg i h2 h1 p q sA).1, sA]
  have hyf : List.Forall₂ (fun B A : ND ℂ => B.shape = A.shape) y.data x.data := List.forall₂_iff_get.2 ⟨hyl, fun i h1 h2 => hys i h1 h2⟩
  obtain ⟨A, As, hA⟩ : ∃ A As, x.data = A :: As := by
    cases hxd : x.data with
    | nil => rw [hxd] at hlen; simp at hlen; omega
    | cons A As => exact ⟨A, As, rfl⟩
  -- a sum of a tangent vector and a multiple of the state
  have hsum : ∀ (u w : ℂ) {Bs : List (ND ℂ)}, List.Forall₂ (fun B A : ND ℂ => B.shape = A.shape) Bs x.data →
      ∃ Cs : List (ND ℂ), Cs.length = x.data.length ∧ (∀ i (h1 : i < Cs.length) (h2 : i < x.data.length), Cs[i].shape = x.data[i].shape) ∧
        ∀ s, InB (List.replicate L d) s → tangentPsi x.data Cs s = u * tangentPsi x.data Bs s + w * psi x.data s := by
    intro u w Bs hB
    have hk := keepFirst_shapes x.data
    have hBl := hB.length_eq
    have hkl := hk.length_eq
    have hZ : List.Forall₂ (fun B A : ND ℂ => B.shape = A.shape) (List.zipWith (lin2 u w) Bs (keepFirst x.data)) x.data := by
      refine List.forall₂_iff_get.2 ⟨by simp [hBl, hkl], fun i h1 h2 => ?_⟩
      simp only [List.get_eq_getElem, List.getElem_zipWith, lin2]
      exact hB.get (by omega) h2
    refine ⟨_, hZ.length_eq, fun i h1 h2 => hZ.get h1 h2, ?_⟩
    intro s hs
    rw [tangentPsi_eq hx.chain hZ hs.length_eq, tangentPsi_eq hx.chain hB hs.length_eq, tanAmp_lin u w _ _ _ _ _ hBl hkl,
      psi_eq_amp hx.chain (by rw [hA]; simp) hs.length_eq]
    congr 2
    have hsl := hs.length_eq
    rw [List.length_replicate] at hsl
    match s, hsl with
    | [], h => simp at h; omega
    | t :: s, _ =>
      rw [hA]
      exact tanAmp_keep
  constructor
  · intro h
    obtain ⟨Cs, c1, c2, c3⟩ := hsum Complex.I (meanH L d H x.data) hyf
    refine ⟨Cs, c1, c2, fun s hs => ?_⟩
    rw [c3 s hs, h s hs, flowH, ← mul_assoc, mul_neg, Complex.I_mul_I]
    ring
  · rintro ⟨Bs, b1, b2, b3⟩ s hs
    obtain ⟨Cs, c1, c2, c3⟩ := hsum (-Complex.I) (Complex.I * meanH L d H x.data) (List.forall₂_iff_get.2 ⟨b1, fun i h1 h2 => b2 i h1 h2⟩)
    have key := FMPS.dAdt_best_all hchol hinv hnull O hd hx hf hL hH e c1 c2
    have hz : distSq (List.replicate L d) (tangentPsi x.data Cs) (flowH L d H x.data) = 0 := by
      have hp : pairing (List.replicate L d) (fun s => tangentPsi x.data Cs s - flowH L d H x.data s)
          (fun s => tangentPsi x.data Cs s - flowH L d H x.data s) = 0 := by
        rw [pairing_congr (f' := fun _ => 0) (g' := fun _ => 0), pairing_zero] <;>
        · intro s hs
          show tangentPsi x.data Cs s - flowH L d H x.data s = 0
          rw [c3 s hs, ← b3 s hs]
          unfold flowH
          ring
      unfold distSq
      rw [hp, Complex.zero_re]
    rw [hz] at key
    exact eq_of_distSq (le_antisymm key (pairing_self_nonneg _ _)) hs

end

/-- **C106** `projection_error` is zero for every time step exactly when `dA_dt` is the exact time derivative. -/
theorem projectionError_exact {chol inv null : ND ℂ → Py (ND ℂ)} {svd : ND ℂ → Py (ND ℂ × List ℝ × ND ℂ)} (hchol : CholTriLaw chol) (hinv : InvLaw inv)
    (hnull : NullLaw null) (hsvd : SVDLaw svd) (O : SetOrder) {x : FMPS ℂ} {L d : ℕ} {H : List (ND ℂ)} (hd : 1 < d) (hx : x.Holds (List.replicate L d))
    (hD : 0 < x.D) (hf : FullEnvs (List.replicate L d) x.data) (hiso : ∀ A ∈ x.data, LeftIso A) (hHL : H.length + 1 = L)
    (hH : ∀ h ∈ H, h.shape = [d * d, d * d]) (hmatch : OpenBondsMatch d x.data) {dt : ℝ} (hdt : 0 < dt) :
    ∃ y, FMPS.dAdt chol inv null O x H = .ok y ∧ (FMPS.projectionError chol inv null svd O x H dt = .ok 0 ↔
      ∀ s, InB (List.replicate L d) s → tangentPsi x.data y.data s = flowH L d H x.data s) := by
  obtain ⟨y, e, -, -⟩ := FMPS.dAdt_gauge hchol hinv hnull O (by omega) hx hf (by omega : H.length < L) hH
  refine ⟨y, e, ?_⟩
  rw [FMPS.dAdt_exact hchol hinv hnull O (by omega) hx hf (by omega) hH e]
  obtain ⟨v, -, hv, hz⟩ := projectionError_ok_partial hchol hinv hnull hsvd O hd hx hD hf hiso hHL hH hmatch
  rw [hv dt hdt.le, ← hz]
  constructor
  · intro h
    injection h with h
    rcases mul_eq_zero.1 h with h | h
    · exact absurd h (by positivity)
    · exact h
  · intro h
    rw [h, mul_zero]

example {chol inv null : ND ℂ → Py (ND ℂ)} {svd : ND ℂ → Py (ND ℂ × List ℝ × ND ℂ)} (hchol : CholTriLaw chol) (hinv : InvLaw inv)
    (hnull : NullLaw null) (hsvd : SVDLaw svd) (O : SetOrder) (h : ND ℂ) (hh : h.shape = [4, 4]) :=
  projectionError_exact hchol hinv hnull hsvd O (H := [h]) (by omega) exZZ_holds (by simp [exZZ]) exZZ_full exZZ_iso rfl (by simpa using hh) exZZ_match
    (dt := 1) one_pos

/-- the hypotheses of the three theorems: a Bell pair and any two-site matrix -/
example {chol inv null : ND ℂ → Py (ND ℂ)} (hchol : CholTriLaw chol) (hinv : InvLaw inv) (hnull : NullLaw null) (O : SetOrder) (h : ND ℂ)
    (hh : h.shape = [4, 4]) : ∃ y, FMPS.dAdt chol inv null O exBellState [h] = .ok y ∧
      ((∀ s, InB (List.replicate 2 2) s → tangentPsi exBellState.data y.data s = flowH 2 2 [h] exBellState.data s) ↔ HamTangent 2 2 [h] exBellState.data) ∧
      distSq (List.replicate 2 2) (tangentPsi exBellState.data y.data) (flowH 2 2 [h] exBellState.data) ≤
        distSq (List.replicate 2 2) (tangentPsi exBellState.data exBellState.data) (flowH 2 2 [h] exBellState.data) := by
  have hH : ∀ g ∈ [h], g.shape = [2 * 2, 2 * 2] := by simpa using hh
  obtain ⟨y, e, -, -⟩ := FMPS.dAdt_gauge hchol hinv hnull O (d := 2) (L := 2) (by omega) exBellState_holds exBellState_full (H := [h]) (by simp) hH
  exact ⟨y, e, FMPS.dAdt_exact hchol hinv hnull O (by omega) exBellState_holds exBellState_full (by simp) hH e,
    FMPS.dAdt_best_all hchol hinv hnull O (by omega) exBellState_holds exBellState_full (by simp) hH e rfl fun _ _ _ => rfl⟩

end Xmps
