import Verif.Model.EnergySearch
import Verif.Props.TangentDeriv
import Verif.Props.TangentVec
import Verif.Props.IsoRandom
import Mathlib.Analysis.Calculus.Deriv.Slope

/-!
# Property C119: `random_with_energy_E`
-/

namespace Xmps

open Spec Finset Xmps.Ncon

/-! ### the state between the steps -/

/-- a normalised chain of `L` sites of dimension `d` with diagonal positive environments -/
structure FMPS.Ready (x : FMPS ℂ) (L d : ℕ) : Prop where
  holds : x.Holds (List.replicate L d)
  pos : PosDims x.data
  full : FullEnvs (List.replicate L d) x.data
  unit : braket (List.replicate L d) x.data x.data = 1

theorem FMPS.Ready.nonzero {x : FMPS ℂ} {L d : ℕ} (h : x.Ready L d) : ∃ s, InB (List.replicate L d) s ∧ psi x.data s ≠ 0 := by
  by_contra hn
  push Not at hn
  have : braket (List.replicate L d) x.data x.data = 0 := by
    unfold braket
    rw [sumIdx_congr (g := fun _ => 0) fun s hs => by rw [hn s hs, mul_zero], sumIdx_zero]
  rw [h.unit] at this
  exact one_ne_zero this

theorem FMPS.Ready.energy {x : FMPS ℂ} {L d : ℕ} (h : x.Ready L d) (O : SetOrder) {H : List (ND ℂ)} (hL : H.length < L)
    (hH : ∀ h ∈ H, h.shape = [d * d, d * d]) : x.energy O H = .ok (energyPerSite (List.replicate L d) x.data d H) := by
  have hde : DiagEnvs (List.replicate L d) x.data := by
    intro k hk p hp
    obtain ⟨lam, rho, -, hv⟩ := h.full k hk p hp
    refine ⟨fun a ha b hb => ⟨fun e => ?_, ?_⟩, fun a ha b hb => ⟨fun e => ?_, ?_⟩⟩
    · rw [(hv a ha b hb).1, if_neg e]
    · rw [(hv a ha a ha).1, if_pos rfl, Complex.ofReal_im]
    · rw [(hv a ha b hb).2, if_neg e]
    · rw [(hv a ha a ha).2, if_pos rfl, Complex.ofReal_im]
  rw [FMPS.energy_diag_partial O h.holds hde hL hH]
  unfold energyPerSite
  simp only [h.unit, div_one, List.length_replicate]

theorem FMPS.ready_of_leftCanonicalise {svd : Svd} {eig : Eig} (hsvd : SVDLaw svd) (heig : EigOrthoLaw eig) {x : FMPS ℂ} {L d : ℕ}
    (hx : x.Holds (List.replicate L d)) (hp : PosDims x.data) (hnz : ∃ s, InB (List.replicate L d) s ∧ psi x.data s ≠ 0) :
    ∃ y Ls, x.leftCanonicalise svd eig none = .ok (y, some Ls) ∧ y.Ready L d ∧ SameRay (List.replicate L d) x.data y.data := by
  have hu : ∀ t ∈ List.replicate L d, t = x.d := by intro t ht; rw [hx.d]; exact replicate_headI ht
  obtain ⟨y, Ls, R, z, e, hy, hyp, -, hb, -, -, -, -, hov, hpsi, -⟩ := FMPS.leftCanonicalise_spec hsvd heig hx hu hp none (by simp) (fun _ => hnz)
  obtain ⟨y', Ls', e', -, hf⟩ := FMPS.fullEnvs_leftCanonicalise hsvd heig hx hu hp none (by simp) (fun _ => hnz)
  rw [e] at e'
  injection e' with e'
  injection e' with e1 e2
  subst e1
  refine ⟨y, Ls, e, ⟨hy, hyp, hf, hb⟩, z * R.val [0, 0], ?_, hpsi rfl⟩
  intro h0
  obtain ⟨s, hs, hne⟩ := hnz
  exact hne (by rw [hpsi rfl s hs, h0, zero_mul])

theorem energyPerSite_ray {L d : ℕ} {As Bs : List (ND ℂ)} (h : SameRay (List.replicate L d) As Bs) (hb : braket (List.replicate L d) Bs Bs = 1)
    {H : List (ND ℂ)} (hL : H.length < L) : energyPerSite (List.replicate L d) Bs d H = energyPerSite (List.replicate L d) As d H := by
  unfold energyPerSite
  congr 1
  refine Finset.sum_congr rfl fun m hm => ?_
  have hm' := Finset.mem_range.1 hm
  rw [h.opExpect (by rw [List.length_replicate]; omega) hb, hb, div_one]

theorem Tdvp.subItem_has {ds : List ℕ} {S : List (List ℕ)} {y z : FMPS ℂ} {v w : Tdvp.Vals ℂ} (h : Tdvp.Has ds S y v) (h' : Tdvp.Has ds S z w) :
    ∃ x, y.subItem z = .ok x ∧ Tdvp.Has ds S x (v - w) := by
  have hc : MpsChain ds (arrays S (v - w)) 1 1 := chain_shapes h.holds.chain (by rw [h.data, arrays_shape, arrays_shape])
  obtain ⟨x, h1, h2, h3, -⟩ := init_holds hc h.holds.ne none (Or.inl rfl)
  refine ⟨x, ?_, h3, h2⟩
  unfold FMPS.subItem
  rw [mapM_zip (n := arrays S (v - w)) (by simp [h.data, h'.data, arrays]) (by simp [h.data, arrays])]
  · exact h1
  · intro i h1 h2 h3
    simp only [h.data, h'.data, ND.zipNd, arrays, List.getElem_mapIdx, if_true]
    rfl

/-- `x - c*y` has the tensors `A - c B` -/
theorem FMPS.step_line_sub {x y : FMPS ℂ} {ds : List ℕ} (hx : x.Holds ds) (hy : y.Holds ds) (hsh : x.data.map ND.shape = y.data.map ND.shape) (c : ℂ) :
    ∃ w z, y.mulItem c = .ok w ∧ x.subItem w = .ok z ∧ z.Holds ds ∧ z.data = lineData (-c) x.data y.data := by
  have h1 : Tdvp.Has ds (x.data.map ND.shape) x (Tdvp.vals x.data) := ⟨hx, (Tdvp.arrays_vals _).symm⟩
  have h2 : Tdvp.Has ds (x.data.map ND.shape) y (Tdvp.vals y.data) := ⟨hy, by rw [hsh]; exact (Tdvp.arrays_vals _).symm⟩
  obtain ⟨w, e1, hw⟩ := Tdvp.mulItem_has h2 c
  obtain ⟨z, e2, hz⟩ := Tdvp.subItem_has h1 hw
  exact ⟨w, z, e1, e2, hz.holds, by rw [hz.data, ← arrays_line (-c) hsh, neg_smul, sub_eq_add_neg]⟩

/-- the state the search starts from -/
theorem FMPS.random_ready_ray {svd : Svd} {eig : Eig} (hsvd : SVDLaw svd) (heig : EigOrthoLaw eig) {L d D : ℕ} {ang : ℕ → ℝ × ℝ} {rnd : ℕ → List ℕ → ℝ × ℝ}
    (x : FMPS ℂ) (h2 : 2 ≤ L) (hd : 0 < d) (hD : 0 < D) (hD1 : D = 1 → d = 2)
    (hnz : ∀ y, x.random ang rnd L d (some D) = .ok y → ∃ s, InB (List.replicate L d) s ∧ psi y.data s ≠ 0) :
    ∃ y Ls, ∃ z, x.random ang rnd L d (some D) = .ok z ∧ z.leftCanonicalise svd eig none = .ok (y, some Ls) ∧ y.Ready L d ∧
      SameRay (List.replicate L d) z.data y.data := by
  have hr : ∃ z, x.random ang rnd L d (some D) = .ok z ∧ z.Holds (List.replicate L d) ∧ PosDims z.data := by
    by_cases h1 : D = 1
    · subst h1
      obtain rfl := hD1 rfl
      obtain ⟨z, e, hp, -⟩ := FMPS.random_product (ang := ang) (rnd := rnd) (real := false) x (by omega : 0 < L)
      refine ⟨z, e, hp.holds, fun A hA n hn => ?_⟩
      rw [hp.flat A hA] at hn
      simp at hn
      omega
    · obtain ⟨z, e, hz, hs, -⟩ := FMPS.random_chain (ang := ang) (rnd := rnd) (real := false) x (d := d) h2 hD h1
      refine ⟨z, e, hz, fun A hA n hn => ?_⟩
      have : A.shape ∈ z.data.map (·.shape) := List.mem_map_of_mem hA
      rw [hs] at this
      obtain ⟨i, -, hi⟩ := List.mem_map.1 this
      rw [← hi] at hn
      have hb : ∀ i, 0 < bondAt L d D i := fun i => lt_min (by positivity) hD
      simp only [List.mem_cons, List.not_mem_nil, or_false] at hn
      rcases hn with rfl | rfl | rfl
      · exact hd
      · exact hb _
      · exact hb _
  obtain ⟨z, ez, hz, hp⟩ := hr
  obtain ⟨y, Ls, e, hy, hr⟩ := FMPS.ready_of_leftCanonicalise hsvd heig hz hp (hnz z ez)
  exact ⟨y, Ls, z, ez, e, hy, hr⟩

theorem FMPS.random_ready {svd : Svd} {eig : Eig} (hsvd : SVDLaw svd) (heig : EigOrthoLaw eig) {L d D : ℕ} {ang : ℕ → ℝ × ℝ} {rnd : ℕ → List ℕ → ℝ × ℝ}
    (x : FMPS ℂ) (h2 : 2 ≤ L) (hd : 0 < d) (hD : 0 < D) (hD1 : D = 1 → d = 2)
    (hnz : ∀ y, x.random ang rnd L d (some D) = .ok y → ∃ s, InB (List.replicate L d) s ∧ psi y.data s ≠ 0) :
    ∃ y Ls, (∃ z, x.random ang rnd L d (some D) = .ok z ∧ z.leftCanonicalise svd eig none = .ok (y, some Ls)) ∧ y.Ready L d := by
  obtain ⟨y, Ls, z, ez, e, hy, -⟩ := FMPS.random_ready_ray hsvd heig x h2 hd hD hD1 hnz
  exact ⟨y, Ls, ⟨z, ez, e⟩, hy⟩

/-! ### one step -/

section

variable {svd : Svd} {eig : Eig} (hsvd : SVDLaw svd) (heig : EigOrthoLaw eig) {chol inv null : ND ℂ → Py (ND ℂ)} (hchol : CholTriLaw chol)
  (hinv : InvLaw inv) (hnull : NullLaw null) (O : SetOrder) {L d : ℕ} (hd : 0 < d) {H : List (ND ℂ)} (hL : H.length < L)
  (hH : ∀ h ∈ H, h.shape = [d * d, d * d])
include hsvd heig hchol hinv hnull hd hL hH

/-- the factor of `dA_dt` in the direction of the step -/
def Spec.stepDir (up : Bool) : ℂ := if up then Complex.I else -Complex.I

theorem FMPS.energyStep_ok (up : Bool) {x : FMPS ℂ} (hx : x.Ready L d) (dt : ℝ) : ∃ k y, FMPS.dAdt chol inv null O x H = .ok k ∧
    FMPS.energyStep svd eig chol inv null O H up x dt = .ok y ∧ y.Ready L d ∧
    SameRay (List.replicate L d) (lineData (stepDir up * dt) x.data k.data) y.data ∧ Gauged L d x.data k.data ∧
    x.data.map ND.shape = k.data.map ND.shape := by
  obtain ⟨k, e, hk, hg⟩ := FMPS.dAdt_gauge hchol hinv hnull O hd hx.holds hx.full hL hH
  have hl : k.data.length = x.data.length := by rw [hk.chain.length_eq, hx.holds.chain.length_eq]
  have hsh : x.data.map ND.shape = k.data.map ND.shape := by
    apply List.ext_getElem
    · simp [hl]
    · intro i h1 h2
      simp only [List.length_map] at h1 h2
      obtain ⟨p, q, -, hA, -, -⟩ := chain_site hx.holds.chain h1
      rw [List.getElem_map, List.getElem_map, hA, (hg i h1 h2 p q hA).1]
  have hz : ∃ w z, k.mulItem (Complex.I * dt) = .ok w ∧ FMPS.addOrSub up x w = .ok z ∧ z.Holds (List.replicate L d) ∧
      z.data = lineData (stepDir up * dt) x.data k.data := by
    cases up
    · obtain ⟨w, z, e1, e2, h1, h2⟩ := FMPS.step_line_sub hx.holds hk hsh (Complex.I * dt)
      exact ⟨w, z, e1, by simpa [FMPS.addOrSub] using e2, h1, by rw [h2]; simp [stepDir]⟩
    · obtain ⟨w, z, e1, e2, h1, h2⟩ := FMPS.step_line hx.holds hk hsh (Complex.I * dt)
      exact ⟨w, z, e1, by simpa [FMPS.addOrSub] using e2, h1, by rw [h2]; simp [stepDir]⟩
  obtain ⟨w, z, e1, e2, hzh, hzd⟩ := hz
  have hzp : PosDims z.data := by
    have hm : z.data.map ND.shape = x.data.map ND.shape := by rw [hzd, lineData_shape hl.symm]
    intro A hA n hn
    have : A.shape ∈ x.data.map ND.shape := by
      rw [← hm]
      exact List.mem_map_of_mem hA
    obtain ⟨A', hA', he⟩ := List.mem_map.1 this
    exact hx.pos A' hA' n (by rw [he]; exact hn)
  have hne : x.data ≠ [] := hx.holds.data_ne
  have hov := line_overlap hx.holds.chain hne hl hg (stepDir up * dt)
  have hznz : ∃ s, InB (List.replicate L d) s ∧ psi z.data s ≠ 0 := by
    by_contra hn
    push Not at hn
    have h0 : pairing (List.replicate L d) (psi x.data) (psi z.data) = 0 := by
      rw [pairing_congr (fun s _ => rfl) (g' := fun _ => 0) hn, pairing_zero]
    rw [hzd, hov] at h0
    have h1 := hx.unit
    rw [show braket (List.replicate L d) x.data x.data = pairing (List.replicate L d) (psi x.data) (psi x.data) from rfl, h0] at h1
    exact zero_ne_one h1
  obtain ⟨y, Ls, e3, hy, hray⟩ := FMPS.ready_of_leftCanonicalise hsvd heig hzh hzp hznz
  refine ⟨k, { x with data := y.data }, e, ?_, ⟨⟨hy.holds.chain, hx.holds.ne, hx.holds.len, hx.holds.d⟩, hy.pos, hy.full, hy.unit⟩, ?_, ⟨hl, hg⟩, hsh⟩
  · unfold FMPS.energyStep
    rw [e, ok_bind, e1, ok_bind, e2, ok_bind, e3, ok_bind]
  · rw [← hzd]
    exact hray

/-- **C119** one step never fails; for Hermitian terms and a small `dt > 0` the step of the first inner loop raises the energy and that of the second
one lowers it, unless the tangent vector of `dA_dt` vanishes. -/
theorem FMPS.energyStep_direction (hh : ∀ h ∈ H, ∀ a < d * d, ∀ b < d * d, star (h.val [b, a]) = h.val [a, b]) {x : FMPS ℂ} (hx : x.Ready L d)
    {k : FMPS ℂ} (ek : FMPS.dAdt chol inv null O x H = .ok k) (hT : ∃ s, InB (List.replicate L d) s ∧ tangentPsi x.data k.data s ≠ 0) :
    ∃ e ε, x.energy O H = .ok e ∧ 0 < ε ∧ ∀ dt, 0 < dt → dt < ε →
      (∃ y e', FMPS.energyStep svd eig chol inv null O H true x dt = .ok y ∧ y.energy O H = .ok e' ∧ e < e') ∧
      ∃ y e', FMPS.energyStep svd eig chol inv null O H false x dt = .ok y ∧ y.energy O H = .ok e' ∧ e' < e := by
  have hpos : 0 < (pairing (List.replicate L d) (tangentPsi x.data k.data) (tangentPsi x.data k.data)).re := by
    refine lt_of_le_of_ne (pairing_self_nonneg _ _) fun h0 => ?_
    obtain ⟨s, hs, hne⟩ := hT
    exact hne (eq_of_distSq (ds := List.replicate L d) (f := tangentPsi x.data k.data) (g := fun _ => 0) (by unfold distSq; simpa using h0.symm) hs)
  have hLpos : (0 : ℝ) < L := by exact_mod_cast (by omega : 0 < L)
  have hder : ∀ up, ∃ D : ℝ, (if up then 0 < D else D < 0) ∧
      HasDerivAt (fun t : ℝ => energyPerSite (List.replicate L d) (lineData (stepDir up * t) x.data k.data) d H) D 0 := by
    intro up
    obtain ⟨z, hz, -, -, -, -, -⟩ := FMPS.dAdt_line hchol hinv hnull O hd hx.holds hx.full hL hH ek (stepDir up)
    obtain ⟨-, h⟩ := FMPS.dAdt_line_energy hchol hinv hnull O hd hx.holds hx.full hL hH hh hx.nonzero ek (stepDir up) hz
    obtain ⟨k', -, ek', -, -, -, hg, hsh⟩ := FMPS.energyStep_ok hsvd heig hchol hinv hnull O hd hL hH true hx 0
    rw [ek] at ek'
    injection ek' with ek'
    subst ek'
    have hk : k.Holds (List.replicate L d) := by
      obtain ⟨k', e', hk, -⟩ := FMPS.dAdt_gauge hchol hinv hnull O hd hx.holds hx.full hL hH
      rw [ek] at e'
      injection e' with e'
      exact e' ▸ hk
    have hzd : ∀ t, (z t).data = lineData (stepDir up * t) x.data k.data := by
      intro t
      obtain ⟨w, w1, w2⟩ := hz t
      obtain ⟨w', z', w1', w2', -, h'⟩ := FMPS.step_line hx.holds hk hsh (stepDir up * t)
      rw [w1] at w1'
      injection w1' with w1'
      subst w1'
      rw [w2] at w2'
      injection w2' with w2'
      rw [w2', h']
    simp only [hzd] at h
    refine ⟨_, ?_, h⟩
    rw [hx.unit]
    cases up
    · have : (stepDir false).im = -1 := by simp [stepDir]
      rw [if_neg (by simp), this]
      apply div_neg_of_neg_of_pos
      · linarith
      · simpa using hLpos
    · have : (stepDir true).im = 1 := by simp [stepDir]
      rw [if_pos rfl, this]
      apply div_pos
      · linarith
      · simpa using hLpos
  have hen : ∀ up dt, ∃ y, FMPS.energyStep svd eig chol inv null O H up x dt = .ok y ∧
      y.energy O H = .ok (energyPerSite (List.replicate L d) (lineData (stepDir up * dt) x.data k.data) d H) := by
    intro up dt
    obtain ⟨k', y, ek', ey, hy, hray, -, -⟩ := FMPS.energyStep_ok hsvd heig hchol hinv hnull O hd hL hH up hx dt
    rw [ek] at ek'
    injection ek' with ek'
    subst ek'
    exact ⟨y, ey, by rw [hy.energy O hL hH, energyPerSite_ray hray hy.unit hL]⟩
  have h0 : ∀ up, lineData (stepDir up * ((0 : ℝ) : ℂ)) x.data k.data = x.data := by
    intro up
    obtain ⟨k', -, ek', -, -, -, hg, -⟩ := FMPS.energyStep_ok hsvd heig hchol hinv hnull O hd hL hH true hx 0
    rw [ek] at ek'
    injection ek' with ek'
    subst ek'
    rw [Complex.ofReal_zero, mul_zero, lineData_zero hg.1.symm]
  obtain ⟨D1, hD1, h1⟩ := hder true
  obtain ⟨D2, hD2, h2⟩ := hder false
  rw [if_pos rfl] at hD1
  rw [if_neg (by simp)] at hD2
  have e1 := (hasDerivAt_iff_tendsto_slope_zero.1 h1).eventually (lt_mem_nhds hD1)
  have e2 := (hasDerivAt_iff_tendsto_slope_zero.1 h2).eventually (gt_mem_nhds hD2)
  simp only [zero_add, h0, smul_eq_mul] at e1 e2
  obtain ⟨ε, hε, hball⟩ := Metric.mem_nhdsWithin_iff.1 (e1.and e2)
  refine ⟨_, ε, hx.energy O hL hH, hε, fun dt hdt hlt => ?_⟩
  have hmem : dt ∈ Metric.ball (0 : ℝ) ε ∩ {0}ᶜ := by
    refine ⟨?_, by simpa using hdt.ne'⟩
    rw [Metric.mem_ball, Real.dist_eq, sub_zero, abs_of_pos hdt]
    exact hlt
  obtain ⟨g1, g2⟩ := hball hmem
  have hi : 0 < dt⁻¹ := inv_pos.2 hdt
  obtain ⟨y1, a1, b1⟩ := hen true dt
  obtain ⟨y2, a2, b2⟩ := hen false dt
  refine ⟨⟨y1, _, a1, b1, ?_⟩, y2, _, a2, b2, ?_⟩
  · have := (mul_pos_iff_of_pos_left hi).1 g1
    linarith
  · by_contra hge
    have := mul_nonneg hi.le (sub_nonneg.2 (not_lt.1 hge))
    linarith

/-! ### the loops -/

theorem FMPS.energyWalk_cases (E dt : ℝ) (up : Bool) : ∀ (fuel : ℕ) {x : FMPS ℂ}, x.Ready L d → ∀ ddE dE : ℝ,
    (∃ y, FMPS.energyWalk svd eig chol inv null O H E dt up fuel x ddE dE = .ok y ∧ y.Ready L d ∧
      (if up then E ≤ energyPerSite (List.replicate L d) y.data d H else energyPerSite (List.replicate L d) y.data d H ≤ E)) ∨
    FMPS.energyWalk svd eig chol inv null O H E dt up fuel x ddE dE = .error .exception ∨
    FMPS.energyWalk svd eig chol inv null O H E dt up fuel x ddE dE = .error .diverges
  | 0, _, _, _, _ => Or.inr (Or.inr rfl)
  | fuel + 1, x, hx, ddE, dE => by
    unfold FMPS.energyWalk
    rw [hx.energy O hL hH, ok_bind]
    by_cases hg : FMPS.goesOn up (energyPerSite (List.replicate L d) x.data d H - E) = true
    · rw [if_pos hg]
      by_cases hm : ddE < 1 / 10 ^ 5 ∧ 1 / 10 ^ 2 < |dE|
      · rw [if_pos hm]
        exact Or.inr (Or.inl rfl)
      · obtain ⟨k, y, -, ey, hy, -⟩ := FMPS.energyStep_ok hsvd heig hchol hinv hnull O hd hL hH up hx dt
        rw [if_neg hm, ey, ok_bind, hy.energy O hL hH, ok_bind]
        exact FMPS.energyWalk_cases E dt up fuel hy _ _
    · rw [if_neg hg]
      refine Or.inl ⟨x, rfl, hx, ?_⟩
      cases up
      · simpa [FMPS.goesOn] using hg
      · simpa [FMPS.goesOn] using hg

theorem FMPS.energySearch_cases (E tol : ℝ) (fuel : ℕ) : ∀ (left : ℕ) {x : FMPS ℂ}, x.Ready L d → ∀ dt : ℝ,
    (∃ y, FMPS.energySearch svd eig chol inv null O H E tol fuel left x dt = .ok y ∧ y.Ready L d ∧
      |energyPerSite (List.replicate L d) y.data d H - E| ≤ tol) ∨
    FMPS.energySearch svd eig chol inv null O H E tol fuel left x dt = .error .exception ∨
    FMPS.energySearch svd eig chol inv null O H E tol fuel left x dt = .error .diverges := by
  intro left
  induction left with
  | zero =>
    intro x hx dt
    unfold FMPS.energySearch
    rw [hx.energy O hL hH, ok_bind]
    by_cases ht : tol < |energyPerSite (List.replicate L d) x.data d H - E|
    · rw [if_pos ht]
      exact Or.inr (Or.inl rfl)
    · rw [if_neg ht]
      exact Or.inl ⟨x, rfl, hx, not_lt.1 ht⟩
  | succ left ih =>
    intro x hx dt
    unfold FMPS.energySearch
    rw [hx.energy O hL hH, ok_bind]
    by_cases ht : tol < |energyPerSite (List.replicate L d) x.data d H - E|
    · rw [if_pos ht]
      rcases FMPS.energyWalk_cases hsvd heig hchol hinv hnull O hd hL hH E dt (decide (energyPerSite (List.replicate L d) x.data d H - E < 0)) fuel hx 10
        (energyPerSite (List.replicate L d) x.data d H - E) with ⟨y, e, hy, -⟩ | e | e
      · simp only [e, ok_bind]
        exact ih hy _
      · right; left
        simp only [e, err_bind]
      · right; right
        simp only [e, err_bind]
    · rw [if_neg ht]
      exact Or.inl ⟨x, rfl, hx, not_lt.1 ht⟩

/-- **C119** `random_with_energy_E(E, H, L, d, D, tol, maxiters)` whenever the random state is not zero: it returns a normalised chain of `L` sites
whose energy per site, and the value of `energy(H)`, differs from `E` by at most `tol`; or it raises its exception; or the inner loop goes on for
ever.  There is no other outcome. -/
theorem FMPS.randomWithEnergy_cases {ang : ℕ → ℝ × ℝ} {rnd : ℕ → List ℕ → ℝ × ℝ} (x : FMPS ℂ) {D : ℕ} (h2 : 2 ≤ L) (hD : 0 < D) (hD1 : D = 1 → d = 2)
    (hnz : ∀ y, x.random ang rnd L d (some D) = .ok y → ∃ s, InB (List.replicate L d) s ∧ psi y.data s ≠ 0) (E tol : ℝ) (maxiters fuel : ℕ) :
    (∃ y e, FMPS.randomWithEnergy svd eig chol inv null O H ang rnd fuel x E L d (some D) tol maxiters = .ok y ∧ y.Holds (List.replicate L d) ∧
      braket (List.replicate L d) y.data y.data = 1 ∧ y.energy O H = .ok e ∧ e = energyPerSite (List.replicate L d) y.data d H ∧ |e - E| ≤ tol) ∨
    FMPS.randomWithEnergy svd eig chol inv null O H ang rnd fuel x E L d (some D) tol maxiters = .error .exception ∨
    FMPS.randomWithEnergy svd eig chol inv null O H ang rnd fuel x E L d (some D) tol maxiters = .error .diverges := by
  obtain ⟨y, Ls, e, hy⟩ := FMPS.random_ready hsvd heig x h2 hd hD hD1 hnz
  unfold FMPS.randomWithEnergy
  obtain ⟨z, ez, e⟩ := e
  rw [ez, ok_bind, e, ok_bind]
  rcases FMPS.energySearch_cases hsvd heig hchol hinv hnull O hd hL hH E tol fuel (maxiters + 1) hy (1 / 10) with ⟨w, ew, hw, hc⟩ | e | e
  · exact Or.inl ⟨w, _, ew, hw.holds, hw.unit, hw.energy O hL hH, rfl, hc⟩
  · exact Or.inr (Or.inl e)
  · exact Or.inr (Or.inr e)

/-- **C119** an energy that no normalised chain comes close to is never returned. -/
theorem FMPS.randomWithEnergy_unreachable {ang : ℕ → ℝ × ℝ} {rnd : ℕ → List ℕ → ℝ × ℝ} (x : FMPS ℂ) {D : ℕ} (h2 : 2 ≤ L) (hD : 0 < D)
    (hD1 : D = 1 → d = 2) (hnz : ∀ y, x.random ang rnd L d (some D) = .ok y → ∃ s, InB (List.replicate L d) s ∧ psi y.data s ≠ 0) (E tol : ℝ)
    (hE : ∀ As, MpsChain (List.replicate L d) As 1 1 → braket (List.replicate L d) As As = 1 →
      tol < |energyPerSite (List.replicate L d) As d H - E|) (maxiters fuel : ℕ) (y : FMPS ℂ) :
    FMPS.randomWithEnergy svd eig chol inv null O H ang rnd fuel x E L d (some D) tol maxiters ≠ .ok y := by
  intro e
  rcases FMPS.randomWithEnergy_cases hsvd heig hchol hinv hnull O hd hL hH x h2 hD hD1 hnz E tol maxiters fuel with ⟨y', e', a1, a2, a3, a4, a5, a6⟩ | a | a
  · rw [a5] at a6
    exact absurd a6 (not_le.2 (hE y'.data a2.chain a3))
  · rw [e] at a
    cases a
  · rw [e] at a
    cases a

/-! ### a Hamiltonian with one energy -/

theorem FMPS.energyWalk_flat {e0 E dt : ℝ} (hflat : ∀ y : FMPS ℂ, y.Ready L d → energyPerSite (List.replicate L d) y.data d H = e0) (hne : e0 ≠ E)
    (hle : |e0 - E| ≤ 1 / 10 ^ 2) : ∀ (fuel : ℕ) {x : FMPS ℂ}, x.Ready L d → ∀ ddE : ℝ,
    FMPS.energyWalk svd eig chol inv null O H E dt (decide (e0 - E < 0)) fuel x ddE (e0 - E) = .error .diverges
  | 0, _, _, _ => rfl
  | fuel + 1, x, hx, ddE => by
    unfold FMPS.energyWalk
    have hg : FMPS.goesOn (decide (e0 - E < 0)) (e0 - E) = true := by
      unfold FMPS.goesOn
      rcases lt_or_gt_of_ne (sub_ne_zero.2 hne) with h | h
      · simp [h]
      · simp [h, not_lt.2 h.le]
    obtain ⟨k, y, -, ey, hy, -⟩ := FMPS.energyStep_ok hsvd heig hchol hinv hnull O hd hL hH (decide (e0 - E < 0)) hx dt
    rw [hx.energy O hL hH, ok_bind, hflat x hx, if_pos hg, if_neg (fun h => absurd h.2 (not_lt.2 hle)), ey, ok_bind, hy.energy O hL hH, ok_bind, hflat y hy]
    exact FMPS.energyWalk_flat hflat hne hle fuel hy _

/-- **C119 fails as a search**: when all states have the same energy per site `e0`, which differs from `E` by more than `tol` and by no more than
`0.01`, the inner loop never ends; the limit `maxiters` does not help. -/
theorem FMPS.randomWithEnergy_endless {ang : ℕ → ℝ × ℝ} {rnd : ℕ → List ℕ → ℝ × ℝ} (x : FMPS ℂ) {D : ℕ} (h2 : 2 ≤ L) (hD : 0 < D)
    (hD1 : D = 1 → d = 2) (hnz : ∀ y, x.random ang rnd L d (some D) = .ok y → ∃ s, InB (List.replicate L d) s ∧ psi y.data s ≠ 0) {e0 E tol : ℝ}
    (hflat : ∀ y : FMPS ℂ, y.Ready L d → energyPerSite (List.replicate L d) y.data d H = e0) (ht : 0 ≤ tol) (hE : tol < |e0 - E|)
    (hle : |e0 - E| ≤ 1 / 10 ^ 2) (maxiters fuel : ℕ) :
    FMPS.randomWithEnergy svd eig chol inv null O H ang rnd fuel x E L d (some D) tol maxiters = .error .diverges := by
  obtain ⟨y, Ls, ⟨z, ez, e⟩, hy⟩ := FMPS.random_ready hsvd heig x h2 hd hD hD1 hnz
  have hne : e0 ≠ E := by
    rintro rfl
    simp at hE
    linarith
  unfold FMPS.randomWithEnergy
  rw [ez, ok_bind, e, ok_bind]
  show FMPS.energySearch svd eig chol inv null O H E tol _ (maxiters + 1) y (1 / 10) = _
  unfold FMPS.energySearch
  rw [hy.energy O hL hH, ok_bind, hflat y hy, if_pos hE]
  simp only [FMPS.energyWalk_flat hsvd heig hchol hinv hnull O hd hL hH hflat hne hle fuel hy, err_bind]

/-- **C119** when the one energy is further away, the second round of the inner loop raises the exception. -/
theorem FMPS.randomWithEnergy_raises {ang : ℕ → ℝ × ℝ} {rnd : ℕ → List ℕ → ℝ × ℝ} (x : FMPS ℂ) {D : ℕ} (h2 : 2 ≤ L) (hD : 0 < D)
    (hD1 : D = 1 → d = 2) (hnz : ∀ y, x.random ang rnd L d (some D) = .ok y → ∃ s, InB (List.replicate L d) s ∧ psi y.data s ≠ 0) {e0 E tol : ℝ}
    (hflat : ∀ y : FMPS ℂ, y.Ready L d → energyPerSite (List.replicate L d) y.data d H = e0) (hE : tol < |e0 - E|)
    (hlt : 1 / 10 ^ 2 < |e0 - E|) (maxiters fuel : ℕ) :
    FMPS.randomWithEnergy svd eig chol inv null O H ang rnd (fuel + 2) x E L d (some D) tol maxiters = .error .exception := by
  obtain ⟨y, Ls, ⟨z, ez, e⟩, hy⟩ := FMPS.random_ready hsvd heig x h2 hd hD hD1 hnz
  have hne : e0 ≠ E := by
    rintro rfl
    simp at hlt
    linarith
  have hg : FMPS.goesOn (decide (e0 - E < 0)) (e0 - E) = true := by
    unfold FMPS.goesOn
    rcases lt_or_gt_of_ne (sub_ne_zero.2 hne) with h | h
    · simp [h]
    · simp [h, not_lt.2 h.le]
  obtain ⟨k, w, -, ew, hw, -⟩ := FMPS.energyStep_ok hsvd heig hchol hinv hnull O hd hL hH (decide (e0 - E < 0)) hy (1 / 10)
  have hwalk : FMPS.energyWalk svd eig chol inv null O H E (1 / 10) (decide (e0 - E < 0)) (fuel + 2) y 10 (e0 - E) = .error .exception := by
    unfold FMPS.energyWalk
    rw [hy.energy O hL hH, ok_bind, hflat y hy, if_pos hg, if_neg (fun h => absurd h.1 (by norm_num)), ew, ok_bind, hw.energy O hL hH, ok_bind, hflat w hw]
    unfold FMPS.energyWalk
    rw [hw.energy O hL hH, ok_bind, hflat w hw, if_pos hg, if_pos ⟨by simp, hlt⟩]
  unfold FMPS.randomWithEnergy
  rw [ez, ok_bind, e, ok_bind]
  show FMPS.energySearch svd eig chol inv null O H E tol _ (maxiters + 1) y (1 / 10) = _
  unfold FMPS.energySearch
  rw [hy.energy O hL hH, ok_bind, hflat y hy, if_pos hE]
  simp only [hwalk, err_bind]

end

/-- the identity on the first two sites has the energy `1/L` in every state -/
theorem energyPerSite_eye {L d : ℕ} (hL : 1 < L) {y : FMPS ℂ} (hy : y.Ready L d) :
    energyPerSite (List.replicate L d) y.data d [eyeND (d * d)] = 1 / L := by
  have hu : pairing (List.replicate L d) (psi y.data) (psi y.data) = 1 := hy.unit
  rw [energyPerSite_eq (by simpa using hL)]
  have : pairing (List.replicate L d) (psi y.data) (hamAct d [eyeND (d * d)] (psi y.data)) = 1 := by
    rw [← hu]
    refine pairing_congr (fun _ _ => rfl) fun s hs => ?_
    have hl := hs.length_eq
    rw [List.length_replicate] at hl
    obtain ⟨a, b, s, rfl⟩ : ∃ a b t, s = a :: b :: t := by
      match s, hl with
      | a :: b :: t, _ => exact ⟨a, b, t, rfl⟩
      | [], h => simp at h; omega
      | [_], h => simp at h; omega
    obtain ⟨L, rfl⟩ : ∃ k, L = k + 2 := ⟨L - 2, by omega⟩
    rw [List.replicate_succ, List.replicate_succ] at hs
    simp only [InB_cons] at hs
    obtain ⟨ha, hb, -⟩ := hs
    simp only [hamAct, gateAct, List.length_cons, List.length_nil, zero_add, Finset.sum_range_one, List.getD_cons_zero, List.getD_cons_succ,
      List.set_cons_zero, List.set_cons_succ, eyeND]
    rw [Finset.sum_eq_single a, Finset.sum_eq_single b]
    · simp
    · intro q hq hqb
      rw [if_neg (by omega), zero_mul]
    · intro h
      exact absurd (Finset.mem_range.2 hb) h
    · intro p hp hpa
      refine Finset.sum_eq_zero fun q hq => ?_
      have hq := Finset.mem_range.1 hq
      rw [if_neg, zero_mul]
      intro h
      apply hpa
      have h1 : (a * d + b) / d = a := by rw [mul_comm, Nat.mul_add_div (by omega), Nat.div_eq_of_lt hb, add_zero]
      have h2 : (p * d + q) / d = p := by rw [mul_comm, Nat.mul_add_div (by omega), Nat.div_eq_of_lt hq, add_zero]
      rw [← h1, ← h2, h]
    · intro h
      exact absurd (Finset.mem_range.2 ha) h
  rw [this, hu]
  simp

/-! ### the hypotheses can be met -/

/-- the state |00⟩ -/
def exZeros : FMPS ℂ := ⟨[FMPS.column [1, 0], FMPS.column [1, 0]], 2, 2, 1, false, false, none, none⟩

/-- `X ⊗ 1` -/
def exXOne : ND ℂ := ⟨[4, 4], fun
  | [i, j] => if i = j + 2 ∨ j = i + 2 then 1 else 0
  | _ => 0⟩

theorem exZeros_ready : exZeros.Ready 2 2 := by
  have hc : MpsChain [2, 2] exZeros.data 1 1 := ⟨1, rfl, 1, rfl, rfl⟩
  refine ⟨⟨hc, by simp, rfl, rfl⟩, ?_, ?_, ?_⟩
  · intro A hA n hn
    simp only [exZeros, List.mem_cons, List.not_mem_nil, or_false, or_self] at hA
    subst hA
    simp [FMPS.column] at hn
    omega
  · intro k hk p hp
    have hp1 : p = 1 := by
      match k, hk with
      | 0, _ => exact (hp : 1 = p).symm
      | 1, _ => exact chain_bond_unique hp ⟨1, rfl, rfl⟩
      | 2, _ => exact chain_bond_unique hp hc
    subst hp1
    refine ⟨fun _ => 1, fun _ => 1, by simp, ?_⟩
    intro a ha b hb
    obtain rfl : a = 0 := by omega
    obtain rfl : b = 0 := by omega
    match k, hk with
    | 0, _ => simp [leftEnv, rightEnv, exZeros, amp, ND.dim, FMPS.column, Finset.sum_range_succ]
    | 1, _ => simp [leftEnv, rightEnv, exZeros, amp, ND.dim, FMPS.column, Finset.sum_range_succ]
    | 2, _ => simp [leftEnv, rightEnv, exZeros, amp, ND.dim, FMPS.column, Finset.sum_range_succ]
  · simp [braket, psi, exZeros, pathProd, FMPS.column, ND.dim, Finset.sum_range_succ]

/-- at |00⟩ with the term `X ⊗ 1` the tangent vector is not zero, and all the laws hold together -/
example (O : SetOrder) : ∃ svd eig chol inv null, SVDLaw svd ∧ EigOrthoLaw eig ∧ CholTriLaw chol ∧ InvLaw inv ∧ NullLaw null ∧
    ∃ e ε, exZeros.energy O [exXOne] = .ok e ∧ 0 < ε ∧ ∀ dt, 0 < dt → dt < ε →
      (∃ y e', FMPS.energyStep svd eig chol inv null O [exXOne] true exZeros dt = .ok y ∧ y.energy O [exXOne] = .ok e' ∧ e < e') ∧
      ∃ y e', FMPS.energyStep svd eig chol inv null O [exXOne] false exZeros dt = .ok y ∧ y.energy O [exXOne] = .ok e' ∧ e' < e := by
  obtain ⟨svd, hsvd⟩ := svdLaw_exists
  obtain ⟨eig, heig⟩ := eigOrthoLaw_exists
  obtain ⟨chol, hchol⟩ := cholTriLaw_exists
  obtain ⟨inv, hinv⟩ := invLaw_exists
  obtain ⟨null, hnull⟩ := nullLaw_exists
  refine ⟨svd, eig, chol, inv, null, hsvd, heig, hchol, hinv, hnull, ?_⟩
  have hx := exZeros_ready
  obtain ⟨k, ek, hk, hg⟩ := FMPS.dAdt_gauge hchol hinv hnull O (d := 2) (L := 2) (by omega) hx.holds hx.full (H := [exXOne]) (by simp) (by simp [exXOne])
  refine FMPS.energyStep_direction hsvd heig hchol hinv hnull O (d := 2) (L := 2) (by omega) (H := [exXOne]) (by simp) (by simp [exXOne]) ?_ hx ek ?_
  · intro h hh a _ b _
    simp only [List.mem_singleton] at hh
    subst hh
    simp only [exXOne]
    rw [apply_ite star, star_one, star_zero]
    exact if_congr or_comm rfl rfl
  · by_contra hn
    push Not at hn
    have hW : ∀ i (hi : i < exZeros.data.length) (hi' : i < [FMPS.column [(0 : ℂ), 1], FMPS.column [0, 0]].length), ∀ p q,
        exZeros.data[i].shape = [2, p, q] → [FMPS.column [(0 : ℂ), 1], FMPS.column [0, 0]][i].shape = [2, p, q] ∧
        LeftGauge 2 p q (leftEnv ((List.replicate 2 2).take i) (exZeros.data.take i)) exZeros.data[i] [FMPS.column [(0 : ℂ), 1], FMPS.column [0, 0]][i] := by
      intro i hi hi' p q hs
      match i, hi with
      | 0, _ =>
        obtain ⟨rfl, rfl⟩ : 1 = p ∧ 1 = q := by simpa [exZeros, FMPS.column] using hs
        refine ⟨rfl, fun c _ c' _ => ?_⟩
        simp [exZeros, FMPS.column, Finset.sum_range_succ]
      | 1, _ =>
        obtain ⟨rfl, rfl⟩ : 1 = p ∧ 1 = q := by simpa [exZeros, FMPS.column] using hs
        refine ⟨rfl, fun c _ c' _ => ?_⟩
        simp [exZeros, FMPS.column, Finset.sum_range_succ]
    have h := FMPS.dAdt_project hchol hinv hnull O (d := 2) (L := 2) (by omega) hx.holds hx.full (H := [exXOne]) (by simp) (by simp [exXOne]) ek
      (Ws := [FMPS.column [0, 1], FMPS.column [0, 0]]) rfl hW
    rw [pairing_congr (fun _ _ => rfl) (g' := fun _ => 0) hn, pairing_zero] at h
    revert h
    simp [pairing, tangentPsi, swapIn, hamAct, gateAct, psi, exZeros, pathProd, FMPS.column, ND.dim, Finset.sum_range_succ, exXOne]
    exact one_ne_zero

theorem random_product_nonzero {L : ℕ} (hL : 0 < L) (ang : ℕ → ℝ × ℝ) (rnd : ℕ → List ℕ → ℝ × ℝ) (x y : FMPS ℂ)
    (e : x.random ang rnd L 2 (some 1) = .ok y) : ∃ s, InB (List.replicate L 2) s ∧ psi y.data s ≠ 0 := by
  obtain ⟨z, e', -, hb⟩ := FMPS.random_product (ang := ang) (rnd := rnd) (real := false) x hL
  rw [e] at e'
  injection e' with e'
  subst e'
  by_contra hn
  push Not at hn
  have : braket (List.replicate L 2) y.data y.data = 0 := by
    unfold braket
    rw [sumIdx_congr (g := fun _ => 0) fun s hs => by rw [hn s hs, mul_zero], sumIdx_zero]
  rw [hb] at this
  exact one_ne_zero this

section

variable {svd : Svd} {eig : Eig} (hsvd : SVDLaw svd) (heig : EigOrthoLaw eig) {chol inv null : ND ℂ → Py (ND ℂ)} (hchol : CholTriLaw chol)
  (hinv : InvLaw inv) (hnull : NullLaw null) (O : SetOrder) (ang : ℕ → ℝ × ℝ) (rnd : ℕ → List ℕ → ℝ × ℝ) (x : FMPS ℂ)

example := FMPS.randomWithEnergy_cases hsvd heig hchol hinv hnull O (L := 2) (d := 2) (by omega) (H := [exXOne]) (by simp) (by simp [exXOne]) x
  (D := 1) (by omega) (by omega) (by simp) (fun y => random_product_nonzero (by omega) ang rnd x y) (1 / 4) (1 / 10 ^ 10) 100

include hsvd heig hchol hinv hnull

/-- **C119** the identity on two qubits has the energy 0.5 per site; asked for 0.505 the search never ends, asked for 0.6 it raises, whatever the
random numbers are -/
theorem FMPS.randomWithEnergy_identity (maxiters fuel : ℕ) :
    FMPS.randomWithEnergy svd eig chol inv null O [eyeND 4] ang rnd fuel x (505 / 1000) 2 2 (some 1) (1 / 10 ^ 10) maxiters = .error .diverges ∧
    FMPS.randomWithEnergy svd eig chol inv null O [eyeND 4] ang rnd (fuel + 2) x (6 / 10) 2 2 (some 1) (1 / 10 ^ 10) maxiters = .error .exception := by
  have hflat : ∀ y : FMPS ℂ, y.Ready 2 2 → energyPerSite (List.replicate 2 2) y.data 2 [eyeND 4] = 1 / 2 := fun y hy => by
    simpa using energyPerSite_eye (by omega) hy
  constructor
  · refine FMPS.randomWithEnergy_endless hsvd heig hchol hinv hnull O (by omega) (by simp) (by simp [eyeND]) x (by omega) (by omega) (by simp)
      (fun y => random_product_nonzero (by omega) ang rnd x y) hflat (by norm_num) ?_ ?_ maxiters fuel
    · rw [abs_of_nonpos (by norm_num)]; norm_num
    · rw [abs_of_nonpos (by norm_num)]; norm_num
  · refine FMPS.randomWithEnergy_raises hsvd heig hchol hinv hnull O (by omega) (by simp) (by simp [eyeND]) x (by omega) (by omega) (by simp)
      (fun y => random_product_nonzero (by omega) ang rnd x y) hflat ?_ ?_ maxiters fuel
    · rw [abs_of_nonpos (by norm_num)]; norm_num
    · rw [abs_of_nonpos (by norm_num)]; norm_num

end

end Xmps
