import Verif.Model.ProjHam
import Verif.Props.EnergySearch

/-!
# Property C121: `optimise` of `projects/fHam.py`
-/

namespace Xmps.ProjHam

open Spec Finset Xmps.Ncon

section

variable {svd : Svd} {eig : Eig} (hsvd : SVDLaw svd) (heig : EigOrthoLaw eig) {chol inv null : ND ℂ → Py (ND ℂ)} (hchol : CholTriLaw chol)
  (hinv : InvLaw inv) (hnull : NullLaw null) (O : SetOrder) {L d : ℕ} (hd : 0 < d) {H : List (ND ℂ)} (hL : H.length < L)
  (hH : ∀ h ∈ H, h.shape = [d * d, d * d])

/-- `y` is a normalised state on the ray of `A - (i/10) dA/dt`, with `dA/dt` the result of `dA_dt(H)` for `x` -/
def EulerStep (chol inv null : ND ℂ → Py (ND ℂ)) (O : SetOrder) (H : List (ND ℂ)) (L d : ℕ) (x y : FMPS ℂ) : Prop :=
  y.Ready L d ∧ ∃ k, FMPS.dAdt chol inv null O x H = .ok k ∧
    SameRay (List.replicate L d) (lineData (-(1 / 10) * Complex.I) x.data k.data) y.data

include hsvd heig hchol hinv hnull hd hL hH

theorem optStep_ok {x : FMPS ℂ} (hx : x.Ready L d) : ∃ y, optStep svd eig chol inv null O H x = .ok y ∧ EulerStep chol inv null O H L d x y ∧
    ∃ y', FMPS.energyStep svd eig chol inv null O H false x (1 / 10) = .ok y' ∧
      energyPerSite (List.replicate L d) y'.data d H = energyPerSite (List.replicate L d) y.data d H := by
  obtain ⟨k, y', ek, ey, hy, hray, hg, hsh⟩ := FMPS.energyStep_ok hsvd heig hchol hinv hnull O hd hL hH false hx (1 / 10)
  have hk : k.Holds (List.replicate L d) := by
    obtain ⟨k', e', hk, -⟩ := FMPS.dAdt_gauge hchol hinv hnull O hd hx.holds hx.full hL hH
    rw [ek] at e'
    injection e' with e'
    exact e' ▸ hk
  obtain ⟨w, z, e1, e2, hz, hzd⟩ := FMPS.step_line hx.holds hk hsh (-(1 / 10) * Complex.I)
  have hc : stepDir false * ((1 / 10 : ℝ) : ℂ) = -(1 / 10) * Complex.I := by simp [stepDir]; ring
  rw [hc, ← hzd] at hray
  have hzp : PosDims z.data := by
    have hm : z.data.map ND.shape = x.data.map ND.shape := by rw [hzd, lineData_shape hg.1.symm]
    intro A hA n hn
    have : A.shape ∈ x.data.map ND.shape := by
      rw [← hm]
      exact List.mem_map_of_mem hA
    obtain ⟨A', hA', he⟩ := List.mem_map.1 this
    exact hx.pos A' hA' n (by rw [he]; exact hn)
  have hznz : ∃ s, InB (List.replicate L d) s ∧ psi z.data s ≠ 0 := by
    obtain ⟨s, hs, hne⟩ := hy.nonzero
    obtain ⟨c, hc0, hcs⟩ := hray
    exact ⟨s, hs, by rw [hcs s hs]; exact mul_ne_zero hc0 hne⟩
  obtain ⟨y, Ls, e3, hyr, hray2⟩ := FMPS.ready_of_leftCanonicalise hsvd heig hz hzp hznz
  refine ⟨y, ?_, ⟨hyr, k, ek, hzd ▸ hray2⟩, y', ey, ?_⟩
  · unfold optStep
    rw [ek, ok_bind, e1, ok_bind, e2, ok_bind, e3, ok_bind]
  · rw [energyPerSite_ray hray hy.unit hL, energyPerSite_ray hray2 hyr.unit hL]

/-- the run of the loop: the states passed through -/
theorem optLoop_run (tol : ℝ) : ∀ (n : ℕ) {x : FMPS ℂ}, x.Ready L d → ∃ (m : ℕ) (xs : ℕ → FMPS ℂ), m ≤ n ∧ xs 0 = x ∧
    optLoop svd eig chol inv null O H tol n x (energyPerSite (List.replicate L d) x.data d H) = .ok (xs m) ∧ (∀ i ≤ m, (xs i).Ready L d) ∧
    (∀ i < m, EulerStep chol inv null O H L d (xs i) (xs (i + 1))) ∧
    (∀ i, i + 1 < m → tol ≤ |energyPerSite (List.replicate L d) (xs (i + 1)).data d H - energyPerSite (List.replicate L d) (xs i).data d H|) ∧
    (m = n ∨ ∃ i, i + 1 = m ∧ |energyPerSite (List.replicate L d) (xs (i + 1)).data d H - energyPerSite (List.replicate L d) (xs i).data d H| < tol)
  | 0, x, hx => ⟨0, fun _ => x, le_rfl, rfl, rfl, fun _ _ => hx, by omega, by omega, Or.inl rfl⟩
  | n + 1, x, hx => by
    obtain ⟨y, ey, hy, -⟩ := optStep_ok hsvd heig hchol hinv hnull O hd hL hH hx
    by_cases ht : |energyPerSite (List.replicate L d) y.data d H - energyPerSite (List.replicate L d) x.data d H| < tol
    · refine ⟨1, fun i => if i = 0 then x else y, by omega, rfl, ?_, ?_, ?_, by omega, Or.inr ⟨0, rfl, by simpa using ht⟩⟩
      · unfold optLoop
        rw [ey, ok_bind, hy.1.energy O hL hH, ok_bind, if_pos ht]
        rfl
      · intro i hi
        by_cases h0 : i = 0
        · simpa [h0] using hx
        · simpa [h0] using hy.1
      · intro i hi
        obtain rfl : i = 0 := by omega
        simpa using hy
    · obtain ⟨m, xs, h1, h2, h3, h4, h5, h6, h7⟩ := optLoop_run tol n hy.1
      refine ⟨m + 1, fun i => match i with | 0 => x | i + 1 => xs i, by omega, rfl, ?_, ?_, ?_, ?_, ?_⟩
      · unfold optLoop
        rw [ey, ok_bind, hy.1.energy O hL hH, ok_bind, if_neg ht]
        exact h3
      · intro i hi
        match i with
        | 0 => exact hx
        | i + 1 => exact h4 i (by omega)
      · intro i hi
        match i with
        | 0 => show EulerStep chol inv null O H L d x (xs 0); rw [h2]; exact hy
        | i + 1 => exact h5 i (by omega)
      · intro i hi
        match i with
        | 0 =>
          show tol ≤ |energyPerSite _ (xs 0).data d H - energyPerSite _ x.data d H|
          rw [h2]
          exact not_lt.1 ht
        | i + 1 => exact h6 i (by omega)
      · rcases h7 with h7 | ⟨i, hi, h⟩
        · exact Or.inl (by omega)
        · exact Or.inr ⟨i + 1, by omega, h⟩

/-- **C121** `optimise(H, L, D, 'euler', max_iters, tol)` whenever the random state is not zero: it never raises; the state returned is normalised and
was reached by Euler steps of imaginary time `0.1` from the random state; all but the last changed the energy per site by `tol` or more, and either
there were `max_iters` of them or the last one changed it by less than `tol`.  The number returned is the energy per site **divided by `L`**. -/
theorem optimise_spec {ang : ℕ → ℝ × ℝ} {rnd : ℕ → List ℕ → ℝ × ℝ} {D : ℕ} (h2 : 2 ≤ L) (hD : 0 < D) (hD1 : D = 1 → d = 2)
    (hnz : ∀ y, (⟨[], 0, 0, 0, false, false, none, none⟩ : FMPS ℂ).random ang rnd L d (some D) = .ok y →
      ∃ s, InB (List.replicate L d) s ∧ psi y.data s ≠ 0) (maxIters : ℕ) (tol : ℝ) :
    ∃ (m : ℕ) (xs : ℕ → FMPS ℂ), m ≤ maxIters ∧
      optimise svd eig chol inv null O H d ang rnd L D true maxIters tol =
        .ok (some (xs m, energyPerSite (List.replicate L d) (xs m).data d H / L)) ∧
      (∃ z, (⟨[], 0, 0, 0, false, false, none, none⟩ : FMPS ℂ).random ang rnd L d (some D) = .ok z ∧ SameRay (List.replicate L d) z.data (xs 0).data) ∧
      (∀ i ≤ m, (xs i).Ready L d) ∧ (∀ i < m, EulerStep chol inv null O H L d (xs i) (xs (i + 1))) ∧
      (∀ i, i + 1 < m → tol ≤ |energyPerSite (List.replicate L d) (xs (i + 1)).data d H - energyPerSite (List.replicate L d) (xs i).data d H|) ∧
      (m = maxIters ∨ ∃ i, i + 1 = m ∧
        |energyPerSite (List.replicate L d) (xs (i + 1)).data d H - energyPerSite (List.replicate L d) (xs i).data d H| < tol) := by
  obtain ⟨y, Ls, z, ez, e, hy, hray⟩ :=
    FMPS.random_ready_ray hsvd heig (ang := ang) (rnd := rnd) ⟨[], 0, 0, 0, false, false, none, none⟩ h2 hd hD hD1 hnz
  obtain ⟨m, xs, h1, h3, h4, h5, h6, h7, h8⟩ := optLoop_run hsvd heig hchol hinv hnull O hd hL hH tol maxIters hy
  refine ⟨m, xs, h1, ?_, ⟨z, ez, h3 ▸ hray⟩, h5, h6, h7, h8⟩
  unfold optimise
  rw [if_pos rfl, ez, ok_bind, e, ok_bind]
  show (do
    let e ← y.energy O H
    let y ← optLoop svd eig chol inv null O H tol maxIters y e
    let e ← y.energy O H
    (.ok (some (y, e / L)) : Py (Option (FMPS ℂ × ℝ)))) = _
  rw [hy.energy O hL hH, ok_bind, h4, ok_bind, (h5 m le_rfl).energy O hL hH, ok_bind]

/-- **C121** the number returned is the energy per site only if that is zero. -/
theorem optimise_value {ang : ℕ → ℝ × ℝ} {rnd : ℕ → List ℕ → ℝ × ℝ} {D : ℕ} (h2 : 2 ≤ L) (hD : 0 < D) (hD1 : D = 1 → d = 2)
    (hnz : ∀ y, (⟨[], 0, 0, 0, false, false, none, none⟩ : FMPS ℂ).random ang rnd L d (some D) = .ok y →
      ∃ s, InB (List.replicate L d) s ∧ psi y.data s ≠ 0) (maxIters : ℕ) (tol : ℝ) : ∃ y e,
    optimise svd eig chol inv null O H d ang rnd L D true maxIters tol = .ok (some (y, e)) ∧
      (e = energyPerSite (List.replicate L d) y.data d H ↔ energyPerSite (List.replicate L d) y.data d H = 0) := by
  obtain ⟨m, xs, -, h, -⟩ := optimise_spec hsvd heig hchol hinv hnull O hd hL hH h2 hD hD1 hnz maxIters tol
  refine ⟨_, _, h, ?_⟩
  have hLr : (2 : ℝ) ≤ L := by exact_mod_cast h2
  constructor
  · intro e
    rw [div_eq_iff (by linarith)] at e
    by_contra hne
    have : (L : ℝ) = 1 := by
      have := mul_left_cancel₀ hne (show _ * (L : ℝ) = _ * 1 by rw [mul_one]; exact e.symm)
      exact this
    linarith
  · intro e
    rw [e, zero_div]

/-- **C121** with the identity as the only term the energy per site is `1 / L` in every state; `1 / L²` is returned. -/
theorem optimise_identity {ang : ℕ → ℝ × ℝ} {rnd : ℕ → List ℕ → ℝ × ℝ} {D : ℕ} (h2 : 2 ≤ L) (hD : 0 < D) (hD1 : D = 1 → d = 2)
    (hnz : ∀ y, (⟨[], 0, 0, 0, false, false, none, none⟩ : FMPS ℂ).random ang rnd L d (some D) = .ok y →
      ∃ s, InB (List.replicate L d) s ∧ psi y.data s ≠ 0) (maxIters : ℕ) (tol : ℝ) (hid : H = [eyeND (d * d)]) : ∃ y,
    optimise svd eig chol inv null O H d ang rnd L D true maxIters tol = .ok (some (y, 1 / L / L)) ∧
      energyPerSite (List.replicate L d) y.data d H = 1 / L := by
  obtain ⟨m, xs, -, h, -, hr, -⟩ := optimise_spec hsvd heig hchol hinv hnull O hd hL hH h2 hD hD1 hnz maxIters tol
  have e : energyPerSite (List.replicate L d) (xs m).data d H = 1 / L := by
    rw [hid]
    exact energyPerSite_eye (by omega) (hr m le_rfl)
  exact ⟨xs m, by rw [h, e], e⟩

omit hsvd heig hchol hinv hnull hd hL hH in
/-- any other method returns `None` -/
theorem optimise_other (ang : ℕ → ℝ × ℝ) (rnd : ℕ → List ℕ → ℝ × ℝ) (L D : ℕ) (maxIters : ℕ) (tol : ℝ) :
    optimise svd eig chol inv null O H d ang rnd L D false maxIters tol = .ok none := rfl

end

/-! ### the step is too long for some Hamiltonians -/

/-- `0.8 |00⟩ + 0.6 |11⟩` -/
noncomputable def exTilted : FMPS ℂ := ⟨[⟨[2, 1, 2], fun
  | [s, _, c] => if s = c then 1 else 0
  | _ => 0⟩, ⟨[2, 2, 1], fun
  | [s, a, _] => if s = a then (if s = 0 then 4 / 5 else 3 / 5) else 0
  | _ => 0⟩], 2, 2, 2, false, false, none, none⟩

/-- `250 |11⟩⟨11|` -/
def exSteep : ND ℂ := ⟨[4, 4], fun
  | [i, j] => if i = 3 ∧ j = 3 then 250 else 0
  | _ => 0⟩

theorem exTilted_ready : exTilted.Ready 2 2 := by
  have hc : MpsChain [2, 2] exTilted.data 1 1 := ⟨2, rfl, 1, rfl, rfl⟩
  refine ⟨⟨hc, by simp, rfl, rfl⟩, ?_, ?_, ?_⟩
  · intro A hA n hn
    simp only [exTilted, List.mem_cons, List.not_mem_nil, or_false] at hA
    rcases hA with rfl | rfl
    · simp at hn; omega
    · simp at hn; omega
  · intro k hk p hp
    match k, hk with
    | 0, _ =>
      obtain rfl := chain_bond_unique hp rfl
      refine ⟨fun _ => 1, fun _ => 1, by simp, ?_⟩
      intro a ha b hb
      obtain rfl : a = 0 := by omega
      obtain rfl : b = 0 := by omega
      simp [leftEnv, rightEnv, exTilted, amp, ND.dim, Finset.sum_range_succ, Complex.conj_ofNat]
      norm_num
    | 1, _ =>
      obtain rfl := chain_bond_unique hp ⟨2, rfl, rfl⟩
      refine ⟨fun _ => 1, fun a => if a = 0 then 16 / 25 else 9 / 25, fun a ha => by interval_cases a <;> norm_num, ?_⟩
      intro a ha b hb
      interval_cases a <;> interval_cases b <;> simp [leftEnv, rightEnv, exTilted, amp, ND.dim, Finset.sum_range_succ, Complex.conj_ofNat] <;> norm_num
    | 2, _ =>
      obtain rfl := chain_bond_unique hp hc
      refine ⟨fun _ => 1, fun _ => 1, by simp, ?_⟩
      intro a ha b hb
      obtain rfl : a = 0 := by omega
      obtain rfl : b = 0 := by omega
      simp [leftEnv, rightEnv, exTilted, amp, ND.dim, Finset.sum_range_succ, Complex.conj_ofNat]
      norm_num
  · simp [braket, psi, exTilted, pathProd, ND.dim, Finset.sum_range_succ, Complex.conj_ofNat]
    norm_num

theorem psi_two {A B : ND ℂ} {p : ℕ} (hA : A.shape = [2, 1, p]) (hB : B.shape = [2, p, 1]) (s t : ℕ) :
    psi [A, B] [s, t] = ∑ c ∈ range p, A.val [s, 0, c] * B.val [t, c, 0] := by
  simp [psi, pathProd, ND.dim, hA, hB]

theorem exTilted_psi {s t : ℕ} (hs : s < 2) (ht : t < 2) :
    psi exTilted.data [s, t] = if s = t then (if s = 0 then 4 / 5 else 3 / 5) else 0 := by
  unfold exTilted
  rw [psi_two (p := 2) rfl rfl]
  interval_cases s <;> interval_cases t <;> simp [Finset.sum_range_succ]

theorem steep_act (f : List ℕ → ℂ) {s t : ℕ} (hs : s < 2) (ht : t < 2) :
    hamAct 2 [exSteep] f [s, t] = if s = 1 ∧ t = 1 then 250 * f [1, 1] else 0 := by
  interval_cases s <;> interval_cases t <;> simp [hamAct, gateAct, exSteep, Finset.sum_range_succ]

theorem pairing_two (f g : List ℕ → ℂ) : pairing (List.replicate 2 2) f g =
    star (f [0, 0]) * g [0, 0] + star (f [0, 1]) * g [0, 1] + (star (f [1, 0]) * g [1, 0] + star (f [1, 1]) * g [1, 1]) := by
  simp [pairing, sumIdx, Finset.sum_range_succ]

/-- the energy per site of `u |00⟩ + v |11⟩` -/
theorem steep_energy {As : List (ND ℂ)} {u v : ℝ} (h00 : psi As [0, 0] = u) (h01 : psi As [0, 1] = 0) (h10 : psi As [1, 0] = 0)
    (h11 : psi As [1, 1] = v) : energyPerSite (List.replicate 2 2) As 2 [exSteep] = 250 * v ^ 2 / (u ^ 2 + v ^ 2) / 2 := by
  have a : pairing (List.replicate 2 2) (psi As) (hamAct 2 [exSteep] (psi As)) = ((250 * v ^ 2 : ℝ) : ℂ) := by
    rw [pairing_two, steep_act _ (by omega) (by omega), steep_act _ (by omega) (by omega), steep_act _ (by omega) (by omega),
      steep_act _ (by omega) (by omega), h00, h01, h10, h11]
    simp
    ring
  have b : pairing (List.replicate 2 2) (psi As) (psi As) = ((u ^ 2 + v ^ 2 : ℝ) : ℂ) := by
    rw [pairing_two, h00, h01, h10, h11]
    simp
    ring
  rw [energyPerSite_eq (by simp), a, b, Complex.ofReal_re, Complex.ofReal_re]
  norm_num

/-- the tangent vectors at `exTilted`, site by site -/
theorem exTilted_tan {B0 B1 : ND ℂ} (h0 : B0.shape = [2, 1, 2]) (h1 : B1.shape = [2, 2, 1]) {s t : ℕ} (hs : s < 2) (ht : t < 2) :
    tangentPsi exTilted.data [B0, B1] [s, t] = B0.val [s, 0, t] * (if t = 0 then 4 / 5 else 3 / 5) + B1.val [t, s, 0] := by
  unfold tangentPsi
  rw [show exTilted.data.length = 2 from rfl, Finset.sum_range_succ, Finset.sum_range_one]
  simp only [exTilted, swapIn, List.set_cons_zero, List.set_cons_succ, List.getD_cons_zero, List.getD_cons_succ]
  rw [psi_two (p := 2) h0 rfl, psi_two (p := 2) rfl h1]
  interval_cases s <;> interval_cases t <;> simp [Finset.sum_range_succ]

theorem exTilted_tangent : HamTangent 2 2 [exSteep] exTilted.data := by
  refine ⟨[⟨[2, 1, 2], fun _ => 0⟩, ⟨[2, 2, 1], fun
    | [s, a, _] => if s = 1 ∧ a = 1 then 150 else 0
    | _ => 0⟩], rfl, ?_, ?_⟩
  · intro i h1 h2
    have : i < 2 := h1
    interval_cases i <;> rfl
  · intro s hs
    match s, hs with
    | [s, t], hs =>
      simp at hs
      rw [steep_act _ (by omega) (by omega), exTilted_psi (by omega) (by omega), exTilted_tan rfl rfl (by omega) (by omega)]
      obtain ⟨h1, h2⟩ := hs
      interval_cases s <;> interval_cases t <;> norm_num

/-- **C121 fails as a descent**: at `0.8 |00⟩ + 0.6 |11⟩` with `H = 250 |11⟩⟨11|` the step raises the energy per site from 45 to 250·81/290 > 69. -/
theorem optStep_up {svd : Svd} {eig : Eig} (hsvd : SVDLaw svd) (heig : EigOrthoLaw eig) {chol inv null : ND ℂ → Py (ND ℂ)} (hchol : CholTriLaw chol)
    (hinv : InvLaw inv) (hnull : NullLaw null) (O : SetOrder) : exTilted.energy O [exSteep] = .ok 45 ∧
    ∃ y, optStep svd eig chol inv null O [exSteep] exTilted = .ok y ∧ y.energy O [exSteep] = .ok (250 * 81 / 290) := by
  have hx := exTilted_ready
  have hL : [exSteep].length < 2 := by simp
  have hH : ∀ h ∈ [exSteep], h.shape = [2 * 2, 2 * 2] := by simp [exSteep]
  obtain ⟨y, ey, ⟨hy, k, ek, hray⟩, -⟩ := optStep_ok hsvd heig hchol hinv hnull O (d := 2) (L := 2) (by omega) hL hH hx
  obtain ⟨k', ek', hk, hg⟩ := FMPS.dAdt_gauge hchol hinv hnull O (d := 2) (L := 2) (by omega) hx.holds hx.full hL hH
  rw [ek] at ek'
  injection ek' with ek'
  subst ek'
  have p00 := exTilted_psi (s := 0) (t := 0) (by omega) (by omega)
  have p01 := exTilted_psi (s := 0) (t := 1) (by omega) (by omega)
  have p10 := exTilted_psi (s := 1) (t := 0) (by omega) (by omega)
  have p11 := exTilted_psi (s := 1) (t := 1) (by omega) (by omega)
  simp only [zero_ne_one, one_ne_zero, if_true, if_false] at p00 p01 p10 p11
  have e0 : energyPerSite (List.replicate 2 2) exTilted.data 2 [exSteep] = 45 := by
    rw [steep_energy (u := 4 / 5) (v := 3 / 5) (by rw [p00]; norm_num) p01 p10 (by rw [p11]; norm_num)]
    norm_num
  refine ⟨by rw [hx.energy O hL hH, e0], y, ey, ?_⟩
  rw [hy.energy O hL hH, energyPerSite_ray hray hy.unit hL]
  have hflow := (FMPS.dAdt_exact hchol hinv hnull O (d := 2) (L := 2) (by omega) hx.holds hx.full hL hH ek).2 exTilted_tangent
  have hlen := hk.chain.length_eq
  obtain ⟨B0, B1, hB⟩ : ∃ B0 B1, k.data = [B0, B1] := by
    match k.data, hlen with
    | [B0, B1], _ => exact ⟨B0, B1, rfl⟩
  simp only [hB] at hg hflow
  obtain ⟨s0, g0⟩ := hg 0 (by simp [exTilted]) (by simp) 1 2 rfl
  obtain ⟨s1, -⟩ := hg 1 (by simp [exTilted]) (by simp) 2 1 rfl
  simp only [List.getElem_cons_zero, List.getElem_cons_succ] at s0 s1 g0
  have hz : ∀ s < 2, ∀ t < 2, B0.val [s, 0, t] = 0 := by
    intro s hs t ht
    have := g0 s hs t ht
    interval_cases s <;> simpa [exTilted, leftEnv, Finset.sum_range_succ] using this
  have hv : ∀ s t, s < 2 → t < 2 → B1.val [t, s, 0] = flowH 2 2 [exSteep] exTilted.data [s, t] := by
    intro s t hs ht
    rw [← hflow [s, t] (by simp [hs, ht]), exTilted_tan s0 s1 hs ht, hz s hs t ht, zero_mul, zero_add]
  have hm : meanH 2 2 [exSteep] exTilted.data = 90 := by
    unfold meanH
    rw [pairing_two, pairing_two, steep_act _ (by omega) (by omega), steep_act _ (by omega) (by omega), steep_act _ (by omega) (by omega),
      steep_act _ (by omega) (by omega), p00, p01, p10, p11]
    simp [Complex.conj_ofNat]
    norm_num
  have hline : ∀ s t, s < 2 → t < 2 → psi (lineData (-(1 / 10) * Complex.I) exTilted.data k.data) [s, t] =
      psi exTilted.data [s, t] + -(1 / 10) * Complex.I * B1.val [t, s, 0] := by
    intro s t hs ht
    rw [hB]
    simp only [exTilted, lineData]
    rw [psi_two (p := 2) rfl rfl, psi_two (p := 2) rfl rfl, Finset.sum_range_succ, Finset.sum_range_succ, Finset.sum_range_succ, Finset.sum_range_succ]
    have z0 := hz s hs 0 (by omega)
    have z1 := hz s hs 1 (by omega)
    interval_cases s <;> simp [z0, z1]
  have hw : ∀ s t, s < 2 → t < 2 → psi (lineData (-(1 / 10) * Complex.I) exTilted.data k.data) [s, t] =
      10 * psi exTilted.data [s, t] - 1 / 10 * hamAct 2 [exSteep] (psi exTilted.data) [s, t] := by
    intro s t hs ht
    rw [hline s t hs ht, hv s t hs ht]
    unfold flowH
    rw [hm]
    linear_combination (1 / 10 : ℂ) * (hamAct 2 [exSteep] (psi exTilted.data) [s, t] - 90 * psi exTilted.data [s, t]) * Complex.I_mul_I
  rw [steep_energy (u := 8) (v := -9)]
  · norm_num
  · rw [hw 0 0 (by omega) (by omega), steep_act _ (by omega) (by omega), p00]; norm_num
  · rw [hw 0 1 (by omega) (by omega), steep_act _ (by omega) (by omega), p01]; norm_num
  · rw [hw 1 0 (by omega) (by omega), steep_act _ (by omega) (by omega), p10]; norm_num
  · rw [hw 1 1 (by omega) (by omega), steep_act _ (by omega) (by omega), p11]; norm_num

/-! ### the hypotheses can be met -/

example {svd : Svd} {eig : Eig} (hsvd : SVDLaw svd) (heig : EigOrthoLaw eig) {chol inv null : ND ℂ → Py (ND ℂ)} (hchol : CholTriLaw chol)
    (hinv : InvLaw inv) (hnull : NullLaw null) (O : SetOrder) (ang : ℕ → ℝ × ℝ) (rnd : ℕ → List ℕ → ℝ × ℝ) :=
  optimise_spec hsvd heig hchol hinv hnull O (L := 2) (d := 2) (by omega) (H := [exSteep]) (by simp) (by simp [exSteep]) (D := 1) le_rfl
    (by omega) (by simp) (fun y => random_product_nonzero (by omega) ang rnd _ y) 500 (1 / 1000)

example {svd : Svd} {eig : Eig} (hsvd : SVDLaw svd) (heig : EigOrthoLaw eig) {chol inv null : ND ℂ → Py (ND ℂ)} (hchol : CholTriLaw chol)
    (hinv : InvLaw inv) (hnull : NullLaw null) (O : SetOrder) (ang : ℕ → ℝ × ℝ) (rnd : ℕ → List ℕ → ℝ × ℝ) :=
  optimise_identity hsvd heig hchol hinv hnull O (L := 2) (d := 2) (by omega) (H := [eyeND 4]) (by simp) (by simp [eyeND]) (D := 1) le_rfl
    (by omega) (by simp) (fun y => random_product_nonzero (by omega) ang rnd _ y) 500 (1 / 1000) rfl

end Xmps.ProjHam
