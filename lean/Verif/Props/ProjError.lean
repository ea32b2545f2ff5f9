import Verif.Lemmas.ProjErrLoop
import Verif.Props.LapackExists
import Verif.Props.TangentVec

/-!
# C106, C107: `projection_error`
-/

namespace Xmps

open Finset Spec Xmps.Ncon

theorem projSetup {x : FMPS ℂ} {L d : ℕ} {H : List (ND ℂ)} (hd : 1 < d) (hx : x.Holds (List.replicate L d)) (hD : 0 < x.D)
    (hf : FullEnvs (List.replicate L d) x.data) (hiso : ∀ A ∈ x.data, LeftIso A) (hHL : H.length + 1 = L) (hH : ∀ h ∈ H, h.shape = [d * d, d * d]) :
    ∃ ls rs, x.getEnvs = .ok (ls, rs) ∧ ProjSetup x L d H ls rs := by
  obtain ⟨ls, rs, e, henv⟩ := getEnvs_full hx hf
  exact ⟨ls, rs, e, hx, hd, hD, hf, hiso, hHL, hH, fun k hk => henv k (by simpa using hk)⟩

theorem projectionError_loop {chol inv null : ND ℂ → Py (ND ℂ)} (hchol : CholTriLaw chol) (hinv : InvLaw inv) (hnull : NullLaw null)
    (svd : ND ℂ → Py (ND ℂ × List ℝ × ND ℂ)) (O : SetOrder) {x : FMPS ℂ} {L d : ℕ} {H ls rs : List (ND ℂ)} (S : ProjSetup x L d H ls rs)
    (e : x.getEnvs = .ok (ls, rs)) (dt : ℝ) : FMPS.projectionError chol inv null svd O x H dt =
      FMPS.projLoop chol inv null svd O x rs (H.map fun h => h.reshapeR [d, d, d, d]) dt (List.range' 0 (L - 1)) (FMPS.envAt ls) 0 := by
  have hHL := S.hHL
  obtain ⟨y, e1, -⟩ := dAdt_facts hchol hinv hnull O (by have := S.hd; omega) S.hx S.hf (H := H) (by omega) S.hH
  have e2 : (H.mapM fun h => h.reshape [x.d, x.d, x.d, x.d]) = .ok (H.map fun h => h.reshapeR [d, d, d, d]) := by
    rw [S.dd]
    refine mapM_ok ?_
    intro h hh
    exact ND.reshape_ok (by rw [S.hH h hh]; simp; ring)
  unfold FMPS.projectionError
  rw [e1, ok_bind, e, ok_bind]
  simp only
  rw [e2, ok_bind, S.len, List.range_eq_range']

/-- **C106** For a left canonical state whose environments are diagonal and positive, a Hamiltonian of two-site terms and a time step that is not
negative, `projection_error` is `dt² e` with one `e ≥ 0` for all time steps, and `e = 0` exactly when `H|ψ⟩` is a tangent vector at the state --
provided the open bonds match (C107 treats the others). -/
theorem projectionError_ok_partial {chol inv null : ND ℂ → Py (ND ℂ)} {svd : ND ℂ → Py (ND ℂ × List ℝ × ND ℂ)} (hchol : CholTriLaw chol) (hinv : InvLaw inv)
    (hnull : NullLaw null) (hsvd : SVDLaw svd) (O : SetOrder) {x : FMPS ℂ} {L d : ℕ} {H : List (ND ℂ)} (hd : 1 < d) (hx : x.Holds (List.replicate L d))
    (hD : 0 < x.D) (hf : FullEnvs (List.replicate L d) x.data) (hiso : ∀ A ∈ x.data, LeftIso A) (hHL : H.length + 1 = L)
    (hH : ∀ h ∈ H, h.shape = [d * d, d * d]) (hmatch : OpenBondsMatch d x.data) :
    ∃ e : ℝ, 0 ≤ e ∧ (∀ dt : ℝ, 0 ≤ dt → FMPS.projectionError chol inv null svd O x H dt = .ok (dt ^ 2 * e)) ∧ (e = 0 ↔ HamTangent L d H x.data) := by
  obtain ⟨ls, rs, e0, S⟩ := projSetup hd hx hD hf hiso hHL hH
  obtain ⟨E, hE, hv, hz⟩ := S.loop_ok hchol hinv hnull hsvd O hmatch (L - 1) 0 _ (by omega) S.good
  refine ⟨E, hE, ?_, ?_⟩
  · intro dt hdt
    rw [projectionError_loop hchol hinv hnull svd O S e0, hv dt hdt, zero_add]
  · rw [hz, S.tangent_iff hchol hinv hnull O]
    exact ⟨fun h m hm h0 h1 => h m hm h0 h1 (Nat.zero_le _), fun h m hm h0 h1 _ => h m hm h0 h1⟩

/-- **C107** For the same states `projection_error` returns exactly when the open bonds match; otherwise the left environment left behind by the site
before (`def l(n): return ln`) has the wrong size and `ValueError` is raised, whatever the Hamiltonian. -/
theorem projectionError_raises {chol inv null : ND ℂ → Py (ND ℂ)} {svd : ND ℂ → Py (ND ℂ × List ℝ × ND ℂ)} (hchol : CholTriLaw chol) (hinv : InvLaw inv)
    (hnull : NullLaw null) (hsvd : SVDLaw svd) (O : SetOrder) {x : FMPS ℂ} {L d : ℕ} {H : List (ND ℂ)} (hd : 1 < d) (hx : x.Holds (List.replicate L d))
    (hD : 0 < x.D) (hf : FullEnvs (List.replicate L d) x.data) (hiso : ∀ A ∈ x.data, LeftIso A) (hHL : H.length + 1 = L)
    (hH : ∀ h ∈ H, h.shape = [d * d, d * d]) {dt : ℝ} (hdt : 0 ≤ dt) :
    FMPS.projectionError chol inv null svd O x H dt = .error .valueError ↔ ¬ OpenBondsMatch d x.data := by
  constructor
  · intro h hmatch
    obtain ⟨e, -, hv, -⟩ := projectionError_ok_partial hchol hinv hnull hsvd O hd hx hD hf hiso hHL hH hmatch
    rw [hv dt hdt] at h
    exact absurd h (by simp)
  · intro hn
    unfold OpenBondsMatch at hn
    push Not at hn
    obtain ⟨i, j, h1, h2⟩ := hn
    obtain ⟨ls, rs, e0, S⟩ := projSetup hd hx hD hf hiso hHL hH
    rw [projectionError_loop hchol hinv hnull svd O S e0]
    exact S.loop_stale hchol hinv hnull hsvd O hdt (L - 1) 0 _ 0 (by omega) S.good ⟨i, j, Nat.zero_le _, h1, h2⟩

/-- `should_expand` with a threshold that is not negative: never when `H|ψ⟩` is a tangent vector, and otherwise for every time step beyond some size -/
theorem shouldExpand_iff {chol inv null : ND ℂ → Py (ND ℂ)} {svd : ND ℂ → Py (ND ℂ × List ℝ × ND ℂ)} (hchol : CholTriLaw chol) (hinv : InvLaw inv)
    (hnull : NullLaw null) (hsvd : SVDLaw svd) (O : SetOrder) {x : FMPS ℂ} {L d : ℕ} {H : List (ND ℂ)} (hd : 1 < d) (hx : x.Holds (List.replicate L d))
    (hD : 0 < x.D) (hf : FullEnvs (List.replicate L d) x.data) (hiso : ∀ A ∈ x.data, LeftIso A) (hHL : H.length + 1 = L)
    (hH : ∀ h ∈ H, h.shape = [d * d, d * d]) (hmatch : OpenBondsMatch d x.data) {threshold : ℝ} (ht : 0 ≤ threshold) :
    (∃ dt : ℝ, 0 ≤ dt ∧ FMPS.shouldExpand chol inv null svd O x H dt threshold = .ok true) ↔ ¬ HamTangent L d H x.data := by
  obtain ⟨e, he, hv, hz⟩ := projectionError_ok_partial hchol hinv hnull hsvd O hd hx hD hf hiso hHL hH hmatch
  have key : ∀ dt : ℝ, 0 ≤ dt → (FMPS.shouldExpand chol inv null svd O x H dt threshold = .ok true ↔ threshold < dt ^ 2 * e) := by
    intro dt hdt
    unfold FMPS.shouldExpand
    rw [hv dt hdt, ok_bind]
    simp
  rw [← hz]
  constructor
  · rintro ⟨dt, hdt, h⟩ h0
    rw [key dt hdt, h0, mul_zero] at h
    exact absurd h (not_lt.2 ht)
  · intro h0
    have hpos : 0 < e := lt_of_le_of_ne he (Ne.symm h0)
    refine ⟨Real.sqrt ((threshold + 1) / e), Real.sqrt_nonneg _, ?_⟩
    rw [key _ (Real.sqrt_nonneg _), Real.sq_sqrt (by positivity), div_mul_cancel₀ _ hpos.ne']
    linarith

/-! ### witnesses -/

/-- `|00⟩` -/
def exZZ : FMPS ℂ := ⟨[⟨[2, 1, 1], fun
  | [s, _, _] => if s = 0 then 1 else 0
  | _ => 0⟩, ⟨[2, 1, 1], fun
  | [s, _, _] => if s = 0 then 1 else 0
  | _ => 0⟩], 2, 2, 1, false, false, none, none⟩

theorem exZZ_holds : exZZ.Holds (List.replicate 2 2) := ⟨⟨1, rfl, 1, rfl, rfl⟩, by simp, rfl, rfl⟩

theorem exZZ_full : FullEnvs (List.replicate 2 2) exZZ.data := by
  intro k hk p hp
  have hone : p = 1 := by
    match k, hk with
    | 0, _ => exact chain_bond_unique hp rfl
    | 1, _ => exact chain_bond_unique hp ⟨1, rfl, rfl⟩
    | 2, _ => exact chain_bond_unique hp ⟨1, rfl, 1, rfl, rfl⟩
  subst hone
  refine ⟨fun _ => 1, fun _ => 1, by simp, ?_⟩
  intro a ha b hb
  obtain rfl : a = 0 := by omega
  obtain rfl : b = 0 := by omega
  match k, hk with
  | 0, _ => simp [leftEnv, rightEnv, exZZ, amp, ND.dim, Finset.sum_range_succ]
  | 1, _ => simp [leftEnv, rightEnv, exZZ, amp, ND.dim, Finset.sum_range_succ]
  | 2, _ => simp [leftEnv, rightEnv, exZZ, amp, ND.dim, Finset.sum_range_succ]

theorem exZZ_iso : ∀ A ∈ exZZ.data, LeftIso A := by
  intro A hA
  have : A = ⟨[2, 1, 1], fun
    | [s, _, _] => if s = 0 then 1 else 0
    | _ => 0⟩ := by
    simp [exZZ] at hA
    exact hA
  subst this
  intro c hc c' hc'
  simp only [ND.dim, List.getD_cons_succ, List.getD_cons_zero, Nat.lt_one_iff] at hc hc'
  subst hc hc'
  simp [ND.dim, Finset.sum_range_succ]

theorem exZZ_match : OpenBondsMatch 2 exZZ.data := by
  intro i j h
  have h1 := h.1
  have h2 := h.2.1
  simp [exZZ] at h2
  omega

/-- `H|00⟩` is a tangent vector at `|00⟩` exactly when it has no component `|11⟩` -/
theorem exZZ_tangent (h : ND ℂ) : HamTangent 2 2 [h] exZZ.data ↔ h.val [3, 0] = 0 := by
  have hpsi : ∀ s t, psi exZZ.data [s, t] = if s = 0 ∧ t = 0 then 1 else 0 := by
    intro s t
    by_cases hs : s = 0 <;> by_cases ht : t = 0 <;> simp [psi, exZZ, ND.dim, pathProd, sumIdx, hs, ht]
  have hham : ∀ s t, hamAct 2 [h] (psi exZZ.data) [s, t] = h.val [s * 2 + t, 0] := by
    intro s t
    simp [hamAct, gateAct, hpsi, Finset.sum_range_succ]
  constructor
  · rintro ⟨Bs, hl, -, hT⟩
    have := hT [1, 1] ⟨by omega, by omega, trivial⟩
    rw [hham] at this
    norm_num at this
    rw [this]
    unfold tangentPsi
    simp [exZZ, Finset.sum_range_succ, swapIn, psi, ND.dim, pathProd, sumIdx]
  · intro h3
    refine ⟨[⟨[2, 1, 1], fun
      | [s, _, _] => h.val [s * 2, 0]
      | _ => 0⟩, ⟨[2, 1, 1], fun
      | [s, _, _] => if s = 0 then 0 else h.val [s, 0]
      | _ => 0⟩], rfl, ?_, ?_⟩
    · intro i h1 h2
      match i, h1 with
      | 0, _ => rfl
      | 1, _ => rfl
    · intro s hs
      match s, hs with
      | [s, t], hs =>
        rw [hham]
        have hs1 : s < 2 := hs.1
        have ht1 : t < 2 := hs.2.1
        unfold tangentPsi
        interval_cases s <;> interval_cases t <;> simp [exZZ, Finset.sum_range_succ, swapIn, psi, ND.dim, pathProd, sumIdx, h3]

/-- the hypotheses of C106: `|00⟩` and any two-site matrix -/
example (h : ND ℂ) (hh : h.shape = [2 * 2, 2 * 2]) (O : SetOrder) : ∃ chol inv null svd, CholTriLaw chol ∧ InvLaw inv ∧ NullLaw null ∧ SVDLaw svd ∧
    ∃ e : ℝ, 0 ≤ e ∧ (∀ dt : ℝ, 0 ≤ dt → FMPS.projectionError chol inv null svd O exZZ [h] dt = .ok (dt ^ 2 * e)) ∧ (e = 0 ↔ h.val [3, 0] = 0) := by
  obtain ⟨chol, hchol⟩ := cholTriLaw_exists
  obtain ⟨inv, hinv⟩ := invLaw_exists
  obtain ⟨null, hnull⟩ := nullLaw_exists
  obtain ⟨svd, hsvd⟩ := svdLaw_exists
  refine ⟨chol, inv, null, svd, hchol, hinv, hnull, hsvd, ?_⟩
  rw [← exZZ_tangent h]
  exact projectionError_ok_partial hchol hinv hnull hsvd O (by omega) exZZ_holds (by simp [exZZ]) exZZ_full exZZ_iso rfl
    (by simpa using hh) exZZ_match

/-- `|0⟩ (|00⟩ + |11⟩)/√2 |0⟩`, left canonical -/
noncomputable def exPairIn : FMPS ℂ := ⟨[⟨[2, 1, 1], fun
  | [s, _, _] => if s = 0 then 1 else 0
  | _ => 0⟩, ⟨[2, 1, 2], fun
  | [s, _, c] => if s = c then 1 else 0
  | _ => 0⟩, ⟨[2, 2, 1], fun
  | [s, a, _] => if s = a then ((Real.sqrt 2)⁻¹ : ℝ) else 0
  | _ => 0⟩, ⟨[2, 1, 1], fun
  | [s, _, _] => if s = 0 then 1 else 0
  | _ => 0⟩], 4, 2, 2, false, false, none, none⟩

theorem exPairIn_holds : exPairIn.Holds (List.replicate 4 2) := ⟨⟨1, rfl, 2, rfl, 1, rfl, 1, rfl, rfl⟩, by simp, rfl, rfl⟩

theorem inv_sqrt_two_sq : ((((Real.sqrt 2)⁻¹ : ℝ) : ℂ)) * (((Real.sqrt 2)⁻¹ : ℝ) : ℂ) = 2⁻¹ := by
  rw [← Complex.ofReal_mul, ← mul_inv, Real.mul_self_sqrt (by norm_num)]
  simp

theorem exPairIn_iso : ∀ A ∈ exPairIn.data, LeftIso A := by
  intro A hA
  have h2 := inv_sqrt_two_sq
  simp only [exPairIn, List.mem_cons, List.not_mem_nil, or_false] at hA
  rcases hA with rfl | rfl | rfl | rfl
  · intro c hc c' hc'
    simp only [ND.dim, List.getD_cons_succ, List.getD_cons_zero, Nat.lt_one_iff] at hc hc'
    subst hc hc'
    simp [ND.dim, Finset.sum_range_succ]
  · intro c hc c' hc'
    simp only [ND.dim, List.getD_cons_succ, List.getD_cons_zero] at hc hc'
    interval_cases c <;> interval_cases c' <;> simp [ND.dim, Finset.sum_range_succ]
  · intro c hc c' hc'
    simp only [ND.dim, List.getD_cons_succ, List.getD_cons_zero, Nat.lt_one_iff] at hc hc'
    subst hc hc'
    simp only [ND.dim, List.getD_cons_succ, List.getD_cons_zero, Finset.sum_range_succ, Finset.sum_range_zero]
    norm_num [Complex.conj_ofReal] at h2 ⊢
    rw [h2]
    norm_num
  · intro c hc c' hc'
    simp only [ND.dim, List.getD_cons_succ, List.getD_cons_zero, Nat.lt_one_iff] at hc hc'
    subst hc hc'
    simp [ND.dim, Finset.sum_range_succ]

theorem fullEnvs_of_iso {ds : List ℕ} {As : List (ND ℂ)} (hiso : ∀ A ∈ As, LeftIso A)
    (h : ∀ k ≤ ds.length, ∀ p, MpsChain (ds.take k) (As.take k) 1 p → ∃ rho : ℕ → ℝ, (∀ a < p, 0 < rho a) ∧
      ∀ a < p, ∀ b < p, rightEnv (ds.drop k) (As.drop k) a b = if a = b then (rho a : ℂ) else 0) : FullEnvs ds As := by
  intro k hk p hp
  obtain ⟨rho, h1, h2⟩ := h k hk p hp
  refine ⟨fun _ => 1, rho, fun a ha => ⟨one_pos, h1 a ha⟩, fun a ha b hb => ⟨?_, h2 a ha b hb⟩⟩
  rw [leftEnv_iso hp (fun A hA => hiso A (List.mem_of_mem_take hA)) a ha b hb]
  simp

theorem exPairIn_full : FullEnvs (List.replicate 4 2) exPairIn.data := by
  have h2 := inv_sqrt_two_sq
  refine fullEnvs_of_iso exPairIn_iso ?_
  intro k hk p hp
  match k, hk with
  | 0, _ =>
    obtain rfl := chain_bond_unique hp rfl
    refine ⟨fun _ => 1, by simp, ?_⟩
    intro a ha b hb
    obtain rfl : a = 0 := by omega
    obtain rfl : b = 0 := by omega
    simp [rightEnv, exPairIn, amp, ND.dim, Finset.sum_range_succ]
    norm_num [Complex.conj_ofReal] at h2 ⊢
    rw [h2]
    norm_num
  | 1, _ =>
    obtain rfl := chain_bond_unique hp ⟨1, rfl, rfl⟩
    refine ⟨fun _ => 1, by simp, ?_⟩
    intro a ha b hb
    obtain rfl : a = 0 := by omega
    obtain rfl : b = 0 := by omega
    simp [rightEnv, exPairIn, amp, ND.dim, Finset.sum_range_succ]
    norm_num [Complex.conj_ofReal] at h2 ⊢
    rw [h2]
    norm_num
  | 2, _ =>
    obtain rfl := chain_bond_unique hp ⟨1, rfl, 2, rfl, rfl⟩
    refine ⟨fun _ => 1 / 2, by simp, ?_⟩
    intro a ha b hb
    interval_cases a <;> interval_cases b <;> simp [rightEnv, exPairIn, amp, ND.dim, Finset.sum_range_succ] <;>
      norm_num [Complex.conj_ofReal] at h2 ⊢ <;> exact h2
  | 3, _ =>
    obtain rfl := chain_bond_unique hp ⟨1, rfl, 2, rfl, 1, rfl, rfl⟩
    refine ⟨fun _ => 1, by simp, ?_⟩
    intro a ha b hb
    obtain rfl : a = 0 := by omega
    obtain rfl : b = 0 := by omega
    simp [rightEnv, exPairIn, amp, ND.dim, Finset.sum_range_succ]
  | 4, _ =>
    obtain rfl := chain_bond_unique hp ⟨1, rfl, 2, rfl, 1, rfl, 1, rfl, rfl⟩
    refine ⟨fun _ => 1, by simp, ?_⟩
    intro a ha b hb
    obtain rfl : a = 0 := by omega
    obtain rfl : b = 0 := by omega
    simp [rightEnv, exPairIn, amp, ND.dim, Finset.sum_range_succ]

theorem exPairIn_open : ¬ OpenBondsMatch 2 exPairIn.data := by
  intro h
  have := h 0 2 ⟨by omega, by simp [exPairIn], by simp [BondFull, bondL, bondR, exPairIn, ND.dim], by simp [BondFull, bondL, bondR, exPairIn, ND.dim], by
    intro k h1 h2
    obtain rfl : k = 1 := by omega
    left
    simp [bondL, bondR, exPairIn, ND.dim]⟩
  simp [bondL, bondR, exPairIn, ND.dim] at this

/-- **C107, violated** for `|0⟩ (|00⟩ + |11⟩)/√2 |0⟩`: `projection_error` raises for every Hamiltonian of three two-site terms. -/
theorem projectionError_pair {chol inv null : ND ℂ → Py (ND ℂ)} {svd : ND ℂ → Py (ND ℂ × List ℝ × ND ℂ)} (hchol : CholTriLaw chol) (hinv : InvLaw inv)
    (hnull : NullLaw null) (hsvd : SVDLaw svd) (O : SetOrder) {H : List (ND ℂ)} (hHL : H.length = 3) (hH : ∀ h ∈ H, h.shape = [2 * 2, 2 * 2]) {dt : ℝ}
    (hdt : 0 ≤ dt) : FMPS.projectionError chol inv null svd O exPairIn H dt = .error .valueError :=
  (projectionError_raises hchol hinv hnull hsvd O (by omega) exPairIn_holds (by simp [exPairIn]) exPairIn_full exPairIn_iso (by omega) hH hdt).2 exPairIn_open

end Xmps
