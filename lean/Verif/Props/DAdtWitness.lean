import Verif.Props.Tdvp
import Verif.Props.Isometry

/-!
# C48 fails on a chain whose environments are not diagonal

The state `|00⟩ + |01⟩ + |11⟩` as a chain of the matrix `[[1, 1], [0, 1]]` and the identity.  The left environment of the second site
is `[[1, 1], [1, 2]]`; `get_envs` returns its diagonal, so the tangent tensor of the second site is orthogonal to the tensor in the wrong metric.
-/

namespace Xmps

open Spec Xmps.Ncon Finset

/-- the first tensor, the matrix `[[1, 1], [0, 1]]` -/
noncomputable def skewA : ND ℂ := ⟨[2, 1, 2], fun | [1, 0, 0] => 0 | _ => 1⟩

/-- the second tensor, the identity -/
noncomputable def skewB : ND ℂ := ⟨[2, 2, 1], fun | [s, a, _] => if s = a then 1 else 0 | _ => 0⟩

/-- the state `|00⟩ + |01⟩ + |11⟩` -/
noncomputable def exSkew : FMPS ℂ := { data := [skewA, skewB], L := 2, d := 2, D := 2 }

/-- the projector on `|01⟩` -/
noncomputable def skewH : ND ℂ := ⟨[4, 4], fun | [1, 1] => 1 | _ => 0⟩

theorem exSkew_holds : exSkew.Holds (List.replicate 2 2) := ⟨⟨2, rfl, 1, rfl, rfl⟩, by simp, rfl, rfl⟩

theorem exSkew_leftEnv (a b : ℕ) (ha : a < 2) (hb : b < 2) : leftEnv [2] [skewA] a b = if a = 1 ∧ b = 1 then 2 else 1 := by
  rw [show ([2] : List ℕ) = [] ++ [2] from rfl, show [skewA] = [] ++ [skewA] from rfl,
    leftEnv_snoc (m := 1) (n := 2) (ds := []) (As := []) rfl rfl a b ha hb]
  interval_cases a <;> interval_cases b <;> simp [leftEnv_nil, Finset.sum_range_succ, skewA] <;> norm_num

theorem exSkew_envs : ∃ l0 l1 r0 r1, exSkew.getEnvs = .ok ([onesND [1, 1], l0, l1], [r0, r1, onesND [1, 1]]) ∧ l0.shape = [2, 2] ∧
    ∀ a < 2, ∀ b < 2, l0.val [a, b] = if a = b then (((fun a : ℕ => (a : ℝ) + 1) a : ℝ) : ℂ) else 0 := by
  obtain ⟨l0, e0, s0, v0⟩ := leftEnvStep_ok (A := skewA) (l := onesND [1, 1]) (d := 2) (m := 1) (n := 2) rfl rfl
  obtain ⟨l1, e1, s1, -⟩ := leftEnvStep_ok (A := skewB) (l := l0) (d := 2) (m := 2) (n := 1) rfl s0
  obtain ⟨r1, f1, t1, -⟩ := rightEnvStep_ok (A := skewB) (r := onesND [1, 1]) (d := 2) (m := 2) (n := 1) rfl rfl
  obtain ⟨r0, f0, t0, -⟩ := rightEnvStep_ok (A := skewA) (r := r1) (d := 2) (m := 1) (n := 2) rfl t1
  refine ⟨l0, l1, r0, r1, ?_, s0, ?_⟩
  · unfold FMPS.getEnvs exSkew
    simp only [FMPS.leftEnvs, FMPS.rightEnvs, e0, e1, f0, f1, ok_bind, pyGet_cons_zero]
  · intro a ha b hb
    rw [v0]
    interval_cases a <;> interval_cases b <;> simp [onesND, Finset.sum_range_succ, skewA] <;> norm_num

theorem exSkew_psi (s t : ℕ) (hs : s < 2) (ht : t < 2) : psi [skewA, skewB] [s, t] = if s = 1 ∧ t = 0 then 0 else 1 := by
  interval_cases s <;> interval_cases t <;> simp [psi, pathProd, ND.dim, skewA, skewB, Finset.sum_range_succ]

theorem exSkew_env (t b : ℕ) (ht : t < 2) (hb : b < 2) :
    envAmp ([] ++ [2]) ([] ++ [skewA]) [] [] (gateAct 2 skewH 0 1 (psi ([] ++ skewA :: skewB :: []))) t b 0 = if t = 1 then 1 else 0 := by
  simp only [envAmp, List.nil_append, sumIdx_cons, sumIdx_nil, gateAct, Finset.sum_range_succ, Finset.sum_range_zero, zero_add,
    List.cons_append, List.getD_cons_zero, List.getD_cons_succ, List.set_cons_zero, List.set_cons_succ]
  rw [exSkew_psi 0 0, exSkew_psi 0 1, exSkew_psi 1 0, exSkew_psi 1 1]
  all_goals try omega
  interval_cases t <;> interval_cases b <;> simp [amp, pathProd, skewA, skewH, ND.dim]

/-- **C48 fails if the environments are not diagonal**: for the state `|00⟩ + |01⟩ + |11⟩` and the projector on `|01⟩` the second tensor of `dA_dt`
does not satisfy `Σ_s A_s† l B_s = 0` with the left environment `l` of the state. -/
theorem FMPS.dAdt_not_gauge {chol inv null : ND ℂ → Py (ND ℂ)} (hchol : CholTriLaw chol) (hinv : InvLaw inv) (hnull : NullLaw null) (O : SetOrder) :
    ∃ y B, exSkew.dAdt chol inv null O [skewH] = .ok y ∧ pyGet y.data 1 = .ok B ∧
      ¬ LeftGauge 2 2 1 (leftEnv ((List.replicate 2 2).take 1) (exSkew.data.take 1)) skewB B := by
  obtain ⟨l0, l1, r0, r1, ee, hl0, hv0⟩ := exSkew_envs
  obtain ⟨v0, k0, n0, b0⟩ := nullVecs_ok hchol hnull (A := skewA) (l := onesND [1, 1]) (d := 2) (p := 1) (q := 2) (by omega) (by omega) (by omega)
    rfl rfl (lam := fun _ => 1) (by
      intro i hi j hj
      rw [if_pos (by omega)]
      simp [onesND]) (by intros; norm_num)
  obtain ⟨p0, w0, -⟩ := projector_ok hchol hinv O (A := skewA) (l := onesND [1, 1]) (d := 2) (p := 1) (q := 2) rfl (lam := fun _ => 1) (by
      intro i hi j hj
      rw [if_pos (by omega)]
      simp [onesND]) (by intros; norm_num) b0
  have hpos : ∀ i < 2, 0 < (fun a : ℕ => (a : ℝ) + 1) i := by
    intro i _
    positivity
  obtain ⟨v1, k1, n1, b1⟩ := nullVecs_ok hchol hnull (A := skewB) (l := l0) (d := 2) (p := 2) (q := 1) (by omega) (by omega) (by omega) rfl hl0 hv0 hpos
  obtain ⟨pr, w1, P⟩ := projector_ok hchol hinv O (A := skewB) (l := l0) (d := 2) (p := 2) (q := 1) hl0 hv0 hpos b1
  generalize hU : (fun s a k1 => (((Real.sqrt ((fun a : ℕ => (a : ℝ) + 1) a))⁻¹ : ℝ) : ℂ) * v1.val [s, a, k1]) = U at P
  obtain ⟨R, f1, f2, -⟩ := nc_eval O (AA := [pr, skewB]) (v := [[-3, -4, 1, -2], [1, -1, -5]])
      (dimOf [(1, 2), (-1, 2), (-2, 2), (-3, 2), (-4, 2), (-5, 1)]) [1] [-1, -2, -3, -4, -5]
      ⟨by simp, by simp [P.shape, skewB, dimOf, List.lookup], by simp, by simp, by decide, by decide, by decide, by decide, by decide⟩
      (by decide) (by decide)
  have hRsh : R.shape = 2 :: 2 :: [2, 2, 1] := by rw [f2]; simp [dimOf, List.lookup]
  obtain ⟨Rs, f3, -⟩ := FMPS.leftTransfer_spec exSkew_holds (j := 0) (i := 1) (by omega) (by simp) (r := 2) ⟨2, rfl, rfl⟩ hRsh
  obtain ⟨T, e, g1, g2, g3⟩ := term_here (inv := inv) (x := exSkew) (ls := [onesND [1, 1], l0, l1]) (rs := [r0, r1, onesND [1, 1]]) (Rs := Rs) (m := 0)
    (d := 2) (p := 1) (q := 2) (n := 1) (ds0 := []) (As0 := []) (ds3 := []) (As3 := []) (A := skewA) (B := skewB) (pr := pr) O
    (four_reshape (d := 2) (h := skewH) rfl) rfl rfl rfl rfl rfl rfl rfl rfl rfl rfl rfl (by
      intro a ha b hb
      obtain rfl : a = 0 := by omega
      obtain rfl : b = 0 := by omega
      simp [onesND, leftEnv_nil]) (by
      intro a ha b hb
      obtain rfl : a = 0 := by omega
      obtain rfl : b = 0 := by omega
      rfl) (rho := fun _ => 1) (by
      intro a ha b hb
      obtain rfl : a = 0 := by omega
      obtain rfl : b = 0 := by omega
      simp [rightEnv_nil]) (by intros; simp) P.shape
  -- the two sites
  have s0 : exSkew.dAdtSite inv O [onesND [1, 1], l0, l1] [r0, r1, onesND [1, 1]] [p0, pr] [skewH] 0 =
      .ok (((zerosND skewA.shape).smul (-Complex.I)).smul (-Complex.I), []) := by
    unfold FMPS.dAdtSite
    simp [exSkew, ND.reshape_ok (A := skewH) (sh := [2, 2, 2, 2]) (by simp [skewH]), ND.dim, skewA]
  obtain ⟨B1, e1, s1, hB1, hBv⟩ := dAdtLoop_ok (inv := inv) (O := O) (x := exSkew) (ls := [onesND [1, 1], l0, l1]) (rs := [r0, r1, onesND [1, 1]])
    (Rs := Rs) (pr := pr) (i := 1) (d := 2) (p := 2) (q := 1) (fun _ s a c => T.val [s, a, c]) [(skewH.reshapeR [2, 2, 2, 2], 0)]
    ((zerosND skewB.shape).smul (-Complex.I)) [] rfl (by
      rintro hm hm1 -
      rw [List.mem_singleton] at hm1
      subst hm1
      exact ⟨T, e, g1, g2, fun _ _ _ _ _ _ => rfl⟩)
  have s1' : exSkew.dAdtSite inv O [onesND [1, 1], l0, l1] [r0, r1, onesND [1, 1]] [p0, pr] [skewH] 1 = .ok (B1, e1) := by
    have ex : pyGet exSkew.data 1 = .ok skewB := rfl
    have ep : pyGet [p0, pr] 1 = .ok pr := rfl
    unfold FMPS.dAdtSite
    rw [ex, ok_bind, ep]
    simp only [List.mapM_cons, List.mapM_nil, show exSkew.d = 2 from rfl, ND.reshape_ok (A := skewH) (sh := [2, 2, 2, 2]) (by simp [skewH]), ok_bind,
      py_pure, show skewB.dim 1 = 2 from rfl, show skewB.dim 2 = 1 from rfl, show ¬ 2 * 2 = 1 by omega, if_false, f1, f3]
    exact s1
  have hn0 : FMPS.leftNull chol inv null O exSkew [onesND [1, 1], l0, l1] 0 = .ok (p0, v0) := by
    unfold FMPS.leftNull
    rw [show pyGet exSkew.data 0 = .ok skewA from rfl, ok_bind, show FMPS.envAt [onesND [1, 1], l0, l1] (((0 : ℕ) : ℤ) - 1) = .ok (onesND [1, 1]) from rfl,
      ok_bind, show exSkew.d = 2 from rfl, n0, ok_bind, w0, ok_bind]
  have hn1 : FMPS.leftNull chol inv null O exSkew [onesND [1, 1], l0, l1] 1 = .ok (pr, v1) := by
    unfold FMPS.leftNull
    rw [show pyGet exSkew.data 1 = .ok skewB from rfl, ok_bind, show FMPS.envAt [onesND [1, 1], l0, l1] (((1 : ℕ) : ℤ) - 1) = .ok l0 from rfl,
      ok_bind, show exSkew.d = 2 from rfl, n1, ok_bind, w1, ok_bind]
  obtain ⟨y, y1, y2, -⟩ := init_holds (data := [((zerosND skewA.shape).smul (-Complex.I)).smul (-Complex.I), B1]) (ds := [2, 2])
    ⟨2, rfl, 1, hB1, rfl⟩ (by simp) none (Or.inl rfl)
  refine ⟨y, B1, ?_, by rw [y2]; rfl, ?_⟩
  · unfold FMPS.dAdt
    rw [ee, ok_bind]
    simp only [show exSkew.L = 2 from rfl, List.range_succ, List.range_zero, List.nil_append, List.cons_append, List.mapM_cons, List.mapM_nil, hn0, hn1,
      ok_bind, py_pure, List.map_cons, List.map_nil, s0, s1']
    exact y1
  -- the entries of the projector
  have herm : ∀ s < 2, ∀ a < 2, ∀ t < 2, ∀ b < 2, pr.val [s, a, t, b] = star (pr.val [t, b, s, a]) := by
    intro s _ a ha t _ b hb
    rw [P.val s a ha t b hb, P.val t b hb s a ha, star_sum]
    refine Finset.sum_congr rfl fun k _ => ?_
    rw [star_mul', star_star, mul_comm]
  have h10 : ∀ s < 2, ∀ a < 2, pr.val [s, a, 1, 0] = if s = 1 ∧ a = 0 then 1 else 0 := by
    intro s hs a ha
    have := P.complete (fun s a => if s = 1 ∧ a = 0 then 1 else 0) (by
      intro c _
      simp [Finset.sum_range_succ, skewB]) s hs a ha
    rw [P.val s a ha 1 0 (by omega)]
    refine Eq.trans ?_ this.symm
    refine Finset.sum_congr rfl fun k _ => ?_
    simp [Finset.sum_range_succ]
  have h01 : ∀ s < 2, ∀ a < 2, pr.val [s, a, 0, 1] * 2 = if s = 0 ∧ a = 1 then 1 else 0 := by
    intro s hs a ha
    have := P.complete (fun s a => if s = 0 ∧ a = 1 then 1 else 0) (by
      intro c _
      simp [Finset.sum_range_succ, skewB]) s hs a ha
    rw [P.val s a ha 0 1 (by omega), Finset.sum_mul]
    refine Eq.trans ?_ this.symm
    refine Finset.sum_congr rfl fun k _ => ?_
    simp [Finset.sum_range_succ]
    ring
  have hnul : ∀ t < 2, ∀ b < 2, pr.val [0, 0, t, b] + 2 * pr.val [1, 1, t, b] = 0 := by
    intro t _ b hb
    rw [P.val 0 0 (by omega) t b hb, P.val 1 1 (by omega) t b hb, Finset.mul_sum, ← Finset.sum_add_distrib]
    refine Finset.sum_eq_zero fun k hk => ?_
    have := P.null 0 (by omega) k (Finset.mem_range.1 hk)
    simp [Finset.sum_range_succ, skewB] at this
    linear_combination star (U t b k) * this
  have hB : ∀ s < 2, ∀ a < 2, B1.val [s, a, 0] = -Complex.I * (pr.val [s, a, 1, 0] + pr.val [s, a, 1, 1]) := by
    intro s hs a ha
    rw [hBv s hs a ha 0 (by omega)]
    simp only [List.map_cons, List.map_nil, Nat.zero_le, if_true, List.sum_cons, List.sum_nil, add_zero]
    rw [g3 s a ha 0 (by omega)]
    simp only [Finset.sum_range_succ, Finset.sum_range_zero, zero_add]
    rw [exSkew_env 0 0, exSkew_env 0 1, exSkew_env 1 0, exSkew_env 1 1]
    all_goals try omega
    simp [ND.smul, zerosND]
  intro hg
  have := hg 0 (by omega) 0 (by omega)
  rw [show (List.replicate 2 2).take 1 = [2] from rfl, show exSkew.data.take 1 = [skewA] from rfl] at this
  simp only [Finset.sum_range_succ, Finset.sum_range_zero, zero_add] at this
  rw [exSkew_leftEnv 0 0, exSkew_leftEnv 0 1, exSkew_leftEnv 1 0, exSkew_leftEnv 1 1, hB 0 _ 0, hB 0 _ 1, hB 1 _ 0, hB 1 _ 1] at this
  all_goals try omega
  have a1 := h10 0 (by omega) 1 (by omega)
  have a2 := h10 1 (by omega) 0 (by omega)
  have a3 := herm 0 (by omega) 1 (by omega) 1 (by omega) 1 (by omega)
  have a4 := herm 1 (by omega) 0 (by omega) 1 (by omega) 1 (by omega)
  have a5 := h10 1 (by omega) 1 (by omega)
  have a6 := h01 1 (by omega) 1 (by omega)
  have a7 := hnul 1 (by omega) 0 (by omega)
  have a8 := hnul 1 (by omega) 1 (by omega)
  simp at a1 a2 a5 a6
  rw [a6] at a3
  rw [a5] at a4
  simp [skewB, a1, a2, a3, a4] at this
  have hI : Complex.I = 0 := by linear_combination -this - Complex.I * (a7 + a8)
  exact Complex.I_ne_zero hI

/-- the conditions on the external functions can be met -/
example (O : SetOrder) : ∃ chol inv null : ND ℂ → Py (ND ℂ), ∃ y, exSkew.dAdt chol inv null O [skewH] = .ok y := by
  obtain ⟨chol, hchol⟩ := cholTriLaw_exists
  obtain ⟨inv, hinv⟩ := invLaw_exists
  obtain ⟨null, hnull⟩ := nullLaw_exists
  obtain ⟨y, _, h, -⟩ := FMPS.dAdt_not_gauge hchol hinv hnull O
  exact ⟨chol, inv, null, y, h⟩

end Xmps
