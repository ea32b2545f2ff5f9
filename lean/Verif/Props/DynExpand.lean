import Verif.Props.ProjError
import Verif.Props.Tdvp
import Verif.Lemmas.FmpsArith

/-!
# C108, C109: `dynamical_expand`, `grow`, `Trajectory.dynamical_expand`
-/

namespace Xmps

open Finset Spec Xmps.Ncon

/-- giving an array its own shape again changes nothing -/
theorem reshapeR_four {d : ℕ} (hd : 0 < d) (h : ND ℂ) : (h.reshapeR [d, d, d, d]).reshapeR [d, d, d, d] = h.reshapeR [d, d, d, d] := by
  have key : ∀ n, ravel [d, d, d, d] (unravel [d, d, d, d] n) = n := by
    intro n
    have h3 : 0 < ([d, d, d] : List ℕ).prod := by simp; omega
    rw [unravel_cons, ravel_cons, ravel_unravel (Nat.mod_lt _ h3)]
    exact Nat.div_add_mod' n _
  unfold ND.reshapeR
  simp only [key]

theorem mapM_four {d : ℕ} {H : List (ND ℂ)} (hH : ∀ h ∈ H, h.shape = [d * d, d * d]) :
    (H.mapM fun h => h.reshape [d, d, d, d]) = .ok (H.map fun h => h.reshapeR [d, d, d, d]) := by
  refine mapM_ok ?_
  intro h hh
  exact ND.reshape_ok (by rw [hH h hh]; simp; ring)

theorem mapM_four_again {d : ℕ} (hd : 0 < d) (H : List (ND ℂ)) :
    ((H.map fun h => h.reshapeR [d, d, d, d]).mapM fun h => h.reshape [d, d, d, d]) = .ok (H.map fun h => h.reshapeR [d, d, d, d]) := by
  have : (H.map fun h => h.reshapeR [d, d, d, d]) = (H.map fun h => h.reshapeR [d, d, d, d]).map fun h => h.reshapeR [d, d, d, d] := by
    rw [List.map_map]
    refine List.map_congr_left fun h _ => ?_
    exact (reshapeR_four hd h).symm
  conv_rhs => rw [this]
  refine mapM_ok ?_
  intro h hh
  obtain ⟨g, -, rfl⟩ := List.mem_map.1 hh
  exact ND.reshape_ok (by simp [ND.reshapeR])

/-- `dA_dt` of the terms with four legs -/
theorem dAdt_four {chol inv null : ND ℂ → Py (ND ℂ)} (O : SetOrder) {x : FMPS ℂ} {H : List (ND ℂ)} {d : ℕ} (hd : 0 < d) (hxd : x.d = d)
    (hH : ∀ h ∈ H, h.shape = [d * d, d * d]) :
    FMPS.dAdt chol inv null O x (H.map fun h => h.reshapeR [d, d, d, d]) = FMPS.dAdt chol inv null O x H := by
  unfold FMPS.dAdt FMPS.dAdtSite
  rw [hxd, mapM_four hH, mapM_four_again hd]

/-- `G(m)` of `dynamical_expand` for `|00⟩` -/
theorem expandG_zz (O : SetOrder) {h h4 A B l r vL vR : ND ℂ} (h4v : Four 2 h h4) (hA : A.shape = [2, 1, 1]) (hB : B.shape = [2, 1, 1])
    (hA0 : A.val [0, 0, 0] = 1) (hA1 : A.val [1, 0, 0] = 0) (hB0 : B.val [0, 0, 0] = 1) (hB1 : B.val [1, 0, 0] = 0)
    (hl : l.shape = [1, 1]) (hl0 : l.val [0, 0] = 1) (hr : r.shape = [1, 1]) (hr0 : r.val [0, 0] = 1)
    (hvL : vL.shape = [2, 1, 1]) (hvR : vR.shape = [2, 1, 1]) (hvL0 : vL.val [0, 0, 0] = 0) (hvR0 : vR.val [0, 0, 0] = 0) :
    ∃ G, FMPS.expandG O A B h4 l r vL vR = .ok G ∧ G.shape = [1, 1] ∧
      G.val [0, 0] = h.val [2, 1] * star (vL.val [1, 0, 0]) * star (vR.val [1, 0, 0]) := by
  obtain ⟨lA, e1, slA, vlA⟩ := diag_mul_left (mu := fun _ => 1) hl hA (by
    intro i hi j hj
    obtain rfl : i = 0 := by omega
    obtain rfl : j = 0 := by omega
    simpa using hl0)
  obtain ⟨Br, e2, sBr, vBr⟩ := diag_mul_right (mu := fun _ => 1) hB hr (by
    intro i hi j hj
    obtain rfl : i = 0 := by omega
    obtain rfl : j = 0 := by omega
    simpa using hr0)
  obtain ⟨G, e4, sG, vG⟩ := nc_eval O (AA := [lA, Br, h4, vL.conj, vR.conj]) (v := [[2, 1, 4], [6, 4, 8], [3, 6, 2, 7], [3, 1, -1], [7, -2, 8]])
    (dimOf [(1, 1), (2, 2), (3, 2), (4, 1), (6, 2), (7, 2), (8, 1), (-1, 1), (-2, 1)]) [1, 2, 3, 4, 6, 7, 8] [-1, -2]
    ⟨by simp, by simp [hvL, hvR, slA, sBr, h4v.1, dimOf, List.lookup], by simp, by simp, by decide, by decide, by decide, by decide, by decide⟩
    (by decide) (by decide)
  refine ⟨G, ?_, by rw [sG]; simp [dimOf, List.lookup], ?_⟩
  · unfold FMPS.expandG
    rw [e1, ok_bind, e2, ok_bind, e4]
  rw [vG _ rfl]
  have hv1 := h4v.2 1 (by omega) 0 (by omega) 0 (by omega) 1 (by omega)
  norm_num at hv1
  simp [labelSum, netTerm, assign, dimOf, List.lookup, Function.update, ND.conj, Finset.sum_range_succ, vlA, vBr, hA0, hA1, hB0, hB1, hvL0, hvR0, hv1, mul_assoc]

/-- the tensor of `|1⟩` -/
def exOneT : ND ℂ := ⟨[2, 1, 1], fun
  | [s, _, _] => if s = 1 then 1 else 0
  | _ => 0⟩

theorem psi_two {A B : ND ℂ} {d d' q : ℕ} (hA : A.shape = [d, 1, q]) (hB : B.shape = [d', q, 1]) (s t : ℕ) :
    psi [A, B] [s, t] = ∑ c ∈ range q, A.val [s, 0, c] * B.val [t, c, 0] := by
  simp [psi, ND.dim, pathProd, sumIdx, hA, hB]

theorem phase_of_orth {d k : ℕ} {vR : ND ℂ} (hd : d = 2) (hz : ∀ k1 < k, vR.val [0, k1, 0] = 0)
    (ho : ∀ k1 < k, ∀ k2 < k, ∑ s ∈ range d, ∑ a ∈ range 1, star (vR.val [s, k1, a]) * vR.val [s, k2, a] = if k1 = k2 then 1 else 0) (hk : 0 < k) :
    k = 1 ∧ star (vR.val [1, 0, 0]) * vR.val [1, 0, 0] = 1 := by
  subst hd
  have hn : ∀ k1 < k, ∀ k2 < k, star (vR.val [1, k1, 0]) * vR.val [1, k2, 0] = if k1 = k2 then 1 else 0 := by
    intro k1 h1 k2 h2
    have := ho k1 h1 k2 h2
    simpa [Finset.sum_range_succ, hz k1 h1, hz k2 h2] using this
  refine ⟨?_, by simpa using hn 0 hk 0 hk⟩
  by_contra hne
  have h1 : 1 < k := by omega
  have e0 := hn 0 hk 0 hk
  have e1 := hn 1 h1 1 h1
  have e2 := hn 0 hk 1 h1
  simp only [if_true, Nat.zero_ne_one, if_false] at e0 e1 e2
  rcases mul_eq_zero.1 e2 with h | h
  · rw [h, zero_mul] at e0
    exact absurd e0 zero_ne_one
  · rw [h, mul_zero] at e1
    exact absurd e1 zero_ne_one

section
variable {chol inv null : ND ℂ → Py (ND ℂ)} {svd : ND ℂ → Py (ND ℂ × List ℝ × ND ℂ)} (hchol : CholTriLaw chol) (hinv : InvLaw inv)
  (hnull : NullLaw null) (hsvd : SVDLaw svd) (O : SetOrder)
include hchol hinv hnull

theorem exZZ_dAdt {h : ND ℂ} (hh : h.shape = [2 * 2, 2 * 2]) : ∃ y b0 b1, FMPS.dAdt chol inv null O exZZ [h] = .ok y ∧ y.data = [b0, b1] ∧
    b0.shape = [2, 1, 1] ∧ b1.shape = [2, 1, 1] ∧ b0.val [0, 0, 0] = 0 ∧ b0.val [1, 0, 0] = -Complex.I * h.val [2, 0] ∧
    b1.val [0, 0, 0] = 0 ∧ b1.val [1, 0, 0] = -Complex.I * h.val [1, 0] := by
  have hH : ∀ g ∈ [h], g.shape = [2 * 2, 2 * 2] := by simpa using hh
  obtain ⟨y, e, hy, hs⟩ := FMPS.dAdt_gauge hchol hinv hnull O (by omega : 0 < 2) exZZ_holds exZZ_full (H := [h]) (by simp) hH
  have hl := hy.chain.length_eq
  have ht := fun i hi W hW hg => FMPS.dAdt_tdvp hchol hinv hnull O (by omega : 0 < 2) exZZ_holds exZZ_full (H := [h]) (by simp) hH e (i := i) hi (p := 1) (q := 1)
    (by
      match i, hi with
      | 0, _ => rfl
      | 1, _ => rfl) (W := W) hW hg
  obtain ⟨data, L', d', D', _, _, _, _⟩ := y
  match data, hl with
  | [b0, b1], hl =>
    obtain ⟨s0, g0⟩ := hs 0 (by simp [exZZ]) (by simp) 1 1 rfl
    obtain ⟨s1, g1⟩ := hs 1 (by simp [exZZ]) (by simp) 1 1 rfl
    simp only [List.getElem_cons_zero, List.getElem_cons_succ] at s0 s1
    have z0 : b0.val [0, 0, 0] = 0 := by
      have := g0 0 (by omega) 0 (by omega)
      simpa [exZZ, Finset.sum_range_succ, leftEnv_nil] using this
    have z1 : b1.val [0, 0, 0] = 0 := by
      have := g1 0 (by omega) 0 (by omega)
      simpa [exZZ, Finset.sum_range_succ, leftEnv, amp, ND.dim] using this
    have hpsi : ∀ s t, psi exZZ.data [s, t] = if s = 0 ∧ t = 0 then 1 else 0 := by
      intro s t
      by_cases hs : s = 0 <;> by_cases ht : t = 0 <;> simp [psi, exZZ, ND.dim, pathProd, sumIdx, hs, ht]
    have hham : ∀ s t, hamAct 2 [h] (psi exZZ.data) [s, t] = h.val [s * 2 + t, 0] := by
      intro s t
      simp [hamAct, gateAct, hpsi, Finset.sum_range_succ]
    have hW0 := ht 0 (by simp [exZZ]) exOneT rfl (by
        intro c hc c' hc'
        simp [exZZ, exOneT])
    have hW1 := ht 1 (by simp [exZZ]) exOneT rfl (by
        intro c hc c' hc'
        simp [exZZ, exOneT])
    have hT : ∀ s t, tangentPsi exZZ.data [b0, b1] [s, t] = b0.val [s, 0, 0] * (if t = 0 then 1 else 0) + (if s = 0 then 1 else 0) * b1.val [t, 0, 0] := by
      intro s t
      show ∑ i ∈ range 2, psi (swapIn exZZ.data i ([b0, b1].getD i ⟨[], fun _ => 0⟩)) [s, t] = _
      rw [Finset.sum_range_succ, Finset.sum_range_one]
      show psi [b0, _] [s, t] + psi [_, b1] [s, t] = _
      rw [psi_two s0 (d' := 2) rfl, psi_two (d := 2) rfl s1, Finset.sum_range_one, Finset.sum_range_one]
    have p0 : ∀ W : ND ℂ, W.shape = [2, 1, 1] → ∀ s t, psi (swapIn exZZ.data 0 W) [s, t] = W.val [s, 0, 0] * (if t = 0 then 1 else 0) := by
      intro W hW s t
      show psi [W, _] [s, t] = _
      rw [psi_two hW (d' := 2) rfl, Finset.sum_range_one]
    have p1 : ∀ W : ND ℂ, W.shape = [2, 1, 1] → ∀ s t, psi (swapIn exZZ.data 1 W) [s, t] = (if s = 0 then 1 else 0) * W.val [t, 0, 0] := by
      intro W hW s t
      show psi [_, W] [s, t] = _
      rw [psi_two (d := 2) rfl hW, Finset.sum_range_one]
    simp only [pairing, List.replicate, sumIdx, hham, hT, p0 exOneT rfl, p1 exOneT rfl] at hW0 hW1
    refine ⟨_, b0, b1, e, rfl, s0, s1, z0, ?_, z1, ?_⟩
    · simpa [Finset.sum_range_succ, z0, z1, exOneT] using hW0
    · simpa [Finset.sum_range_succ, z0, z1, exOneT] using hW1

include hsvd

/-- **C108** One step of `dynamical_expand` from `|00⟩`, for any two-site matrix: the one-site parts are those of an Euler step, the new part is
`dt ⟨10|H|01⟩ |11⟩` where it should be `-i dt ⟨11|H|00⟩ |11⟩`. -/
theorem dynamicalExpand_zz {h : ND ℂ} (hh : h.shape = [2 * 2, 2 * 2]) {dt : ℝ} (hdt : 0 ≤ dt) :
    ∃ y, FMPS.dynamicalExpand chol inv null svd O exZZ [h] dt 2 none = .ok y ∧ y.D = 2 ∧ y.L = 2 ∧ y.d = 2 ∧ MpsChain [2, 2] y.data 1 1 ∧
      psi y.data [0, 0] = 1 ∧ psi y.data [0, 1] = -Complex.I * dt * h.val [1, 0] ∧ psi y.data [1, 0] = -Complex.I * dt * h.val [2, 0] ∧
      psi y.data [1, 1] = (-Complex.I * dt * h.val [2, 0]) * (-Complex.I * dt * h.val [1, 0]) + dt * h.val [2, 1] := by
  have hH : ∀ g ∈ [h], g.shape = [2 * 2, 2 * 2] := by simpa using hh
  obtain ⟨ls, rs, eenv, S⟩ := projSetup (by omega : 1 < 2) exZZ_holds (by simp [exZZ]) exZZ_full exZZ_iso (H := [h]) rfl hH
  have h0 : 0 < exZZ.data.length := by simp [exZZ]
  have h1 : 0 + 1 < exZZ.data.length := by simp [exZZ]
  obtain ⟨r, rho, mu, er, hr, hrv, hre, hpos, hmu, next⟩ := S.right h0 h1
  obtain ⟨l, _, lam, _, E⟩ := S.env 0 (by omega) 1 rfl
  have hlv : ∀ a < 1, ∀ b < 1, l.val [a, b] = if a = b then 1 else 0 := by
    intro a ha b hb
    obtain rfl : a = 0 := by omega
    obtain rfl : b = 0 := by omega
    rw [E.hlv 0 (by omega) 0 (by omega)]
    simp [leftEnv_nil]
  obtain ⟨prL, vL, prR, vR, kL, kR, eL, eR, bL, bR, hkL, hkR⟩ := S.nulls hchol hinv hnull O h0 h1 E.el E.hl hlv er hr hrv hpos hmu next
  have hrho : rho 0 = 1 := by
    have := hre 0 (by simp [bondR, exZZ, ND.dim]) 0 (by simp [bondR, exZZ, ND.dim])
    have h2 : rightEnv ((List.replicate 2 2).drop (0 + 2)) (exZZ.data.drop (0 + 2)) 0 0 = 1 := by
      show rightEnv [] [] 0 0 = _
      simp [rightEnv_nil]
    rw [h2, if_pos rfl] at this
    exact_mod_cast this.symm
  obtain rfl : kL = 1 := by
    simp [bondL, bondR, exZZ, ND.dim] at hkL
    omega
  have zR : ∀ k1 < kR, vR.val [0, k1, 0] = 0 := by
    intro k1 hk1
    have := bR.null 0 (by simp [bondR, exZZ, ND.dim]) k1 hk1
    simpa [bondR, exZZ, ND.dim, Finset.sum_range_succ, hrho] using this
  have zL : vL.val [0, 0, 0] = 0 := by
    have := bL.null 0 (by simp [bondR, exZZ, ND.dim]) 0 (by omega)
    simpa [bondL, exZZ, ND.dim, Finset.sum_range_succ] using this
  obtain ⟨rfl, nR⟩ := phase_of_orth rfl zR bR.orth (by
    rcases Nat.eq_zero_or_pos kR with h | h
    · have := hkR.1 h
      simp [bondR, exZZ, ND.dim] at this
    · exact h)
  have nL : star (vL.val [1, 0, 0]) * vL.val [1, 0, 0] = 1 := by
    have := bL.orth 0 (by omega) 0 (by omega)
    simpa [bondL, exZZ, ND.dim, Finset.sum_range_succ, zL] using this
  obtain ⟨y, b0, b1, ed, edata, sb0, sb1, vb00, vb01, vb10, vb11⟩ := exZZ_dAdt hchol hinv hnull O hh
  obtain ⟨G, eG, sG, vG⟩ := expandG_zz O (four_reshape hh) (A := exZZ.data[0]) (B := exZZ.data[1]) rfl rfl rfl rfl rfl rfl E.hl (hlv 0 (by omega) 0 (by omega)) hr
    (by rw [hrv 0 (by simp [bondR, exZZ, ND.dim]) 0 (by simp [bondR, exZZ, ND.dim]), if_pos rfl, hrho]; simp) bL.shape bR.shape zL (zR 0 (by omega))
  obtain ⟨U, s, V, eS, sU, ls', sV, oU, oV, s0, sdec, hG⟩ := hsvd G 1 1 sG (by omega) (by omega)
  have etr : FMPS.trSvd svd G ((2 : ℤ) - (1 : ℤ)) = .ok (⟨[1, 1], U.val⟩, s.take 1, ⟨[1, 1], V.val⟩) := by
    unfold FMPS.trSvd
    rw [eS, ok_bind]
    simp [ND.dim, sU, sV, ls', stopAt]
  obtain ⟨X, Y, eXY, sX, sY, vX, vY⟩ := newLegs_ok dt E.hl hlv hr hrv bL.shape bR.shape (U := ⟨[1, 1], U.val⟩) (V := ⟨[1, 1], V.val⟩) (χ := 1) rfl rfl (s := s.take 1)
    (by rw [List.length_take, ls']; rfl)
  have hXY : X.val [1, 0, 0] * Y.val [1, 0, 0] = dt * h.val [2, 1] := by
    have hg := hG 0 (by omega) 0 (by omega)
    rw [show min 1 1 = 1 from rfl, Finset.sum_range_one, vG] at hg
    have hs1 : (s.take 1).getD 0 0 = s.getD 0 0 := by
      rw [List.getD_eq_getElem _ _ (by rw [List.length_take, ls']; simp), List.getD_eq_getElem _ _ (by rw [ls']; simp), List.getElem_take]
    have hsn : 0 ≤ s.getD 0 0 := by
      rw [List.getD_eq_getElem _ _ (by rw [ls']; simp)]
      exact s0 _ (List.getElem_mem _)
    rw [vX 1 0 (by simp [bondL, exZZ, ND.dim]) 0 (by omega), vY 1 0 (by omega) 0 (by simp [bondR, exZZ, ND.dim]), hs1, hrho, Finset.sum_range_one, Finset.sum_range_one]
    have e1 : ((Real.sqrt dt : ℝ) : ℂ) * ((Real.sqrt dt : ℝ) : ℂ) = dt := by rw [← Complex.ofReal_mul, Real.mul_self_sqrt hdt]
    have e2 : ((Real.sqrt (s.getD 0 0) : ℝ) : ℂ) * ((Real.sqrt (s.getD 0 0) : ℝ) : ℂ) = (s.getD 0 0 : ℝ) := by rw [← Complex.ofReal_mul, Real.mul_self_sqrt hsn]
    calc _ = (((Real.sqrt dt : ℝ) : ℂ) * ((Real.sqrt dt : ℝ) : ℂ)) * (U.val [0, 0] * (((Real.sqrt (s.getD 0 0) : ℝ) : ℂ) * ((Real.sqrt (s.getD 0 0) : ℝ) : ℂ)) * V.val [0, 0]) *
          (vL.val [1, 0, 0] * vR.val [1, 0, 0]) := by push_cast; ring
      _ = dt * h.val [2, 1] * (star (vL.val [1, 0, 0]) * vL.val [1, 0, 0]) * (star (vR.val [1, 0, 0]) * vR.val [1, 0, 0]) := by rw [e1, e2, ← hg]; ring
      _ = _ := by rw [nL, nR]; ring
  have hX0 : X.val [0, 0, 0] = 0 := by
    rw [vX 0 0 (by simp [bondL, exZZ, ND.dim]) 0 (by omega), Finset.sum_range_one, zL]
    simp
  have hY0 : Y.val [0, 0, 0] = 0 := by
    rw [vY 0 0 (by omega) 0 (by simp [bondR, exZZ, ND.dim]), Finset.sum_range_one, zR 0 (by omega)]
    simp
  obtain ⟨R0, ec0, sR0, vR0, vR0'⟩ := concat2_ok (A := ⟨exZZ.data[0].shape, fun idx => exZZ.data[0].val idx + (b0.smul (dt : ℂ)).val idx⟩) (B := X) (d := 2) (l := 1) (r := 1) (r' := 1) rfl sX
  obtain ⟨R1, ec1, sR1, vR1, vR1'⟩ := concat1_ok (A := ⟨exZZ.data[1].shape, fun idx => exZZ.data[1].val idx + (b1.smul (dt : ℂ)).val idx⟩) (B := Y) (d := 2) (l := 1) (l' := 1) (r := 1) rfl sY
  have eb : FMPS.expandBody chol inv null svd O exZZ [h.reshapeR [2, 2, 2, 2]] dt 1 2 0 = .ok { exZZ with data := [R0, R1] } := by
    unfold FMPS.expandBody
    have ed' := dAdt_four (chol := chol) (inv := inv) (null := null) O (x := exZZ) (H := [h]) (d := 2) (by omega) rfl hH
    rw [List.map_cons, List.map_nil, ed] at ed'
    have eL' : FMPS.leftNull chol inv null O exZZ ls 0 = .ok (prL, vL) := eL
    have er' : FMPS.envAt rs (((0 : ℕ) : ℤ) + 1) = .ok r := er
    have el' : FMPS.envAt ls (((0 : ℕ) : ℤ) - 1) = .ok l := E.el
    rw [ed', ok_bind, eenv, ok_bind]
    simp only
    rw [show pyGet exZZ.data 0 = .ok exZZ.data[0] from rfl, ok_bind, show pyGet exZZ.data (0 + 1) = .ok exZZ.data[1] from rfl, ok_bind,
      show pyGet [h.reshapeR [2, 2, 2, 2]] 0 = .ok (h.reshapeR [2, 2, 2, 2]) from rfl, ok_bind, el', ok_bind, er', ok_bind, eL', ok_bind, eR, ok_bind, eG, ok_bind]
    simp only [Nat.cast_ofNat, Nat.cast_one]
    rw [etr, ok_bind]
    simp only
    rw [eXY, ok_bind]
    simp only
    rw [edata, show pyGet [b0, b1] 0 = .ok b0 from rfl, ok_bind, show pyGet [b0, b1] (0 + 1) = .ok b1 from rfl, ok_bind]
    rw [show exZZ.data[0].zipNd (· + ·) (b0.smul (dt : ℂ)) = .ok ⟨exZZ.data[0].shape, fun idx => exZZ.data[0].val idx + (b0.smul (dt : ℂ)).val idx⟩ from if_pos sb0.symm, ok_bind, ec0, ok_bind,
      show exZZ.data[1].zipNd (· + ·) (b1.smul (dt : ℂ)) = .ok ⟨exZZ.data[1].shape, fun idx => exZZ.data[1].val idx + (b1.smul (dt : ℂ)).val idx⟩ from if_pos sb1.symm, ok_bind, ec1, ok_bind]
    rfl
  have v0 : ∀ s, R0.val [s, 0, 0] = (if s = 0 then 1 else 0) + dt * b0.val [s, 0, 0] := fun s => vR0 s 0 0 (by omega)
  have v1 : ∀ s, R1.val [s, 0, 0] = (if s = 0 then 1 else 0) + dt * b1.val [s, 0, 0] := fun s => vR1 s 0 0 (by omega)
  have v0' : ∀ s, R0.val [s, 0, 1] = X.val [s, 0, 0] := fun s => vR0' s 0 0
  have v1' : ∀ s, R1.val [s, 1, 0] = Y.val [s, 0, 0] := fun s => vR1' s 0 0
  have hp : ∀ s t, psi [R0, R1] [s, t] = ((if s = 0 then 1 else 0) + dt * b0.val [s, 0, 0]) * ((if t = 0 then 1 else 0) + dt * b1.val [t, 0, 0]) + X.val [s, 0, 0] * Y.val [t, 0, 0] := by
    intro s t
    rw [psi_two (q := 2) sR0 sR1, Finset.sum_range_succ, Finset.sum_range_one, v0, v1, v0', v1']
  refine ⟨{ exZZ with data := [R0, R1], D := 2 }, ?_, rfl, rfl, rfl, ⟨2, sR0, 1, sR1, rfl⟩, ?_, ?_, ?_, ?_⟩
  · unfold FMPS.dynamicalExpand
    rw [show exZZ.d = 2 from rfl, mapM_four hH, ok_bind]
    show FMPS.expandAll chol inv null svd O exZZ [h.reshapeR [2, 2, 2, 2]] dt 2 = _
    unfold FMPS.expandAll
    have : FMPS.expandLoop chol inv null svd O [h.reshapeR [2, 2, 2, 2]] dt exZZ.D 2 (exZZ.data.dropLast.zipIdx.map fun p => (p.2, p.1.dim 1, p.1.dim 2)) exZZ =
        .ok { exZZ with data := [R0, R1] } := by
      show FMPS.expandLoop chol inv null svd O [h.reshapeR [2, 2, 2, 2]] dt 1 2 [(0, 1, 1)] exZZ = _
      rw [FMPS.expandLoop, show pyGet exZZ.data (0 + 1) = .ok exZZ.data[1] from rfl, ok_bind, if_neg (by simp [FMPS.fullBond, exZZ, ND.dim]), eb, ok_bind]
      rfl
    simp only
    rw [this, ok_bind]
    unfold FMPS.structMax
    simp [pyMax, ND.dim, sR0, sR1]
  · rw [hp, vb00, vb10, hX0]
    simp
  · rw [hp, vb00, vb11, hX0]
    simp
    ring
  · rw [hp, vb01, vb10, hY0]
    simp
    ring
  · rw [hp, vb01, vb11, hXY]
    simp
    ring

/-- `grow(H, dt, 2)` from `|00⟩` is one such step -/
theorem grow_zz {h : ND ℂ} (hh : h.shape = [2 * 2, 2 * 2]) {dt : ℝ} (hdt : 0 ≤ dt) (n : ℕ) :
    ∃ y, FMPS.grow chol inv null svd O [h] dt (n + 2) exZZ (some 2) = .ok y ∧ y.D = 2 ∧ MpsChain [2, 2] y.data 1 1 ∧
      psi y.data [0, 0] = 1 ∧ psi y.data [0, 1] = -Complex.I * dt * h.val [1, 0] ∧ psi y.data [1, 0] = -Complex.I * dt * h.val [2, 0] ∧
      psi y.data [1, 1] = (-Complex.I * dt * h.val [2, 0]) * (-Complex.I * dt * h.val [1, 0]) + dt * h.val [2, 1] := by
  obtain ⟨y, e, hD, hL, hd, hc, h1⟩ := dynamicalExpand_zz hchol hinv hnull hsvd O hh hdt
  refine ⟨y, ?_, hD, hc, h1⟩
  rw [FMPS.grow, if_pos (by simp [exZZ]), show min (exZZ.d * exZZ.D) 2 = 2 from rfl, e, ok_bind, FMPS.grow, if_neg (by rw [hD, hL, hd]; simp)]

/-- **C108, violated** The state `|00⟩` has energy zero for `XX + YY`: `H|00⟩ = 0`.  `grow` turns it into `|00⟩ + 2 dt |11⟩`. -/
theorem grow_eigenstate {dt : ℝ} (hdt : 0 ≤ dt) (n : ℕ) : ∃ h : ND ℂ, h.shape = [4, 4] ∧ (∀ i < 4, ∀ j < 4, h.val [i, j] = star (h.val [j, i])) ∧
    (∀ s, InB [2, 2] s → hamAct 2 [h] (psi exZZ.data) s = 0) ∧
    ∃ y, FMPS.grow chol inv null svd O [h] dt (n + 2) exZZ (some 2) = .ok y ∧ psi y.data [0, 0] = 1 ∧ psi y.data [0, 1] = 0 ∧ psi y.data [1, 0] = 0 ∧
      psi y.data [1, 1] = 2 * dt := by
  refine ⟨⟨[4, 4], fun
    | [i, j] => if i + j = 3 ∧ (i = 1 ∨ i = 2) then 2 else 0
    | _ => 0⟩, rfl, ?_, ?_, ?_⟩
  · intro i hi j hj
    interval_cases i <;> interval_cases j <;> simp
  · intro s hs
    match s, hs with
    | [s, t], hs =>
      have hpsi : ∀ s t, psi exZZ.data [s, t] = if s = 0 ∧ t = 0 then 1 else 0 := by
        intro s t
        by_cases hs : s = 0 <;> by_cases ht : t = 0 <;> simp [psi, exZZ, ND.dim, pathProd, sumIdx, hs, ht]
      have hs1 : s < 2 := hs.1
      have ht1 : t < 2 := hs.2.1
      interval_cases s <;> interval_cases t <;> simp [hamAct, gateAct, hpsi, Finset.sum_range_succ]
  · obtain ⟨y, e, -, -, h0, h1, h2, h3⟩ := grow_zz hchol hinv hnull hsvd O (h := ⟨[4, 4], fun
      | [i, j] => if i + j = 3 ∧ (i = 1 ∨ i = 2) then 2 else 0
      | _ => 0⟩) rfl hdt n
    refine ⟨y, e, h0, by rw [h1]; simp, by rw [h2]; simp, by rw [h3]; simp; ring⟩

/-- **C108, violated** For `XX`, where `-i H|00⟩ = -i |11⟩`, the new part is `dt |11⟩`: a step of imaginary time. -/
theorem grow_phase {dt : ℝ} (hdt : 0 ≤ dt) (n : ℕ) : ∃ h : ND ℂ, h.shape = [4, 4] ∧ (∀ i < 4, ∀ j < 4, h.val [i, j] = star (h.val [j, i])) ∧
    (∀ s, InB [2, 2] s → hamAct 2 [h] (psi exZZ.data) s = if s = [1, 1] then 1 else 0) ∧
    ∃ y, FMPS.grow chol inv null svd O [h] dt (n + 2) exZZ (some 2) = .ok y ∧ psi y.data [0, 0] = 1 ∧ psi y.data [0, 1] = 0 ∧ psi y.data [1, 0] = 0 ∧
      psi y.data [1, 1] = dt := by
  refine ⟨⟨[4, 4], fun
    | [i, j] => if i + j = 3 then 1 else 0
    | _ => 0⟩, rfl, ?_, ?_, ?_⟩
  · intro i hi j hj
    interval_cases i <;> interval_cases j <;> simp
  · intro s hs
    match s, hs with
    | [s, t], hs =>
      have hpsi : ∀ s t, psi exZZ.data [s, t] = if s = 0 ∧ t = 0 then 1 else 0 := by
        intro s t
        by_cases hs : s = 0 <;> by_cases ht : t = 0 <;> simp [psi, exZZ, ND.dim, pathProd, sumIdx, hs, ht]
      have hs1 : s < 2 := hs.1
      have ht1 : t < 2 := hs.2.1
      interval_cases s <;> interval_cases t <;> simp [hamAct, gateAct, hpsi, Finset.sum_range_succ]
  · obtain ⟨y, e, -, -, h0, h1, h2, h3⟩ := grow_zz hchol hinv hnull hsvd O (h := ⟨[4, 4], fun
      | [i, j] => if i + j = 3 then 1 else 0
      | _ => 0⟩) rfl hdt n
    refine ⟨y, e, h0, by rw [h1]; simp, by rw [h2]; simp, by rw [h3]; simp⟩

end

/-- routines as assumed exist -/
example : ∃ chol inv null svd, CholTriLaw chol ∧ InvLaw inv ∧ NullLaw null ∧ SVDLaw svd := by
  obtain ⟨chol, hchol⟩ := cholTriLaw_exists
  obtain ⟨inv, hinv⟩ := invLaw_exists
  obtain ⟨null, hnull⟩ := nullLaw_exists
  obtain ⟨svd, hsvd⟩ := svdLaw_exists
  exact ⟨chol, inv, null, svd, hchol, hinv, hnull, hsvd⟩

/-- **C109** `Trajectory.dynamical_expand(D, dt, H)`: a Hamiltonian given to the call is used only when it is that of the trajectory.  A trajectory without
one raises `TypeError` although a Hamiltonian is given; with one, the state is that of `expand` for the trajectory's own. -/
theorem trajExpand_own (expand : FMPS ℂ → List (ND ℂ) → ℝ → ℕ → Py (FMPS ℂ)) (H0 H : Option (List (ND ℂ))) (tr tr' : Tdvp.Traj) (D : ℕ) (dt : ℝ) :
    (Tdvp.trajExpand expand none H tr D dt = .error (if H.isSome then .typeError else .assertionError)) ∧
    (Tdvp.trajExpand expand H0 H tr D dt = .ok tr' → ∃ H1, H0 = some H1 ∧ expand tr.mps H1 dt D = .ok tr'.mps ∧ tr.Ds.dropLast ++ [D] = tr'.Ds) := by
  constructor
  · cases H <;> rfl
  · intro h
    cases H0 with
    | none => cases H <;> simp [Tdvp.trajExpand, guardPy] at h
    | some H1 =>
      refine ⟨H1, rfl, ?_⟩
      have h2 : (expand tr.mps H1 dt D >>= fun mps => Tdvp.setLast tr.Ds D >>= fun Ds => (Except.ok { tr with mps := mps, Ds := Ds } : Py Tdvp.Traj)) = .ok tr' := by
        cases H <;> exact h
      obtain ⟨mps, e1, h3⟩ := bind_eq_ok h2
      obtain ⟨Ds, e2, h4⟩ := bind_eq_ok h3
      injection h4 with h4
      subst h4
      refine ⟨e1, ?_⟩
      unfold Tdvp.setLast at e2
      split_ifs at e2
      injection e2

end Xmps
