import Verif.Lemmas.F2Site

/-!
# The environments, null vectors and roots `F2` works with
-/

namespace Xmps

open Finset Spec Xmps.Ncon

theorem diagM_range {f : ℕ → ND ℂ} {L i : ℕ} (hi : i < L) : pyGet ((List.range L).map f) i = .ok (f i) := by
  rw [pyGet_ok (by simpa using hi)]
  simp

theorem diagM_rangeI {f : ℕ → ND ℂ} {L i : ℕ} (hi : i < L) (h0 : 0 < i) : pyGetI ((List.range L).map f) ((i : ℤ) - 1) = .ok (f (i - 1)) := by
  unfold pyGetI
  rw [if_pos (by omega), show ((i : ℤ) - 1).toNat = i - 1 by omega, diagM_range (by omega)]

theorem diagM_rangeN {f : ℕ → ND ℂ} {L : ℕ} (hL : 0 < L) : pyGetI ((List.range L).map f) ((0 : ℤ) - 1) = .ok (f (L - 1)) := by
  unfold pyGetI
  rw [if_neg (by omega), if_pos (by simp; omega), show ((0 : ℤ) - 1 + (((List.range L).map f).length : ℕ)).toNat = L - 1 by simp; omega, diagM_range (by omega)]

/-- roots of positive diagonal matrices and their inverses -/
def DiagRoots (chol inv : ND ℂ → Py (ND ℂ)) : Prop :=
  ∀ (l : ND ℂ) (p : ℕ) (lam : ℕ → ℝ), l.shape = [p, p] → (∀ i < p, ∀ j < p, l.val [i, j] = if i = j then (lam i : ℂ) else 0) → (∀ i < p, 0 < lam i) →
    ∃ X Y, chol l = .ok X ∧ inv X = .ok Y ∧ X.shape = [p, p] ∧ Y.shape = [p, p] ∧
      (∀ i < p, ∀ j < p, X.val [i, j] = if i = j then ((Real.sqrt (lam i) : ℝ) : ℂ) else 0) ∧
      ∀ i < p, ∀ j < p, Y.val [i, j] = if i = j then (((Real.sqrt (lam i))⁻¹ : ℝ) : ℂ) else 0

theorem f2Ctx_gen {chol' inv' : ND ℂ → Py (ND ℂ)} (hroot : DiagRoots chol' inv') {chol inv null : ND ℂ → Py (ND ℂ)} (hchol : CholTriLaw chol) (hinv : InvLaw inv) (hnull : NullLaw null) (O : SetOrder)
    {x : FMPS ℂ} {L d : ℕ} (hd : 0 < d) (hx : x.Holds (List.replicate L d)) (hf : FullEnvs (List.replicate L d) x.data) :
    ∃ ls rs E, x.getEnvs = .ok (ls, rs) ∧ FMPS.invEnvs chol' inv' x.L ls rs = .ok E ∧
      ∃ (pr vL l r : ℕ → ND ℂ) (p q k : ℕ → ℕ) (lam rho : ℕ → ℕ → ℝ),
        (∀ i < L, FMPS.leftNull chol inv null O x ls i = .ok (pr i, vL i)) ∧
        ((List.range x.L).mapM fun n => FMPS.leftNull chol inv null O x ls n) = .ok ((List.range L).map fun n => (pr n, vL n)) ∧
        F2Ctx L d x ls rs E (pairing (List.replicate L d) (psi x.data) (psi x.data)).re vL l r p q k lam rho := by
  obtain ⟨ls, rs, e, pr, vL, l, r, p, q, k, lam, rho, hs, -⟩ := tangent_facts hchol hinv hnull O hd hx hf
  obtain ⟨ls', rs', e', hcut⟩ := getEnvs_full hx hf
  rw [e] at e'
  obtain ⟨rfl, rfl⟩ : ls = ls' ∧ rs = rs' := by simpa using e'
  have hlen := hx.chain.length_eq
  rw [List.length_replicate] at hlen
  have hxL : x.L = L := by rw [hx.len]; simp
  -- the left environment of the whole chain
  obtain ⟨lN, rN, lamN, rhoN, hN⟩ := hcut L (by simp) 1 (by
    rw [List.take_of_length_le (by simp), List.take_of_length_le (by omega)]
    exact hx.chain)
  have hNv : ((lamN 0 : ℝ) : ℂ) = pairing (List.replicate L d) (psi x.data) (psi x.data) := by
    have := hN.left 0 (by omega) 0 (by omega)
    rw [if_pos rfl, List.take_of_length_le (by simp), List.take_of_length_le (by omega)] at this
    rw [← this]
    unfold leftEnv pairing
    exact sumIdx_congr fun s hs => by rw [psi_eq_amp hx.chain hx.data_ne hs.length_eq]
  have hL0 : 0 < L := by
    have := hx.ne
    rcases Nat.eq_zero_or_pos L with rfl | h
    · simp at this
    · exact h
  have hR : ∀ i, ∃ X Y, i < L → (do
      let r ← FMPS.envAt rs (i : ℤ)
      chol' r : Py (ND ℂ)) = .ok X ∧ (do
      let r ← FMPS.envAt rs (i : ℤ)
      let X ← chol' r
      inv' X : Py (ND ℂ)) = .ok Y ∧ DiagM X (q i) (fun a => ((Real.sqrt (rho i a) : ℝ) : ℂ)) ∧
      DiagM Y (q i) (fun a => (((Real.sqrt (rho i a))⁻¹ : ℝ) : ℂ)) := by
    intro i
    by_cases hi : i < L
    · have h := (hs i (by omega)).2
      obtain ⟨X, Y, e1, e2, hX, hY, hXv, hYv⟩ := hroot _ _ _ h.hr h.hrv h.pos'
      exact ⟨X, Y, fun _ => ⟨by rw [h.er, ok_bind, e1], by rw [h.er, ok_bind, e1, ok_bind, e2], ⟨hX, hXv⟩, ⟨hY, hYv⟩⟩⟩
    · exact ⟨zerosND [], zerosND [], fun h => absurd h hi⟩
  have hLf : ∀ i, ∃ X Y, i < L → (do
      let l ← FMPS.envAt ls (i : ℤ)
      chol' l : Py (ND ℂ)) = .ok X ∧ (do
      let l ← FMPS.envAt ls (i : ℤ)
      let X ← chol' l
      inv' X : Py (ND ℂ)) = .ok Y ∧
      (i + 1 < L → DiagM X (p (i + 1)) (fun a => ((Real.sqrt (lam (i + 1) a) : ℝ) : ℂ)) ∧
        DiagM Y (p (i + 1)) (fun a => (((Real.sqrt (lam (i + 1) a))⁻¹ : ℝ) : ℂ))) ∧
      (i + 1 = L → DiagM X 1 (fun a => ((Real.sqrt (lamN a) : ℝ) : ℂ)) ∧ DiagM Y 1 (fun a => (((Real.sqrt (lamN a))⁻¹ : ℝ) : ℂ))) := by
    intro i
    by_cases hi : i + 1 < L
    · have h := (hs (i + 1) (by omega)).2
      have el := h.el
      rw [show ((i + 1 : ℕ) : ℤ) - 1 = i by push_cast; ring] at el
      obtain ⟨X, Y, e1, e2, hX, hY, hXv, hYv⟩ := hroot _ _ _ h.hl h.hlv h.pos
      exact ⟨X, Y, fun _ => ⟨by rw [el, ok_bind, e1], by rw [el, ok_bind, e1, ok_bind, e2], fun _ => ⟨⟨hX, hXv⟩, ⟨hY, hYv⟩⟩, fun h => by omega⟩⟩
    · by_cases hi' : i + 1 = L
      · have el := hN.el
        rw [show (L : ℤ) - 1 = i by omega] at el
        obtain ⟨X, Y, e1, e2, hX, hY, hXv, hYv⟩ := hroot _ _ _ hN.hl (fun a ha b hb => (hN.hlv a ha b hb).trans (hN.left a ha b hb)) hN.pos
        exact ⟨X, Y, fun _ => ⟨by rw [el, ok_bind, e1], by rw [el, ok_bind, e1, ok_bind, e2], fun h => by omega, fun _ => ⟨⟨hX, hXv⟩, ⟨hY, hYv⟩⟩⟩⟩
      · exact ⟨zerosND [], zerosND [], fun h => by omega⟩
  choose X Y hXY using hR
  choose Z W hZW using hLf
  have hp0 : p 0 = 1 := by
    have h := (hs 0 (by omega)).2.hp
    simpa [MpsChain] using h.symm
  have hlam0 : lam 0 0 = 1 := by
    have h := (hs 0 (by omega)).2.left 0 (by omega) 0 (by omega)
    rw [if_pos rfl] at h
    have h' : (1 : ℂ) = (lam 0 0 : ℂ) := by simpa [leftEnv, sumIdx_nil, amp] using h
    exact_mod_cast h'.symm
  refine ⟨ls, rs, ⟨(List.range L).map Y, (List.range L).map W, (List.range L).map X, (List.range L).map Z⟩, e, ?_, pr, vL, l, r, p, q, k, lam, rho,
    fun i hi => (hs i (by omega)).1, ?_, hx, fun i hi => (hs i hi).2, ?_, ?_, ?_, ?_, ?_⟩
  · unfold FMPS.invEnvs
    rw [hxL, mapM_ok (g := Y) (fun i hi => (hXY i (List.mem_range.1 hi)).2.1), ok_bind,
      mapM_ok (g := W) (fun i hi => (hZW i (List.mem_range.1 hi)).2.1), ok_bind,
      mapM_ok (g := X) (fun i hi => (hXY i (List.mem_range.1 hi)).1), ok_bind,
      mapM_ok (g := Z) (fun i hi => (hZW i (List.mem_range.1 hi)).1), ok_bind]
  · rw [hxL]
    exact mapM_ok fun n hn => (hs n (by rw [List.mem_range] at hn; omega)).1
  · intro i hi
    exact ⟨Y i, diagM_range hi, (hXY i hi).2.2.2⟩
  · intro i hi
    exact ⟨X i, diagM_range hi, (hXY i hi).2.2.1⟩
  · intro i hi h0
    obtain ⟨i, rfl⟩ : ∃ i', i = i' + 1 := ⟨i - 1, by omega⟩
    exact ⟨_, diagM_rangeI hi h0, ((hZW i (by omega)).2.2.1 hi).2⟩
  · intro i hi
    rcases Nat.eq_zero_or_pos i with rfl | h0
    · refine ⟨_, diagM_rangeN hL0, ?_⟩
      rw [hp0]
      obtain ⟨g1, g2⟩ := ((hZW (L - 1) (by omega)).2.2.2 (by omega)).1
      refine ⟨g1, ?_⟩
      intro a ha b hb
      rw [g2 a ha b hb]
      obtain rfl : a = 0 := by omega
      obtain rfl : b = 0 := by omega
      simp [hlam0, ← hNv]
    · obtain ⟨i, rfl⟩ : ∃ i', i = i' + 1 := ⟨i - 1, by omega⟩
      refine ⟨_, diagM_rangeI hi h0, ?_⟩
      rw [if_neg (by omega)]
      simpa using ((hZW i (by omega)).2.2.1 hi).1
  · intro h0
    refine ⟨_, fun a => (((Real.sqrt (lamN a))⁻¹ : ℝ) : ℂ), diagM_rangeN hL0, ?_⟩
    rw [hp0]
    exact ((hZW (L - 1) (by omega)).2.2.2 (by omega)).2

theorem f2Ctx_exists {chol inv null : ND ℂ → Py (ND ℂ)} (hchol : CholTriLaw chol) (hinv : InvLaw inv) (hnull : NullLaw null) (O : SetOrder)
    {x : FMPS ℂ} {L d : ℕ} (hd : 0 < d) (hx : x.Holds (List.replicate L d)) (hf : FullEnvs (List.replicate L d) x.data) :
    ∃ ls rs E, x.getEnvs = .ok (ls, rs) ∧ FMPS.invEnvs chol inv x.L ls rs = .ok E ∧
      ∃ (pr vL l r : ℕ → ND ℂ) (p q k : ℕ → ℕ) (lam rho : ℕ → ℕ → ℝ),
        (∀ i < L, FMPS.leftNull chol inv null O x ls i = .ok (pr i, vL i)) ∧
        ((List.range x.L).mapM fun n => FMPS.leftNull chol inv null O x ls n) = .ok ((List.range L).map fun n => (pr n, vL n)) ∧
        F2Ctx L d x ls rs E (pairing (List.replicate L d) (psi x.data) (psi x.data)).re vL l r p q k lam rho := by
  exact f2Ctx_gen (fun _ _ _ h1 h2 h3 => inv_chol_diag hchol hinv h1 h2 h3) hchol hinv hnull O hd hx hf

end Xmps
