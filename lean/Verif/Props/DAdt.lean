import Verif.Lemmas.DAdtSite

/-!
# Theorems about `dA_dt` (C48, C64)

`dA_dt(H)` at a chain whose environments are diagonal with positive entries: every tensor of the result is in the left gauge, and the
tangent vector is the projection of `-i H ψ` to the tangent vectors in the left gauge (the time-dependent variational principle).
-/

namespace Xmps

open Finset Spec Xmps.Ncon

/-! ### `pairing` -/

theorem pairing_congr {ds : List ℕ} {f f' g g' : List ℕ → ℂ} (hf : ∀ s, InB ds s → f s = f' s) (hg : ∀ s, InB ds s → g s = g' s) :
    pairing ds f g = pairing ds f' g' :=
  sumIdx_congr fun s hs => by rw [hf s hs, hg s hs]

theorem pairing_sum (ds : List ℕ) (f : List ℕ → ℂ) (t : Finset ℕ) (g : ℕ → List ℕ → ℂ) :
    pairing ds f (fun s => ∑ j ∈ t, g j s) = ∑ j ∈ t, pairing ds f (g j) := by
  unfold pairing
  simp only [Finset.mul_sum, ← sumIdx_finset_sum]

theorem pairing_sum_left (ds : List ℕ) (g : List ℕ → ℂ) (t : Finset ℕ) (f : ℕ → List ℕ → ℂ) :
    pairing ds (fun s => ∑ j ∈ t, f j s) g = ∑ j ∈ t, pairing ds (f j) g := by
  unfold pairing
  simp only [star_sum, Finset.sum_mul, ← sumIdx_finset_sum]

theorem pairing_smul (ds : List ℕ) (f g : List ℕ → ℂ) (c : ℂ) : pairing ds f (fun s => c * g s) = c * pairing ds f g := by
  unfold pairing
  rw [← sumIdx_mul_left]
  exact sumIdx_congr fun s _ => by ring

theorem pairing_star (ds : List ℕ) (f g : List ℕ → ℂ) : star (pairing ds f g) = pairing ds g f := by
  unfold pairing
  rw [sumIdx_star]
  exact sumIdx_congr fun s _ => by rw [star_mul', star_star, mul_comm]

theorem pairing_zero (ds : List ℕ) (f : List ℕ → ℂ) : pairing ds f (fun _ => 0) = 0 := by
  unfold pairing
  simp only [mul_zero, sumIdx_zero]

/-! ### the loop -/

theorem dAdtLoop_ok {inv : ND ℂ → Py (ND ℂ)} {O : SetOrder} {x : FMPS ℂ} {ls rs Rs : List (ND ℂ)} {pr : ND ℂ} {i d p q : ℕ}
    (F : ℕ → ℕ → ℕ → ℕ → ℂ) : ∀ (hs : List (ND ℂ × ℕ)) (B : ND ℂ) (e : List ℂ), B.shape = [d, p, q] →
      (∀ hm ∈ hs, hm.2 ≤ i → ∃ T e, FMPS.dAdtTerm inv O x ls rs pr Rs i hm.2 hm.1 = .ok (T, e) ∧ T.shape = [d, p, q] ∧
        ∀ s < d, ∀ a < p, ∀ c < q, T.val [s, a, c] = F hm.2 s a c) →
      ∃ B' e', FMPS.dAdtLoop inv O x ls rs pr Rs i hs B e = .ok (B', e') ∧ B'.shape = [d, p, q] ∧
        ∀ s < d, ∀ a < p, ∀ c < q, B'.val [s, a, c] = B.val [s, a, c] + (hs.map fun hm => if hm.2 ≤ i then F hm.2 s a c else 0).sum
  | [], B, e, hB, _ => ⟨B, e, rfl, hB, by intros; simp⟩
  | (h, m) :: hs, B, e, hB, hh => by
    unfold FMPS.dAdtLoop
    by_cases hm : m ≤ i
    · obtain ⟨T, e1, w1, w2, w3⟩ := hh (h, m) (by simp) hm
      rw [if_neg (by omega)]
      have w1' : FMPS.dAdtTerm inv O x ls rs pr Rs i m h = .ok (T, e1) := w1
      rw [w1', ok_bind]
      simp only [ND.zipNd, hB, w2, if_true, ok_bind]
      obtain ⟨B', e', v1, v2, v3⟩ := dAdtLoop_ok F hs ⟨[d, p, q], fun idx => B.val idx + T.val idx⟩ (e ++ [e1]) rfl
        (fun hm h' => hh hm (List.mem_cons_of_mem _ h'))
      refine ⟨B', e', v1, v2, ?_⟩
      intro s hs' a ha c hc
      rw [v3 s hs' a ha c hc, List.map_cons, List.sum_cons, if_pos hm, ← w3 s hs' a ha c hc]
      exact add_assoc _ _ _
    · rw [if_pos (by omega)]
      obtain ⟨B', e', v1, v2, v3⟩ := dAdtLoop_ok F hs B e hB (fun hm h' => hh hm (List.mem_cons_of_mem _ h'))
      refine ⟨B', e', v1, v2, ?_⟩
      intro s hs' a ha c hc
      rw [v3 s hs' a ha c hc, List.map_cons, List.sum_cons, if_neg hm, zero_add]

theorem zipIdx_sum (H : List (ND ℂ)) (g : ℕ → ℂ) : (H.zipIdx.reverse.map fun hm => g hm.2).sum = ∑ m ∈ range H.length, g m := by
  rw [List.map_reverse, List.sum_reverse]
  have : H.zipIdx.map (fun hm => g hm.2) = (List.range H.length).map g := by
    apply List.ext_getElem
    · simp
    · intro i h1 h2
      simp
  rw [this]
  rfl

/-! ### one site -/

/-- the tangent tensor `B(i)`: zero if the site has no tangent space, otherwise the projected sum over the terms at or before the site -/
theorem dAdtSite_ok {inv : ND ℂ → Py (ND ℂ)} (hinv : InvLaw inv) (O : SetOrder) {x : FMPS ℂ} {L d i p q : ℕ} (hx : x.Holds (List.replicate L d))
    {ls rs prs : List (ND ℂ)} {pr : ND ℂ} {H : List (ND ℂ)} (hL : H.length < L) (hH : ∀ h ∈ H, h.shape = [d * d, d * d])
    (henv : ∀ k ≤ L, ∀ p, MpsChain ((List.replicate L d).take k) (x.data.take k) 1 p → ∃ l r lam rho, EnvCut (List.replicate L d) x.data ls rs k p l r lam rho)
    (hi : i < x.data.length) (hp : MpsChain ((List.replicate L d).take i) (x.data.take i) 1 p) (hA : x.data[i].shape = [d, p, q])
    (epr : pyGet prs i = .ok pr) (hpr : pr.shape = [d, p, d, p]) {rho : ℕ → ℝ} (hrho : ∀ a < q, 0 < rho a)
    (hrv : ∀ a < q, ∀ b < q, rightEnv ((List.replicate L d).drop (i + 1)) (x.data.drop (i + 1)) a b = if a = b then (rho a : ℂ) else 0) :
    ∃ B e, x.dAdtSite inv O ls rs prs H i = .ok (B, e) ∧ B.shape = [d, p, q] ∧ ∀ s < d, ∀ a < p, ∀ c < q,
      B.val [s, a, c] = if d * p = q then 0 else ∑ m ∈ range H.length, if m ≤ i then
        -Complex.I * ∑ t ∈ range d, ∑ b ∈ range p, pr.val [s, a, t, b] *
          (envAmp ((List.replicate L d).take i) (x.data.take i) ((List.replicate L d).drop (i + 1)) (x.data.drop (i + 1))
            (gateAct d (H.getD m ⟨[], fun _ => 0⟩) m (m + 1) (psi x.data)) t b c * (rho c : ℂ)⁻¹) else 0 := by
  have hlen := hx.chain.length_eq
  rw [List.length_replicate] at hlen
  have hxd : x.d = d := by
    rw [hx.d]
    obtain ⟨L, rfl⟩ : ∃ L', L = L' + 1 := ⟨L - 1, by omega⟩
    simp [List.replicate_succ]
  have eH : (H.mapM fun h => h.reshape [x.d, x.d, x.d, x.d]) = .ok (H.map fun h => h.reshapeR [d, d, d, d]) := by
    refine mapM_ok ?_
    intro h hh
    rw [hxd, ND.reshape_ok (by rw [hH h hh]; simp [mul_assoc])]
  unfold FMPS.dAdtSite
  rw [pyGet_ok hi, ok_bind]
  simp only
  rw [eH, ok_bind, hxd, dim1 hA, dim2 hA]
  by_cases hq : d * p = q
  · rw [if_pos hq]
    refine ⟨_, _, rfl, by simp [ND.smul, zerosND, hA], ?_⟩
    intro s _ a _ c _
    rw [if_pos hq]
    simp [ND.smul, zerosND]
  · rw [if_neg hq, epr, ok_bind]
    obtain ⟨R, f1, f2, f3⟩ := nc_eval O (AA := [pr, x.data[i]]) (v := [[-3, -4, 1, -2], [1, -1, -5]])
      (dimOf [(1, d), (-1, p), (-2, p), (-3, d), (-4, p), (-5, q)]) [1] [-1, -2, -3, -4, -5]
      ⟨by simp, by simp [hpr, hA, dimOf, List.lookup], by simp, by simp, by decide, by decide, by decide, by decide, by decide⟩
      (by decide) (by decide)
    have hRsh : R.shape = p :: p :: [d, p, q] := by rw [f2]; simp [dimOf, List.lookup]
    obtain ⟨Rs, w1, -⟩ := FMPS.leftTransfer_spec hx (j := 0) (i := i) (by omega) (by simp; omega) hp hRsh
    rw [f1, ok_bind, w1, ok_bind]
    obtain ⟨B, e, v1, v2, v3⟩ := dAdtLoop_ok (inv := inv) (O := O) (x := x) (ls := ls) (rs := rs) (Rs := Rs) (pr := pr) (i := i)
      (d := d) (p := p) (q := q) (fun m s a c => -Complex.I * ∑ t ∈ range d, ∑ b ∈ range p, pr.val [s, a, t, b] *
          (envAmp ((List.replicate L d).take i) (x.data.take i) ((List.replicate L d).drop (i + 1)) (x.data.drop (i + 1))
            (gateAct d (H.getD m ⟨[], fun _ => 0⟩) m (m + 1) (psi x.data)) t b c * (rho c : ℂ)⁻¹))
      ((H.map fun h => h.reshapeR [d, d, d, d]).zipIdx.reverse) ((zerosND x.data[i].shape).smul (-Complex.I)) []
      (by simp [ND.smul, zerosND, hA]) (by
        rintro ⟨h4, m⟩ hm hmi
        rw [List.mem_reverse] at hm
        obtain ⟨hm1, hm2⟩ := List.mem_zipIdx' hm
        rw [List.length_map] at hm1
        simp only at hm1 hm2 hmi
        have : Four d (H.getD m ⟨[], fun _ => 0⟩) h4 := by
          rw [hm2, List.getElem_map]
          simp only [List.getD_eq_getElem?_getD, List.getElem?_eq_getElem hm1, Option.getD_some]
          exact four_reshape (hH _ (List.getElem_mem hm1))
        exact term_any hinv O hx henv hi hp hA f1 w1 hpr hrho hrv this hmi (by omega))
    refine ⟨B, e, v1, v2, ?_⟩
    intro s hs a ha c hc
    rw [v3 s hs a ha c hc, if_neg hq]
    refine (congrArg₂ (· + ·) (x' := (0 : ℂ)) (by simp [ND.smul, zerosND]) ((zipIdx_sum (H.map fun h : ND ℂ => h.reshapeR [d, d, d, d]) (fun m => if m ≤ i then
      -Complex.I * ∑ t ∈ range d, ∑ b ∈ range p, pr.val [s, a, t, b] *
          (envAmp ((List.replicate L d).take i) (x.data.take i) ((List.replicate L d).drop (i + 1)) (x.data.drop (i + 1))
            (gateAct d (H.getD m ⟨[], fun _ => 0⟩) m (m + 1) (psi x.data)) t b c * (rho c : ℂ)⁻¹) else 0)))).trans ?_
    rw [List.length_map]
    exact zero_add _

end Xmps
