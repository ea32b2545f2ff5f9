import Verif.Lemmas.F2Ctx

/-!
# `F2`: mixed second derivatives (C89)
-/

namespace Xmps

open Finset Spec Xmps.Ncon

/-- a pairing is conjugate linear in each tensor -/
theorem pairing_set_linear {L d j p q k k' : ℕ} {As : List (ND ℂ)} (h : MpsChain (List.replicate L d) As 1 1) (hj : j < As.length) (hA : As[j].shape = [d, p, q])
    {B : ND ℂ} (hB : B.shape = [d, p, q]) {U : ℕ → ℕ → ND ℂ} (hU : ∀ a b, (U a b).shape = [d, p, q]) {X : ℕ → ℕ → ℂ}
    (hv : ∀ s < d, ∀ al < p, ∀ be < q, B.val [s, al, be] = ∑ a ∈ range k, ∑ b ∈ range k', X a b * (U a b).val [s, al, be]) (f : List ℕ → ℂ) :
    pairing (List.replicate L d) (psi (As.set j B)) f = ∑ a ∈ range k, ∑ b ∈ range k', star (X a b) * pairing (List.replicate L d) (psi (As.set j (U a b))) f := by
  obtain ⟨p', q', h1, h2, h3, h4⟩ := chain_site h hj
  rw [hA] at h2
  obtain ⟨rfl, rfl⟩ : p = p' ∧ q = q' := by simpa using h2
  have hlen := h.length_eq
  rw [List.length_replicate] at hlen
  have hds := replicate_cut (L := L) (d := d) (i := j) (by omega)
  have key : ∀ W : ND ℂ, W.shape = [d, p, q] → pairing (List.replicate L d) (psi (As.set j W)) f = ∑ t ∈ range d, ∑ b ∈ range p, ∑ c ∈ range q,
      star (W.val [t, b, c]) * envAmp ((List.replicate L d).take j) (As.take j) ((List.replicate L d).drop (j + 1)) (As.drop (j + 1)) f t b c := by
    intro W hW
    rw [set_cut hj]
    conv_lhs => rw [hds]
    exact inner_site h1 hW h4 f
  rw [key B hB]
  simp only [key _ (hU _ _), Finset.mul_sum]
  symm
  rw [sum_swap2]
  refine Finset.sum_congr rfl fun t ht => ?_
  rw [sum_swap2]
  refine Finset.sum_congr rfl fun al hal => ?_
  rw [sum_swap2]
  refine Finset.sum_congr rfl fun be hbe => ?_
  rw [hv t (Finset.mem_range.1 ht) al (Finset.mem_range.1 hal) be (Finset.mem_range.1 hbe)]
  simp only [star_sum, star_mul', Finset.sum_mul]
  exact Finset.sum_congr rfl fun a _ => Finset.sum_congr rfl fun b _ => by ring

section
variable {L d : ℕ} {x : FMPS ℂ} {ls rs : List (ND ℂ)} {E : FMPS.InvEnvs} {N : ℝ} {vL l r : ℕ → ND ℂ} {p q k : ℕ → ℕ} {lam rho : ℕ → ℕ → ℝ} {i j : ℕ}

theorem F2Ctx.unit_sum (c : F2Ctx L d x ls rs E N vL l r p q k lam rho) (X : ℕ → ℕ → ℂ) {s al be : ℕ} (hbe : be < q i) :
    siteTensor (k i) (vL i) (lam i) (rho i) X s al be = ∑ a ∈ range (k i), ∑ b ∈ range (q i), X a b * (c.unit i a b).val [s, al, be] := by
  unfold siteTensor F2Ctx.unit tanUnit
  simp only
  rw [Finset.mul_sum, Finset.sum_mul]
  refine Finset.sum_congr rfl fun a _ => ?_
  rw [Finset.sum_eq_single be]
  · rw [if_pos rfl]
    ring
  · intro b _ hb
    rw [if_neg (Ne.symm hb)]
    ring
  · intro hn
    exact absurd (Finset.mem_range.2 hbe) hn

/-- `G_` contracted with the coordinates of two tangent tensors, `i < j` -/
theorem F2Ctx.value_lt (c : F2Ctx L d x ls rs E N vL l r p q k lam rho) (O : SetOrder) (hij : i < j) (hj : j < L) {H : List (ND ℂ)} (hL : H.length < L)
    (hH : ∀ h ∈ H, h.shape = [d * d, d * d]) :
    ∃ G, FMPS.f2Sorted O x ls ((List.range L).map vL) E H i j = .ok G ∧ G.shape = [k i, q i, k j, q j] ∧
      ∀ (X Y : ℕ → ℕ → ℂ) (Bi Bj : ND ℂ), Bi.shape = [d, p i, q i] → Bj.shape = [d, p j, q j] →
        (∀ s < d, ∀ a < p i, ∀ b < q i, Bi.val [s, a, b] = siteTensor (k i) (vL i) (lam i) (rho i) X s a b) →
        (∀ s < d, ∀ a < p j, ∀ b < q j, Bj.val [s, a, b] = siteTensor (k j) (vL j) (lam j) (rho j) Y s a b) →
        ∑ a ∈ range (k i), ∑ b ∈ range (q i), ∑ c ∈ range (k j), ∑ e ∈ range (q j), star (X a b) * star (Y c e) * G.val [a, b, c, e] =
          (if i = 0 then ((Real.sqrt N : ℝ) : ℂ) else 1) *
            pairing (List.replicate L d) (psi ((x.data.set i Bi).set j Bj)) (hamAct d H (psi x.data)) := by
  have hl := c.len
  obtain ⟨G, e, hG, hGv⟩ := c.sorted O hij hj hL hH
  refine ⟨G, e, hG, ?_⟩
  intro X Y Bi Bj hBi hBj hX hY
  have hc1 : MpsChain (List.replicate L d) (x.data.set j Bj) 1 1 := chain_set (by omega) c.hx.chain (by rw [hBj, (c.site j (by omega)).hA])
  have h1 := pairing_set_linear (j := i) (k := k i) (k' := q i) hc1 (by simp; omega) (by rw [List.getElem_set_ne (by omega)]; exact (c.site i (by omega)).hA) hBi
    (U := fun a b => c.unit i a b) (fun _ _ => rfl) (X := X) (fun s hs a ha b hb => by rw [hX s hs a ha b hb, c.unit_sum X hb]) (hamAct d H (psi x.data))
  rw [List.set_comm _ _ (by omega : i ≠ j), h1, Finset.mul_sum]
  refine Finset.sum_congr rfl fun a ha => ?_
  rw [Finset.mul_sum]
  refine Finset.sum_congr rfl fun b hb => ?_
  have hc2 : MpsChain (List.replicate L d) (x.data.set i (c.unit i a b)) 1 1 := chain_set (by omega) c.hx.chain (by rw [(c.site i (by omega)).hA]; rfl)
  have h2 := pairing_set_linear (j := j) (k := k j) (k' := q j) hc2 (by simp; omega) (by rw [List.getElem_set_ne (by omega)]; exact (c.site j (by omega)).hA) hBj
    (U := fun a b => c.unit j a b) (fun _ _ => rfl) (X := Y) (fun s hs a ha b hb => by rw [hY s hs a ha b hb, c.unit_sum Y hb]) (hamAct d H (psi x.data))
  rw [List.set_comm _ _ (by omega : j ≠ i), h2, Finset.mul_sum, Finset.mul_sum]
  refine Finset.sum_congr rfl fun c1 hc1 => ?_
  rw [Finset.mul_sum, Finset.mul_sum]
  refine Finset.sum_congr rfl fun e1 he1 => ?_
  rw [hGv a (Finset.mem_range.1 ha) b (Finset.mem_range.1 hb) c1 (Finset.mem_range.1 hc1) e1 (Finset.mem_range.1 he1)]
  ring

/-- `G_` contracted with the coordinates of two tangent tensors -/
theorem F2Ctx.value (c : F2Ctx L d x ls rs E N vL l r p q k lam rho) (O : SetOrder) (hij : i ≠ j) (hi : i < L) (hj : j < L) {H : List (ND ℂ)}
    (hL : H.length < L) (hH : ∀ h ∈ H, h.shape = [d * d, d * d]) :
    ∃ G, FMPS.f2With O x ls ((List.range L).map vL) E H i j = .ok G ∧ G.shape = [k i, q i, k j, q j] ∧
      ∀ (X Y : ℕ → ℕ → ℂ) (Bi Bj : ND ℂ), Bi.shape = [d, p i, q i] → Bj.shape = [d, p j, q j] →
        (∀ s < d, ∀ a < p i, ∀ b < q i, Bi.val [s, a, b] = siteTensor (k i) (vL i) (lam i) (rho i) X s a b) →
        (∀ s < d, ∀ a < p j, ∀ b < q j, Bj.val [s, a, b] = siteTensor (k j) (vL j) (lam j) (rho j) Y s a b) →
        ∑ a ∈ range (k i), ∑ b ∈ range (q i), ∑ c ∈ range (k j), ∑ e ∈ range (q j), star (X a b) * star (Y c e) * G.val [a, b, c, e] =
          (if i = 0 ∨ j = 0 then ((Real.sqrt N : ℝ) : ℂ) else 1) *
            pairing (List.replicate L d) (psi ((x.data.set i Bi).set j Bj)) (hamAct d H (psi x.data)) := by
  unfold FMPS.f2With
  rcases Nat.lt_or_gt_of_ne hij with h | h
  · rw [if_neg (by omega)]
    obtain ⟨G, e, hG, hv⟩ := c.value_lt O h hj hL hH
    refine ⟨G, e, hG, ?_⟩
    intro X Y Bi Bj h1 h2 h3 h4
    rw [hv X Y Bi Bj h1 h2 h3 h4]
    congr 1
    exact if_congr (by omega) rfl rfl
  · rw [if_pos h]
    obtain ⟨G, e, hG, hv⟩ := c.value_lt O h hi hL hH
    rw [e, ok_bind, ND.transpose_ok (by rw [ND.rank, hG]; exact (by decide : List.Perm [2, 3, 0, 1] (List.range 4)))]
    refine ⟨_, rfl, by simp [ND.transposeR, ND.dim, hG], ?_⟩
    intro X Y Bi Bj h1 h2 h3 h4
    have := hv Y X Bj Bi h2 h1 h4 h3
    rw [List.set_comm _ _ hij, show (if i = 0 ∨ j = 0 then ((Real.sqrt N : ℝ) : ℂ) else 1) = if j = 0 then ((Real.sqrt N : ℝ) : ℂ) else 1 from
      if_congr (by omega) rfl rfl, ← this]
    have hT : ∀ a b c e, (G.transposeR [2, 3, 0, 1]).val [a, b, c, e] = G.val [c, e, a, b] := by
      intro a b c e
      have : (List.range 4).map (fun p => [a, b, c, e].getD (List.idxOf p [2, 3, 0, 1]) 0) = [c, e, a, b] := by
        simp [List.range_succ, List.idxOf_cons]
      simp only [ND.transposeR, ND.rank, hG]
      exact congrArg G.val this
    simp only [hT]
    symm
    rw [sum_swap2]
    refine Finset.sum_congr rfl fun a _ => ?_
    rw [sum_swap2]
    refine Finset.sum_congr rfl fun b _ => Finset.sum_congr rfl fun c _ => Finset.sum_congr rfl fun e _ => ?_
    ring

end

section main
variable {chol inv null : ND ℂ → Py (ND ℂ)} (hchol : CholTriLaw chol) (hinv : InvLaw inv) (hnull : NullLaw null) (O : SetOrder)
  {x : FMPS ℂ} {L d : ℕ} (hd : 0 < d) (hx : x.Holds (List.replicate L d)) (hf : FullEnvs (List.replicate L d) x.data)
  {H : List (ND ℂ)} (hL : H.length < L) (hH : ∀ h ∈ H, h.shape = [d * d, d * d])
include hchol hinv hnull hd hx hf hL hH

/-- `F2(i, j, H)` for different sites: contracted with the conjugates of coordinates `X`, `Y` it is the matrix element of `H` between the state and
the state whose tensors at `i` and `j` are the tangent tensors with these coordinates, times the norm of the state if one of the sites is the first. -/
theorem FMPS.f2_spec {i j : ℕ} (hi : i < L) (hj : j < L) (hij : i ≠ j) :
    ∃ ls rs, x.getEnvs = .ok (ls, rs) ∧ ∃ (pi pj vi vj li lj ri rj : ND ℂ) (ki qi kj qj : ℕ),
      FMPS.leftNull chol inv null O x ls i = .ok (pi, vi) ∧ FMPS.leftNull chol inv null O x ls j = .ok (pj, vj) ∧
      FMPS.envAt ls ((i : ℤ) - 1) = .ok li ∧ FMPS.envAt rs (i : ℤ) = .ok ri ∧ FMPS.envAt ls ((j : ℤ) - 1) = .ok lj ∧ FMPS.envAt rs (j : ℤ) = .ok rj ∧
      ∃ G, FMPS.f2 chol inv null O x i j H = .ok G ∧ G.shape = [ki, qi, kj, qj] ∧
        ∀ X Y : ND ℂ, X.shape = [ki, qi] → Y.shape = [kj, qj] → ∃ Bi Bj, FMPS.importSite chol inv li ri vi X = .ok Bi ∧
          FMPS.importSite chol inv lj rj vj Y = .ok Bj ∧
          ∑ a ∈ range ki, ∑ b ∈ range qi, ∑ c ∈ range kj, ∑ e ∈ range qj, star (X.val [a, b]) * star (Y.val [c, e]) * G.val [a, b, c, e] =
            (if i = 0 ∨ j = 0 then ((Real.sqrt (pairing (List.replicate L d) (psi x.data) (psi x.data)).re : ℝ) : ℂ) else 1) *
              pairing (List.replicate L d) (psi ((x.data.set i Bi).set j Bj)) (hamAct d H (psi x.data)) := by
  obtain ⟨ls, rs, E, e, eE, pr, vL, l, r, p, q, k, lam, rho, hnl, epr, c⟩ := f2Ctx_exists hchol hinv hnull O hd hx hf
  have hl := c.len
  have si := c.site i (by omega)
  have sj := c.site j (by omega)
  obtain ⟨G, g1, g2, g3⟩ := c.value O hij hi hj hL hH
  refine ⟨ls, rs, e, pr i, pr j, vL i, vL j, l i, l j, r i, r j, k i, q i, k j, q j, hnl i hi, hnl j hj, si.el, si.er, sj.el, sj.er, G, ?_, g2, ?_⟩
  · unfold FMPS.f2
    rw [e, ok_bind]
    simp only
    rw [epr, ok_bind, eE, ok_bind, List.map_map]
    exact g1
  · intro X Y hX hY
    obtain ⟨Bi, b1, b2, b3⟩ := si.import hchol hinv hX
    obtain ⟨Bj, c1, c2, c3⟩ := sj.import hchol hinv hY
    exact ⟨Bi, Bj, b1, c1, g3 (fun a b => X.val [a, b]) (fun a b => Y.val [a, b]) Bi Bj b2 c2 (fun s _ a ha b hb => b3 s a ha b hb) (fun s _ a ha b hb => c3 s a ha b hb)⟩

/-- `F2(i, j, H)` contracted with the coordinates of tangent tensors in the left gauge, as `extract_tangent_vector` computes them -/
theorem FMPS.f2_extract {i j : ℕ} (hi : i < L) (hj : j < L) (hij : i ≠ j) {dA : List (ND ℂ)} (hi' : i < x.data.length) (hj' : j < x.data.length)
    (hAi : i < dA.length) (hAj : j < dA.length) {pi qi pj qj : ℕ} (hsi : x.data[i].shape = [d, pi, qi]) (hsj : x.data[j].shape = [d, pj, qj])
    (hBi : dA[i].shape = [d, pi, qi]) (hBj : dA[j].shape = [d, pj, qj])
    (hgi : LeftGauge d pi qi (leftEnv ((List.replicate L d).take i) (x.data.take i)) x.data[i] dA[i])
    (hgj : LeftGauge d pj qj (leftEnv ((List.replicate L d).take j) (x.data.take j)) x.data[j] dA[j]) :
    ∃ ls rs, x.getEnvs = .ok (ls, rs) ∧ ∃ (X Y G : ND ℂ) (ki kj : ℕ), X.shape = [ki, qi] ∧ Y.shape = [kj, qj] ∧ G.shape = [ki, qi, kj, qj] ∧
      FMPS.extractSite chol inv null O x ls rs dA i = .ok X.flat ∧ FMPS.extractSite chol inv null O x ls rs dA j = .ok Y.flat ∧
      FMPS.f2 chol inv null O x i j H = .ok G ∧
      ∑ a ∈ range ki, ∑ b ∈ range qi, ∑ c ∈ range kj, ∑ e ∈ range qj, star (X.val [a, b]) * star (Y.val [c, e]) * G.val [a, b, c, e] =
        (if i = 0 ∨ j = 0 then ((Real.sqrt (pairing (List.replicate L d) (psi x.data) (psi x.data)).re : ℝ) : ℂ) else 1) *
          pairing (List.replicate L d) (psi ((x.data.set i dA[i]).set j dA[j])) (hamAct d H (psi x.data)) := by
  obtain ⟨ls, rs, E, e, eE, pr, vL, l, r, p, q, k, lam, rho, hnl, epr, c⟩ := f2Ctx_exists hchol hinv hnull O hd hx hf
  have hl := c.len
  have si := c.site i (by omega)
  have sj := c.site j (by omega)
  obtain ⟨rfl, rfl⟩ : p i = pi ∧ q i = qi := by simpa using si.hA.symm.trans hsi
  obtain ⟨rfl, rfl⟩ : p j = pj ∧ q j = qj := by simpa using sj.hA.symm.trans hsj
  obtain ⟨G, g1, g2, g3⟩ := c.value O hij hi hj hL hH
  obtain ⟨X, x1, x2, x3⟩ := si.extract hchol O (hnl i hi) (pyGet_ok hAi) hBi
  obtain ⟨Y, y1, y2, y3⟩ := sj.extract hchol O (hnl j hj) (pyGet_ok hAj) hBj
  refine ⟨ls, rs, e, X, Y, G, k i, k j, x2, y2, g2, x1, y1, ?_, ?_⟩
  · unfold FMPS.f2
    rw [e, ok_bind]
    simp only
    rw [epr, ok_bind, eE, ok_bind, List.map_map]
    exact g1
  · refine (Finset.sum_congr rfl fun a ha => Finset.sum_congr rfl fun b hb => Finset.sum_congr rfl fun c1 hc1 => Finset.sum_congr rfl fun e1 he1 => ?_).trans
      (g3 (siteCoord d (p i) (vL i) (lam i) (rho i) dA[i]) (siteCoord d (p j) (vL j) (lam j) (rho j) dA[j]) dA[i] dA[j] hBi hBj
        (fun s hs a ha b hb => (si.tensor_coord hgi hs ha hb).symm) (fun s hs a ha b hb => (sj.tensor_coord hgj hs ha hb).symm))
    simp only [Finset.mem_range] at ha hb hc1 he1
    rw [x3 a ha b hb, y3 c1 hc1 e1 he1]
    rfl

/-- for a normalised state the factor is one -/
theorem FMPS.f2_normalised {i j : ℕ} (hi : i < L) (hj : j < L) (hij : i ≠ j) {dA : List (ND ℂ)} (hi' : i < x.data.length) (hj' : j < x.data.length)
    (hAi : i < dA.length) (hAj : j < dA.length) {pi qi pj qj : ℕ} (hsi : x.data[i].shape = [d, pi, qi]) (hsj : x.data[j].shape = [d, pj, qj])
    (hBi : dA[i].shape = [d, pi, qi]) (hBj : dA[j].shape = [d, pj, qj])
    (hgi : LeftGauge d pi qi (leftEnv ((List.replicate L d).take i) (x.data.take i)) x.data[i] dA[i])
    (hgj : LeftGauge d pj qj (leftEnv ((List.replicate L d).take j) (x.data.take j)) x.data[j] dA[j])
    (hn : pairing (List.replicate L d) (psi x.data) (psi x.data) = 1) :
    ∃ ls rs, x.getEnvs = .ok (ls, rs) ∧ ∃ (X Y G : ND ℂ) (ki kj : ℕ), X.shape = [ki, qi] ∧ Y.shape = [kj, qj] ∧ G.shape = [ki, qi, kj, qj] ∧
      FMPS.extractSite chol inv null O x ls rs dA i = .ok X.flat ∧ FMPS.extractSite chol inv null O x ls rs dA j = .ok Y.flat ∧
      FMPS.f2 chol inv null O x i j H = .ok G ∧
      ∑ a ∈ range ki, ∑ b ∈ range qi, ∑ c ∈ range kj, ∑ e ∈ range qj, star (X.val [a, b]) * star (Y.val [c, e]) * G.val [a, b, c, e] =
        pairing (List.replicate L d) (psi ((x.data.set i dA[i]).set j dA[j])) (hamAct d H (psi x.data)) := by
  obtain ⟨ls, rs, e, X, Y, G, ki, kj, h1, h2, h3, h4, h5, h6, h7⟩ :=
    FMPS.f2_extract hchol hinv hnull O hd hx hf hL hH hi hj hij hi' hj' hAi hAj hsi hsj hBi hBj hgi hgj
  refine ⟨ls, rs, e, X, Y, G, ki, kj, h1, h2, h3, h4, h5, h6, ?_⟩
  rw [h7, hn]
  simp

omit hL hH in
/-- `F2(i, i, H)` is zero -/
theorem FMPS.f2_same {i : ℕ} (hi : i < L) :
    ∃ k q, FMPS.f2 chol inv null O x i i H = .ok (zerosND [k, q, k, q]) := by
  obtain ⟨ls, rs, E, e, eE, pr, vL, l, r, p, q, k, lam, rho, hnl, epr, c⟩ := f2Ctx_exists hchol hinv hnull O hd hx hf
  refine ⟨k i, q i, ?_⟩
  unfold FMPS.f2
  rw [e, ok_bind]
  simp only
  rw [epr, ok_bind, eE, ok_bind, List.map_map]
  unfold FMPS.f2With FMPS.f2Sorted
  have := c.coord hi
  rw [if_neg (by omega), if_pos rfl, show (Prod.snd ∘ fun n => (pr n, vL n)) = vL from rfl, this, ok_bind]
  simp only [ok_bind]

end main

/-! ### the hypotheses can be met, and the norm of the state enters -/

/-- `c|00⟩` -/
def exScaled (c : ℂ) : FMPS ℂ := ⟨[⟨[2, 1, 1], fun
  | [s, _, _] => if s = 0 then c else 0
  | _ => 0⟩, ⟨[2, 1, 1], fun
  | [s, _, _] => if s = 0 then 1 else 0
  | _ => 0⟩], 2, 2, 1, false, false, none, none⟩

theorem exScaled_holds (c : ℂ) : (exScaled c).Holds (List.replicate 2 2) := ⟨⟨1, rfl, 1, rfl, rfl⟩, by simp, rfl, rfl⟩

theorem exScaled_full (c : ℝ) (hc : c ≠ 0) : FullEnvs (List.replicate 2 2) (exScaled c).data := by
  intro k hk p hp
  match k, hk with
  | 0, _ =>
    obtain rfl := chain_bond_unique hp rfl
    refine ⟨fun _ => 1, fun _ => c * c, by simp [hc], ?_⟩
    intro a ha b hb
    obtain rfl : a = 0 := by omega
    obtain rfl : b = 0 := by omega
    simp [leftEnv, rightEnv, exScaled, amp, ND.dim, Finset.sum_range_succ]
  | 1, _ =>
    obtain rfl := chain_bond_unique hp ⟨1, rfl, rfl⟩
    refine ⟨fun _ => c * c, fun _ => 1, by simp [hc], ?_⟩
    intro a ha b hb
    obtain rfl : a = 0 := by omega
    obtain rfl : b = 0 := by omega
    simp [leftEnv, rightEnv, exScaled, amp, ND.dim, Finset.sum_range_succ]
  | 2, _ =>
    obtain rfl := chain_bond_unique hp ⟨1, rfl, 1, rfl, rfl⟩
    refine ⟨fun _ => c * c, fun _ => 1, by simp [hc], ?_⟩
    intro a ha b hb
    obtain rfl : a = 0 := by omega
    obtain rfl : b = 0 := by omega
    simp [leftEnv, rightEnv, exScaled, amp, ND.dim, Finset.sum_range_succ]

/-- `|11⟩⟨00| + |00⟩⟨11|` -/
def exPairTerm : ND ℂ := ⟨[4, 4], fun
  | [a, b] => if a = 3 ∧ b = 0 ∨ a = 0 ∧ b = 3 then 1 else 0
  | _ => 0⟩

/-- the tensor `|1⟩` -/
def exUp : ND ℂ := ⟨[2, 1, 1], fun
  | [s, _, _] => if s = 1 then 1 else 0
  | _ => 0⟩

theorem exScaled_f2 {chol inv null : ND ℂ → Py (ND ℂ)} (hchol : CholTriLaw chol) (hinv : InvLaw inv) (hnull : NullLaw null) (O : SetOrder)
    (c : ℝ) (hc : c ≠ 0) :
    ∃ ls rs, (exScaled c).getEnvs = .ok (ls, rs) ∧ ∃ (X Y G : ND ℂ) (ki kj : ℕ), X.shape = [ki, 1] ∧ Y.shape = [kj, 1] ∧ G.shape = [ki, 1, kj, 1] ∧
      FMPS.extractSite chol inv null O (exScaled c) ls rs [exUp, exUp] 0 = .ok X.flat ∧
      FMPS.extractSite chol inv null O (exScaled c) ls rs [exUp, exUp] 1 = .ok Y.flat ∧
      FMPS.f2 chol inv null O (exScaled c) 0 1 [exPairTerm] = .ok G ∧
      ∑ a ∈ range ki, ∑ b ∈ range 1, ∑ c ∈ range kj, ∑ e ∈ range 1, star (X.val [a, b]) * star (Y.val [c, e]) * G.val [a, b, c, e] =
        ((|c| : ℝ) : ℂ) * pairing (List.replicate 2 2) (psi (((exScaled c).data.set 0 exUp).set 1 exUp)) (hamAct 2 [exPairTerm] (psi (exScaled c).data)) := by
  have := FMPS.f2_extract hchol hinv hnull O (d := 2) (L := 2) (by omega) (exScaled_holds c) (exScaled_full c hc) (H := [exPairTerm]) (by simp)
    (by simp [exPairTerm]) (i := 0) (j := 1) (by omega) (by omega) (by omega) (dA := [exUp, exUp]) (by simp [exScaled]) (by simp [exScaled]) (by simp) (by simp)
    (pi := 1) (qi := 1) (pj := 1) (qj := 1) rfl rfl rfl rfl
    (by intro a ha b hb; simp [exScaled, exUp, Finset.sum_range_succ]) (by intro a ha b hb; simp [exScaled, exUp, Finset.sum_range_succ])
  have hn : (pairing (List.replicate 2 2) (psi (exScaled c).data) (psi (exScaled c).data)).re = c * c := by
    unfold pairing
    rw [sumIdx_congr fun s hs => by rw [psi_eq_amp (exScaled_holds c).chain (exScaled_holds c).data_ne hs.length_eq]]
    simp [exScaled, amp, ND.dim, Finset.sum_range_succ]
  rw [hn] at this
  simpa [Real.sqrt_mul_self_eq_abs] using this

/-- the hypotheses of `f2_normalised` are met by `|00⟩` -/
example {chol inv null : ND ℂ → Py (ND ℂ)} (hchol : CholTriLaw chol) (hinv : InvLaw inv) (hnull : NullLaw null) (O : SetOrder) := by
  exact FMPS.f2_normalised hchol hinv hnull O (d := 2) (L := 2) (by omega) (exScaled_holds (1 : ℝ)) (exScaled_full 1 one_ne_zero) (H := [exPairTerm]) (by simp)
    (by simp [exPairTerm]) (i := 0) (j := 1) (by omega) (by omega) (by omega) (dA := [exUp, exUp]) (by simp [exScaled]) (by simp [exScaled]) (by simp) (by simp)
    (pi := 1) (qi := 1) (pj := 1) (qj := 1) rfl rfl rfl rfl
    (by intro a ha b hb; simp [exScaled, exUp, Finset.sum_range_succ]) (by intro a ha b hb; simp [exScaled, exUp, Finset.sum_range_succ])
    (by
      unfold pairing
      rw [sumIdx_congr fun s hs => by rw [psi_eq_amp (exScaled_holds (1 : ℝ)).chain (exScaled_holds (1 : ℝ)).data_ne hs.length_eq]]
      simp [exScaled, amp, ND.dim, Finset.sum_range_succ])

/-- The matrix element is not zero: for a state of norm other than one `F2(0, 1)` is not the matrix element. -/
theorem exScaled_wrong {chol inv null : ND ℂ → Py (ND ℂ)} (hchol : CholTriLaw chol) (hinv : InvLaw inv) (hnull : NullLaw null) (O : SetOrder) :
    ∃ ls rs, (exScaled 2).getEnvs = .ok (ls, rs) ∧ ∃ (X Y G : ND ℂ) (ki kj : ℕ), X.shape = [ki, 1] ∧ Y.shape = [kj, 1] ∧ G.shape = [ki, 1, kj, 1] ∧
      FMPS.extractSite chol inv null O (exScaled 2) ls rs [exUp, exUp] 0 = .ok X.flat ∧
      FMPS.extractSite chol inv null O (exScaled 2) ls rs [exUp, exUp] 1 = .ok Y.flat ∧
      FMPS.f2 chol inv null O (exScaled 2) 0 1 [exPairTerm] = .ok G ∧
      ∑ a ∈ range ki, ∑ b ∈ range 1, ∑ c ∈ range kj, ∑ e ∈ range 1, star (X.val [a, b]) * star (Y.val [c, e]) * G.val [a, b, c, e] = 4 ∧
      pairing (List.replicate 2 2) (psi (((exScaled 2).data.set 0 exUp).set 1 exUp)) (hamAct 2 [exPairTerm] (psi (exScaled 2).data)) = 2 := by
  have hp : pairing (List.replicate 2 2) (psi (((exScaled 2).data.set 0 exUp).set 1 exUp)) (hamAct 2 [exPairTerm] (psi (exScaled 2).data)) = 2 := by
    have h1 : ∀ a b, psi (exScaled 2).data [a, b] = if a = 0 ∧ b = 0 then 2 else 0 := by
      intro a b
      rw [psi_eq_amp (ss := [a, b]) (exScaled_holds 2).chain (exScaled_holds 2).data_ne rfl]
      simp [exScaled, amp, ND.dim]
      split_ifs <;> simp_all
    have h2 : ∀ a b, psi (((exScaled 2).data.set 0 exUp).set 1 exUp) [a, b] = if a = 1 ∧ b = 1 then 1 else 0 := by
      intro a b
      have hch : MpsChain (List.replicate 2 2) (((exScaled 2).data.set 0 exUp).set 1 exUp) 1 1 := ⟨1, rfl, 1, rfl, rfl⟩
      rw [psi_eq_amp (ss := [a, b]) hch (by simp [exScaled]) rfl]
      simp [exScaled, exUp, amp, ND.dim]
      split_ifs <;> simp_all
    unfold pairing hamAct gateAct
    simp [List.replicate, sumIdx_cons, sumIdx_nil, Finset.sum_range_succ, h1, h2, exPairTerm]
  obtain ⟨ls, rs, e, X, Y, G, ki, kj, h1, h2, h3, h4, h5, h6, h7⟩ := exScaled_f2 hchol hinv hnull O 2 (by norm_num)
  simp only [Complex.ofReal_ofNat] at e h4 h5 h6 h7
  refine ⟨ls, rs, e, X, Y, G, ki, kj, h1, h2, h3, h4, h5, h6, ?_, hp⟩
  rw [h7, hp]
  norm_num

end Xmps
