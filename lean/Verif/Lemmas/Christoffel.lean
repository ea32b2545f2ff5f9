import Verif.Model.Christoffel
import Verif.Lemmas.F1Value

/-!
# Evaluation of `christoffel`
-/

namespace Xmps

open Finset Spec Xmps.Ncon

/-- the projector with the environment is the identity on the tensors in the gauge -/
structure PrFix (d p q : ℕ) (A : ND ℂ) (lam : ℕ → ℝ) (pr : ND ℂ) : Prop where
  shape : pr.shape = [d, p, d, p]
  fix : ∀ v : ℕ → ℕ → ℂ, (∀ c < q, ∑ s ∈ range d, ∑ a ∈ range p, star (A.val [s, a, c]) * (lam a : ℂ) * v s a = 0) →
    ∀ s < d, ∀ a < p, ∑ t ∈ range d, ∑ b ∈ range p, pr.val [s, a, t, b] * ((lam b : ℂ) * v t b) = v s a
  cofix : ∀ v : ℕ → ℕ → ℂ, (∀ c < q, ∑ s ∈ range d, ∑ a ∈ range p, star (A.val [s, a, c]) * (lam a : ℂ) * v s a = 0) →
    ∀ s < d, ∀ a < p, ∑ t ∈ range d, ∑ b ∈ range p, (lam b : ℂ) * star (v t b) * pr.val [t, b, s, a] = star (v s a)

theorem NullProj.prFix {d p q k : ℕ} {A : ND ℂ} {lam : ℕ → ℝ} {U : ℕ → ℕ → ℕ → ℂ} {pr : ND ℂ} (h : NullProj d p q k A lam U pr) : PrFix d p q A lam pr := by
  have fix : ∀ v : ℕ → ℕ → ℂ, (∀ c < q, ∑ s ∈ range d, ∑ a ∈ range p, star (A.val [s, a, c]) * (lam a : ℂ) * v s a = 0) →
      ∀ s < d, ∀ a < p, ∑ t ∈ range d, ∑ b ∈ range p, pr.val [s, a, t, b] * ((lam b : ℂ) * v t b) = v s a := by
    intro v hv s hs a ha
    refine Eq.trans ?_ (h.complete v hv s hs a ha).symm
    simp only [Finset.mul_sum]
    symm
    rw [← sum_swap2]
    refine Finset.sum_congr rfl fun t _ => Finset.sum_congr rfl fun b hb => ?_
    rw [h.val s a ha t b (Finset.mem_range.1 hb), Finset.sum_mul]
    exact Finset.sum_congr rfl fun k1 _ => by ring
  refine ⟨h.shape, fix, ?_⟩
  intro v hv s hs a ha
  have := congrArg star (fix v hv s hs a ha)
  rw [← this, star_sum]
  refine Finset.sum_congr rfl fun t _ => ?_
  rw [star_sum]
  refine Finset.sum_congr rfl fun b hb => ?_
  rw [h.val s a ha t b (Finset.mem_range.1 hb), h.val t b (Finset.mem_range.1 hb) s a ha]
  simp only [star_mul', star_sum, star_star, show star ((lam b : ℝ) : ℂ) = _ from Complex.conj_ofReal _, Finset.mul_sum, Finset.sum_mul]
  exact Finset.sum_congr rfl fun k1 _ => by ring

theorem pullBack_fsum {dM : List ℕ} {M : List (ND ℂ)} {r' N : ℕ} (w : ℕ → ℂ) (X : ℕ → ℕ → ℕ → ℂ) (a b : ℕ) :
    ∑ z ∈ range N, w z * pullBack dM M r' (fun y' y => X z y' y) a b = pullBack dM M r' (fun y' y => ∑ z ∈ range N, w z * X z y' y) a b := by
  have := pullBack_linear (dM := dM) (M := M) (r' := r') (N1 := 1) (N2 := N) (fun _ z => w z) (fun _ z y' y => X z y' y) a b
  simpa only [Finset.sum_range_one] using this.symm

section
variable {L d : ℕ} {x : FMPS ℂ} {ls rs : List (ND ℂ)} {E : FMPS.InvEnvs} {N : ℝ} {vL l r : ℕ → ND ℂ} {p q k : ℕ → ℕ} {lam rho : ℕ → ℕ → ℝ} {i j : ℕ}

theorem F2Ctx.prFix (c : F2Ctx L d x ls rs E N vL l r p q k lam rho) {chol inv null : ND ℂ → Py (ND ℂ)} (hchol : CholTriLaw chol) (hinv : InvLaw inv)
    (O : SetOrder) {i : ℕ} (hi : i < x.data.length) {pr : ND ℂ} (h : FMPS.leftNull chol inv null O x ls i = .ok (pr, vL i)) :
    PrFix d (p i) (q i) x.data[i] (lam i) pr := by
  have hs := c.site i hi
  obtain ⟨pr', e, hp⟩ := projector_ok hchol hinv O hs.hl hs.hlv hs.pos hs.basis
  unfold FMPS.leftNull at h
  rw [pyGet_ok hi, ok_bind, hs.el, ok_bind] at h
  obtain ⟨v, e1, h⟩ := bind_eq_ok h
  obtain ⟨pr2, e2, h⟩ := bind_eq_ok h
  obtain ⟨rfl, rfl⟩ : pr2 = pr ∧ v = vL i := by simpa using h
  rw [e] at e2
  obtain rfl : pr' = pr2 := by simpa using e2
  exact hp.prFix

/-- the list behind `Rs` holds the right environments with the second site varied -/
theorem F2Ctx.chRs (c : F2Ctx L d x ls rs E N vL l r p q k lam rho) (O : SetOrder) {n0 : ℕ} (hn0 : n0 ≤ i) (hij : i < j) (hj : j < x.data.length)
    {prs : List (ND ℂ)} {pr : ND ℂ} (epr : pyGet prs j = .ok pr) (hp : PrFix d (p j) (q j) x.data[j] (lam j) pr) :
    ∃ Rs T, FMPS.chTransfer O x prs n0 j = .ok Rs ∧ FMPS.leftAt Rs n0 ((i : ℤ) + 1) = .ok T ∧ T.shape = [q i, q i, d, p j, q j] ∧
      ∀ W : ND ℂ, W.shape = [d, p j, q j] → LeftGauge d (p j) (q j) (leftEnv ((List.replicate L d).take j) (x.data.take j)) x.data[j] W →
        ∀ g < q i, ∀ b < q i, ∑ t ∈ range d, ∑ a ∈ range (p j), ∑ e ∈ range (q j),
          (lam j a : ℂ) * star (W.val [t, a, e]) * (rho j e : ℂ) * T.val [g, b, t, a, e] =
            mixR ((List.replicate L d).drop (i + 1)) (tailV x.data j (i + 1) W) (x.data.drop (i + 1)) g b := by
  have hl := c.len
  have hs := c.site j hj
  obtain ⟨R, e5, hR, hRv⟩ := nc_eval O (AA := [pr, x.data[j]]) (v := [[-3, -4, 1, -2], [1, -1, -5]])
    (dimOf [(1, d), (-1, p j), (-2, p j), (-3, d), (-4, p j), (-5, q j)]) [1] [-1, -2, -3, -4, -5]
    ⟨by simp, by simp [hp.shape, hs.hA, dimOf, List.lookup], by simp, by simp, by decide, by decide, by decide, by decide, by decide⟩
    (by decide) (by decide)
  have hR : R.shape = p j :: p j :: [d, p j, q j] := by rw [hR]; simp [dimOf, List.lookup]
  obtain ⟨Rs, e6, hRs⟩ := FMPS.leftTransfer_spec c.hx (j := n0) (i := j) (by omega) (by simp; omega) hs.hp hR
  obtain ⟨T, b', t1, t2, t3, t4⟩ := hRs (i + 1) (by omega) (by omega)
  have hb : b' = q i := by
    obtain ⟨p', q', g1, g2, g3, g4⟩ := chain_site c.hx.chain (i := i) (by omega)
    rw [(c.site i (by omega)).hA] at g2
    rw [chain_bond_unique t2 g3]
    exact ((List.cons.inj (List.cons.inj (List.cons.inj g2).2).2).1).symm
  subst hb
  refine ⟨Rs, T, ?_, by exact_mod_cast t1, t3, ?_⟩
  · unfold FMPS.chTransfer
    rw [epr, ok_bind, pyGet_ok hj, ok_bind, e5, ok_bind, e6]
  intro W hW hg g hgq b hbq
  have hmid : MpsChain (((List.replicate L d).take j).drop (i + 1)) ((x.data.take j).drop (i + 1)) (q i) (p j) := by
    obtain ⟨b', h1, h2⟩ := chain_cut hs.hp (i + 1)
    rw [List.take_take, List.take_take, min_eq_left (by omega)] at h1
    rw [chain_bond_unique t2 h1]
    exact h2
  have ed : (List.replicate L d).drop (i + 1) = ((List.replicate L d).take j).drop (i + 1) ++ d :: (List.replicate L d).drop (j + 1) := by
    rw [drop_cut (j := j) (by omega) (by simp; omega)]
    simp [tailV]
  have ea : x.data.drop (i + 1) = (x.data.take j).drop (i + 1) ++ x.data[j] :: x.data.drop (j + 1) := drop_cut (by omega) hj
  conv_rhs => rw [ed, ea, tailV, mixR_append hmid hgq hbq]
  have step : ∀ t < d, ∀ a < p j, ∀ e < q j, T.val [g, b, t, a, e] =
      pullBack (((List.replicate L d).take j).drop (i + 1)) ((x.data.take j).drop (i + 1)) (p j) (fun y' y => R.val [y', y, t, a, e]) g b :=
    fun t ht a ha e he => t4 g hgq b hbq [t, a, e] ⟨ht, ha, he, trivial⟩
  rw [Finset.sum_congr rfl fun t ht => Finset.sum_congr rfl fun a ha => Finset.sum_congr rfl fun e he => by
    rw [step t (Finset.mem_range.1 ht) a (Finset.mem_range.1 ha) e (Finset.mem_range.1 he)]]
  have one : ∀ (N : ℕ) (X : ℕ → ℕ → ℕ → ℂ), ∑ z ∈ range N, pullBack (((List.replicate L d).take j).drop (i + 1)) ((x.data.take j).drop (i + 1)) (p j)
      (fun y' y => X z y' y) g b = pullBack (((List.replicate L d).take j).drop (i + 1)) ((x.data.take j).drop (i + 1)) (p j)
      (fun y' y => ∑ z ∈ range N, X z y' y) g b := by
    intro N X
    have := pullBack_fsum (dM := ((List.replicate L d).take j).drop (i + 1)) (M := (x.data.take j).drop (i + 1)) (r' := p j) (N := N) (fun _ => 1) X g b
    simpa only [one_mul] using this
  simp only [pullBack_fsum, one]
  unfold pullBack
  refine sumIdx_congr fun s _ => Finset.sum_congr rfl fun y' hy' => Finset.sum_congr rfl fun y hy => ?_
  congr 2
  simp only [Finset.mem_range] at hy hy'
  rw [mixR_cons hs.hA hW]
  -- the right-hand side is diagonal
  have rhs : ∀ s, ∑ c ∈ range (q j), ∑ c' ∈ range (q j), x.data[j].val [s, y', c] *
      mixR ((List.replicate L d).drop (j + 1)) (x.data.drop (j + 1)) (x.data.drop (j + 1)) c c' * star (W.val [s, y, c']) =
      ∑ e ∈ range (q j), x.data[j].val [s, y', e] * (rho j e : ℂ) * star (W.val [s, y, e]) := by
    intro s
    refine Finset.sum_congr rfl fun e he => ?_
    rw [Finset.sum_eq_single e]
    · rw [mixR_self, hs.right e (Finset.mem_range.1 he) e (Finset.mem_range.1 he), if_pos rfl]
    · intro e' he' hne
      rw [mixR_self, hs.right e (Finset.mem_range.1 he) e' (Finset.mem_range.1 he'), if_neg (Ne.symm hne)]
      ring
    · intro hn
      exact absurd he hn
  simp only [rhs]
  have hRval : ∀ t a e, R.val [y', y, t, a, e] = ∑ s ∈ range d, pr.val [t, a, s, y] * x.data[j].val [s, y', e] := by
    intro t a e
    rw [hRv _ rfl]
    simp [labelSum, netTerm, assign, dimOf, List.lookup, Function.update]
  rw [hs.gauge_iff] at hg
  have fixW : ∀ s < d, ∀ e < q j, ∑ t ∈ range d, ∑ a ∈ range (p j), (lam j a : ℂ) * star (W.val [t, a, e]) * pr.val [t, a, s, y] = star (W.val [s, y, e]) :=
    fun s hs' e he => hp.cofix (fun s a => W.val [s, a, e]) (fun c hc => hg c hc e he) s hs' y hy
  refine Eq.trans ?_ (Finset.sum_congr rfl fun s hs' => Finset.sum_congr rfl fun e he =>
    congrArg (x.data[j].val [s, y', e] * (rho j e : ℂ) * ·) (fixW s (Finset.mem_range.1 hs') e (Finset.mem_range.1 he)))
  simp only [hRval, Finset.mul_sum]
  -- reorder
  rw [Finset.sum_congr rfl fun t _ => Finset.sum_congr rfl fun a _ => Finset.sum_comm]
  rw [sum_swap2]
  rw [Finset.sum_congr rfl fun s _ => sum_swap2 ..]
  refine Finset.sum_congr rfl fun s _ => Finset.sum_congr rfl fun e _ => Finset.sum_congr rfl fun t _ => Finset.sum_congr rfl fun a _ => ?_
  ring

/-- the overlap of a second tangent vector with a tangent vector at the first of its sites -/
theorem F2Ctx.chPair (c : F2Ctx L d x ls rs E N vL l r p q k lam rho) (hij : i < j) (hj : j < L) {U W C : ND ℂ} (hU : U.shape = [d, p i, q i])
    (hW : W.shape = [d, p j, q j]) (hC : C.shape = [d, p i, q i]) :
    pairing (List.replicate L d) (psi ((x.data.set i U).set j W)) (psi (x.data.set i C)) =
      ∑ s ∈ range d, ∑ a ∈ range (p i), ∑ b ∈ range (q i), ∑ g ∈ range (q i), (lam i a : ℂ) * star (U.val [s, a, b]) * C.val [s, a, g] *
        mixR ((List.replicate L d).drop (i + 1)) (tailV x.data j (i + 1) W) (x.data.drop (i + 1)) g b := by
  have hl := c.len
  have hs := c.site i (by omega)
  have hne : ∀ (As : List (ND ℂ)), As.length = L → As ≠ [] := by
    rintro As h rfl
    simp at h
    omega
  have hc1 : MpsChain (List.replicate L d) ((x.data.set i U).set j W) 1 1 := chain_set (by simp; omega) (chain_set (by omega) c.hx.chain (by rw [hU, hs.hA]))
    (by rw [List.getElem_set_ne (by omega), hW, (c.site j (by omega)).hA])
  have hc2 : MpsChain (List.replicate L d) (x.data.set i C) 1 1 := chain_set (by omega) c.hx.chain (by rw [hC, hs.hA])
  have e1 : pairing (List.replicate L d) (psi ((x.data.set i U).set j W)) (psi (x.data.set i C)) =
      mixR (List.replicate L d) ((x.data.set i U).set j W) (x.data.set i C) 0 0 := by
    unfold pairing mixR
    refine sumIdx_congr fun s hs => ?_
    rw [psi_eq_amp hc1 (hne _ (by simp [hl])) hs.length_eq, psi_eq_amp hc2 (hne _ (by simp [hl])) hs.length_eq, mul_comm]
  rw [e1, set_two hij (by omega), set_cut (by omega)]
  conv_lhs => rw [replicate_cut (L := L) (d := d) (i := i) (by omega)]
  rw [mixR_append hs.hp (by omega) (by omega)]
  have e2 : ∀ F : ℕ → ℕ → ℂ, pullBack ((List.replicate L d).take i) (x.data.take i) (p i) F 0 0 = ∑ a ∈ range (p i), (lam i a : ℂ) * F a a := by
    intro F
    have : pullBack ((List.replicate L d).take i) (x.data.take i) (p i) F 0 0 =
        ∑ a ∈ range (p i), ∑ a' ∈ range (p i), leftEnv ((List.replicate L d).take i) (x.data.take i) a' a * F a a' := by
      unfold pullBack leftEnv
      simp only [← sumIdx_mul_right, ← sumIdx_finset_sum]
      exact sumIdx_congr fun s _ => Finset.sum_congr rfl fun a _ => Finset.sum_congr rfl fun a' _ => by ring
    rw [this]
    refine Finset.sum_congr rfl fun a ha => ?_
    rw [Finset.sum_eq_single a]
    · rw [hs.left a (Finset.mem_range.1 ha) a (Finset.mem_range.1 ha), if_pos rfl]
    · intro a' ha' hne
      rw [hs.left a' (Finset.mem_range.1 ha') a (Finset.mem_range.1 ha), if_neg hne, zero_mul]
    · intro hn
      exact absurd ha hn
  rw [e2, Finset.sum_congr rfl fun a _ => by rw [mixR_cons hC hU, Finset.mul_sum], Finset.sum_comm]
  refine Finset.sum_congr rfl fun s _ => Finset.sum_congr rfl fun a _ => ?_
  rw [Finset.mul_sum]
  conv_rhs => rw [Finset.sum_comm]
  refine Finset.sum_congr rfl fun g _ => ?_
  rw [Finset.mul_sum]
  exact Finset.sum_congr rfl fun b _ => by ring

/-- tangent vectors in the gauge are orthogonal to the states with the tensor of the site unchanged -/
theorem F2Ctx.orth (c : F2Ctx L d x ls rs E N vL l r p q k lam rho) (hi : i < x.data.length) {U : ND ℂ} (hU : U.shape = [d, p i, q i])
    (hg : LeftGauge d (p i) (q i) (leftEnv ((List.replicate L d).take i) (x.data.take i)) x.data[i] U) {S T : List (ND ℂ)}
    (hS : MpsChain ((List.replicate L d).drop (i + 1)) S (q i) 1) (hT : MpsChain ((List.replicate L d).drop (i + 1)) T (q i) 1) :
    pairing (List.replicate L d) (psi (x.data.take i ++ U :: S)) (psi (x.data.take i ++ x.data[i] :: T)) = 0 := by
  have hl := c.len
  have hs := c.site i hi
  have hlen : (x.data.take i).length = ((List.replicate L d).take i).length := by simp; omega
  conv_lhs => rw [replicate_cut (L := L) (d := d) (i := i) (by omega)]
  refine inner_gauge hs.hp hU hS hg (g := fun s2 c => amp T s2 c 0) ?_
  intro s1 h1 t ht s2 h2
  have hch : MpsChain ((List.replicate L d).take i ++ d :: (List.replicate L d).drop (i + 1)) (x.data.take i ++ x.data[i] :: T) 1 1 :=
    (mpsChain_append hlen).2 ⟨p i, hs.hp, q i, hs.hA, hT⟩
  rw [psi_eq_amp hch (by simp) (by simp [h1.length_eq, h2.length_eq]), amp_mid hs.hp h1.length_eq hs.hA _ 0 0 (by omega)]
  exact Finset.sum_congr rfl fun b _ => Finset.sum_congr rfl fun e _ => by ring

/-- second tangent vectors overlap only with the tangent vectors at the first of their sites -/
theorem F2Ctx.chVanish (c : F2Ctx L d x ls rs E N vL l r p q k lam rho) (hij : i < j) (hj : j < x.data.length) {n : ℕ} (hn : n < x.data.length) (hne : n ≠ i)
    {U W C : ND ℂ} (hU : U.shape = [d, p i, q i]) (hW : W.shape = [d, p j, q j]) (hC : C.shape = [d, p n, q n])
    (hgU : LeftGauge d (p i) (q i) (leftEnv ((List.replicate L d).take i) (x.data.take i)) x.data[i] U)
    (hgC : LeftGauge d (p n) (q n) (leftEnv ((List.replicate L d).take n) (x.data.take n)) x.data[n] C) :
    pairing (List.replicate L d) (psi ((x.data.set i U).set j W)) (psi (x.data.set n C)) = 0 := by
  have hl := c.len
  have tl : ∀ {m : ℕ} {As : List (ND ℂ)} (hm : m < As.length) (_ : m < x.data.length), MpsChain (List.replicate L d) As 1 1 → As[m].shape = [d, p m, q m] →
      MpsChain ((List.replicate L d).drop (m + 1)) (As.drop (m + 1)) (q m) 1 := by
    intro m As hm hm' hc hA
    obtain ⟨p', q', g1, g2, g3, g4⟩ := chain_site hc hm
    rw [hA] at g2
    rw [show q m = q' from ((List.cons.inj (List.cons.inj (List.cons.inj g2).2).2).1)]
    exact g4
  have hUc : MpsChain (List.replicate L d) (x.data.set i U) 1 1 := chain_set (by omega) c.hx.chain (by rw [hU, (c.site i (by omega)).hA])
  have hUW : MpsChain (List.replicate L d) ((x.data.set i U).set j W) 1 1 := chain_set (by simp; omega) hUc
    (by rw [List.getElem_set_ne (by omega), hW, (c.site j (by omega)).hA])
  have hCc : MpsChain (List.replicate L d) (x.data.set n C) 1 1 := chain_set hn c.hx.chain (by rw [hC, (c.site n hn).hA])
  rcases Nat.lt_or_gt_of_ne hne with h | h
  · have e1 : x.data.set n C = x.data.take n ++ C :: x.data.drop (n + 1) := set_cut hn C
    have e2 : (x.data.set i U).set j W = x.data.take n ++ x.data[n] :: ((x.data.set i U).set j W).drop (n + 1) := by
      conv_lhs => rw [list_cut (As := (x.data.set i U).set j W) (i := n) (by simp; omega)]
      rw [List.take_set_of_le (by omega), List.take_set_of_le (by omega), List.getElem_set_ne (by omega), List.getElem_set_ne (by omega)]
    rw [← pairing_star, e1, e2, c.orth hn hC hgC, star_zero]
    · exact (c.site n hn).hn
    · exact tl (by simp; omega) hn hUW (by rw [List.getElem_set_ne (by omega), List.getElem_set_ne (by omega), (c.site n hn).hA])
  · have e1 : (x.data.set i U).set j W = x.data.take i ++ U :: ((x.data.set i U).set j W).drop (i + 1) := by
      conv_lhs => rw [list_cut (As := (x.data.set i U).set j W) (i := i) (by simp; omega)]
      rw [List.take_set_of_le (by omega), List.take_set_of_le (by omega), List.getElem_set_ne (by omega), List.getElem_set_self]
    have e2 : x.data.set n C = x.data.take i ++ x.data[i] :: (x.data.set n C).drop (i + 1) := by
      conv_lhs => rw [list_cut (As := x.data.set n C) (i := i) (by simp; omega)]
      rw [List.take_set_of_le (by omega), List.getElem_set_ne (by omega)]
    rw [e1, e2, c.orth (by omega) hU hgU]
    · exact tl (by simp; omega) (by omega) hUW (by rw [List.getElem_set_ne (by omega), List.getElem_set_self, hU])
    · exact tl (by simp; omega) (by omega) hCc (by rw [List.getElem_set_ne (by omega), (c.site i (by omega)).hA])

/-- a site with no null vectors has no tangent tensors in the gauge -/
theorem F2Ctx.chFull (c : F2Ctx L d x ls rs E N vL l r p q k lam rho) (hij : i < j) (hj : j < x.data.length) (hk : d * p i = q i)
    {U W : ND ℂ} (hU : U.shape = [d, p i, q i]) (hW : W.shape = [d, p j, q j])
    (hgU : LeftGauge d (p i) (q i) (leftEnv ((List.replicate L d).take i) (x.data.take i)) x.data[i] U) (f : List ℕ → ℂ) :
    pairing (List.replicate L d) (psi ((x.data.set i U).set j W)) f = 0 := by
  have hl := c.len
  have hs := c.site i (by omega)
  have hWc : MpsChain (List.replicate L d) (x.data.set j W) 1 1 := chain_set hj c.hx.chain (by rw [hW, (c.site j (by omega)).hA])
  have hk0 : k i = 0 := by have := hs.count; omega
  rw [List.set_comm _ _ (by omega : i ≠ j), pairing_set_linear (j := i) (k := 0) (k' := 0) hWc (by simp; omega)
    (by rw [List.getElem_set_ne (by omega)]; exact hs.hA) hU (U := fun _ _ => U) (fun _ _ => hU) (X := fun _ _ => 0)]
  · simp
  · intro s hs' a ha b hb
    rw [← hs.tensor_coord hgU hs' ha hb]
    unfold siteTensor
    rw [hk0]
    simp

/-- contraction with the weighted conjugates of two tensors -/
theorem F2Ctx.chSum (c : F2Ctx L d x ls rs E N vL l r p q k lam rho) (hij : i < j) (hj : j < L) {T U W C : ND ℂ} {z : ℂ}
    (hT : ∀ g < q i, ∀ b < q i, ∑ t ∈ range d, ∑ a ∈ range (p j), ∑ e ∈ range (q j),
          (lam j a : ℂ) * star (W.val [t, a, e]) * (rho j e : ℂ) * T.val [g, b, t, a, e] =
            z * mixR ((List.replicate L d).drop (i + 1)) (tailV x.data j (i + 1) W) (x.data.drop (i + 1)) g b)
    (hU : U.shape = [d, p i, q i]) (hW : W.shape = [d, p j, q j]) (hC : C.shape = [d, p i, q i]) {G : ℕ → ℕ → ℕ → ℕ → ℕ → ℕ → ℂ}
    (hG : ∀ s < d, ∀ a < p i, ∀ b < q i, ∀ t < d, ∀ a' < p j, ∀ e < q j, G s a b t a' e =
      ∑ g ∈ range (q i), C.val [s, a, g] * T.val [g, b, t, a', e] * (rho i b : ℂ)⁻¹) :
    ∑ s ∈ range d, ∑ a ∈ range (p i), ∑ b ∈ range (q i), ∑ t ∈ range d, ∑ a' ∈ range (p j), ∑ e ∈ range (q j),
      ((lam i a : ℂ) * star (U.val [s, a, b]) * (rho i b : ℂ)) * ((lam j a' : ℂ) * star (W.val [t, a', e]) * (rho j e : ℂ)) * G s a b t a' e =
    z * pairing (List.replicate L d) (psi ((x.data.set i U).set j W)) (psi (x.data.set i C)) := by
  have hl := c.len
  have hs := c.site i (by omega)
  rw [c.chPair hij hj hU hW hC, Finset.mul_sum]
  refine Finset.sum_congr rfl fun s hs' => ?_
  rw [Finset.mul_sum]
  refine Finset.sum_congr rfl fun a ha => ?_
  rw [Finset.mul_sum]
  refine Finset.sum_congr rfl fun b hb => ?_
  simp only [Finset.mem_range] at hs' ha hb
  have hne : (rho i b : ℂ) ≠ 0 := by exact_mod_cast (hs.pos' b hb).ne'
  have eg : ∀ g, z * ((lam i a : ℂ) * star (U.val [s, a, b]) * C.val [s, a, g] *
      mixR ((List.replicate L d).drop (i + 1)) (tailV x.data j (i + 1) W) (x.data.drop (i + 1)) g b) = (lam i a : ℂ) * star (U.val [s, a, b]) * C.val [s, a, g] *
      (z * mixR ((List.replicate L d).drop (i + 1)) (tailV x.data j (i + 1) W) (x.data.drop (i + 1)) g b) := fun g => by ring
  rw [Finset.mul_sum]
  simp only [eg]
  refine Eq.trans ?_ (Finset.sum_congr rfl fun g hg =>
    congrArg ((lam i a : ℂ) * star (U.val [s, a, b]) * C.val [s, a, g] * ·) (hT g (Finset.mem_range.1 hg) b hb))
  simp only [Finset.mul_sum]
  symm
  rw [Finset.sum_comm]
  refine Finset.sum_congr rfl fun t ht => ?_
  rw [Finset.sum_comm]
  refine Finset.sum_congr rfl fun a' ha' => ?_
  rw [Finset.sum_comm]
  refine Finset.sum_congr rfl fun e he => ?_
  rw [hG s hs' a ha b hb t (Finset.mem_range.1 ht) a' (Finset.mem_range.1 ha') e (Finset.mem_range.1 he), Finset.mul_sum]
  refine Finset.sum_congr rfl fun g _ => ?_
  field_simp

theorem F2Ctx.invR (c : F2Ctx L d x ls rs E N vL l r p q k lam rho) {inv : ND ℂ → Py (ND ℂ)} (hinv : InvLaw inv) (hi : i < x.data.length) :
    ∃ ri, inv (r i) = .ok ri ∧ DiagM ri (q i) fun a => (rho i a : ℂ)⁻¹ := by
  have hs := c.site i hi
  obtain ⟨R, e, h1, h2⟩ := hinv (r i) ⟨[q i, q i], fun
      | [a, b] => if a = b then (rho i a : ℂ)⁻¹ else 0
      | _ => 0⟩ (q i) hs.hr rfl (by
    intro a ha b hb
    rw [Finset.sum_eq_single a]
    · rw [hs.hrv a ha a ha, if_pos rfl]
      have hne : (rho i a : ℂ) ≠ 0 := by exact_mod_cast (hs.pos' a ha).ne'
      by_cases h : a = b
      · subst h
        simp [hne]
      · simp [h]
    · intro b' hb' h
      rw [hs.hrv a ha b' (Finset.mem_range.1 hb'), if_neg (Ne.symm h), zero_mul]
    · intro hn
      exact absurd (Finset.mem_range.2 ha) hn)
  exact ⟨R, e, h1, fun a ha b hb => h2 a ha b hb⟩

end

end Xmps
