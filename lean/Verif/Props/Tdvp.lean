import Verif.Lemmas.DAdtFacts
import Mathlib.LinearAlgebra.Matrix.NonsingularInverse

/-!
# `dA_dt` is the time-dependent variational principle (C48, C64)
-/

namespace Xmps

open Finset Spec Xmps.Ncon

/-! ### lists -/

theorem chain_set : ∀ {ds : List ℕ} {As : List (ND ℂ)} {l r i : ℕ} {B : ND ℂ} (hi : i < As.length), MpsChain ds As l r → B.shape = As[i].shape →
    MpsChain ds (As.set i B) l r
  | d :: ds, A :: As, l, r, 0, B, _, ⟨m, hA, h⟩, hB => ⟨m, by simpa [hA] using hB, h⟩
  | d :: ds, A :: As, l, r, i + 1, B, hi, ⟨m, hA, h⟩, hB => ⟨m, hA, chain_set (by simpa using hi) h (by simpa using hB)⟩
  | [], _ :: _, _, _, _, _, _, h, _ => absurd h (by simp [MpsChain])

theorem set_cut {K : Type} {As : List K} {i : ℕ} (hi : i < As.length) (W : K) : As.set i W = As.take i ++ W :: As.drop (i + 1) := by
  rw [List.set_eq_take_append_cons_drop, if_pos hi]

theorem set_right {K : Type} {As : List K} {i j : ℕ} (hij : i < j) (hj : j < As.length) (W : K) :
    As.set j W = As.take i ++ As[i] :: (As.drop (i + 1)).set (j - i - 1) W := by
  conv_lhs => rw [list_cut (As := As) (i := i) (by omega)]
  rw [List.set_append, if_neg (by simp; omega)]
  congr 1
  rw [show j - (List.take i As).length = (j - i - 1) + 1 by simp; omega]
  rfl

/-- a chain changed at `j` only agrees with the chain before `j` -/
theorem psi_agree {ds1 ds2 : List ℕ} {As1 As2 : List (ND ℂ)} {A : ND ℂ} {d p q : ℕ} (h1 : MpsChain ds1 As1 1 p) (hA : A.shape = [d, p, q])
    (h2 : MpsChain ds2 As2 q 1) {s1 s2 : List ℕ} (hs1 : InB ds1 s1) (hs2 : s2.length = ds2.length) (t : ℕ) :
    psi (As1 ++ A :: As2) (s1 ++ t :: s2) = ∑ b ∈ range p, ∑ c ∈ range q, amp As1 s1 0 b * A.val [t, b, c] * amp As2 s2 c 0 := by
  have hch : MpsChain (ds1 ++ d :: ds2) (As1 ++ A :: As2) 1 1 := (mpsChain_append h1.length_eq).2 ⟨p, h1, q, hA, h2⟩
  rw [psi_eq_amp hch (by simp) (by simp [hs1.length_eq, hs2]), amp_mid h1 hs1.length_eq hA t 0 0 (by omega)]
  exact Finset.sum_congr rfl fun b _ => Finset.sum_congr rfl fun c _ => by ring

/-- a gate to the right of the site leaves the chain up to the site as it is -/
theorem gate_agree {ds1 ds2 : List ℕ} {As1 As2 : List (ND ℂ)} {A h : ND ℂ} {d p q m : ℕ} (h1 : MpsChain ds1 As1 1 p) (hA : A.shape = [d, p, q])
    (h2 : MpsChain ds2 As2 q 1) (hm : ds1.length < m) {s1 s2 : List ℕ} (hs1 : InB ds1 s1) (hs2 : InB ds2 s2) (t : ℕ) :
    gateAct d h m (m + 1) (psi (As1 ++ A :: As2)) (s1 ++ t :: s2) = ∑ b ∈ range p, ∑ c ∈ range q, amp As1 s1 0 b * A.val [t, b, c] *
      ∑ p1 ∈ range d, ∑ p2 ∈ range d, h.val [s2.getD (m - ds1.length - 1) 0 * d + s2.getD (m + 1 - ds1.length - 1) 0, p1 * d + p2] *
        amp As2 ((s2.set (m - ds1.length - 1) p1).set (m + 1 - ds1.length - 1) p2) c 0 := by
  have hg : ∀ j, ds1.length < j → (s1 ++ t :: s2).getD j 0 = s2.getD (j - ds1.length - 1) 0 := by
    intro j hj
    rw [List.getD_append_right _ _ _ _ (by rw [hs1.length_eq]; omega), hs1.length_eq,
      show j - ds1.length = (j - ds1.length - 1) + 1 by omega, List.getD_cons_succ]
    rfl
  have hst : ∀ j, ds1.length < j → ∀ (v : List ℕ) x, (s1 ++ t :: v).set j x = s1 ++ t :: v.set (j - ds1.length - 1) x := by
    intro j hj v x
    rw [List.set_append, if_neg (by rw [hs1.length_eq]; omega), hs1.length_eq, show j - ds1.length = (j - ds1.length - 1) + 1 by omega]
    rfl
  unfold gateAct
  rw [hg m hm, hg (m + 1) (by omega)]
  simp only [hst m hm, hst (m + 1) (by omega : ds1.length < m + 1)]
  rw [Finset.sum_congr rfl fun p1 _ => Finset.sum_congr rfl fun p2 _ => by
    rw [psi_agree h1 hA h2 hs1 (by simp [hs2.length_eq]) t]]
  simp only [Finset.mul_sum]
  rw [Finset.sum_congr rfl fun p1 _ => Finset.sum_comm, Finset.sum_comm]
  refine Finset.sum_congr rfl fun b _ => ?_
  rw [sum_swap2]
  refine Finset.sum_congr rfl fun c _ => Finset.sum_congr rfl fun p1 _ => Finset.sum_congr rfl fun p2 _ => ?_
  ring

/-! ### the gauge -/

section
variable {L d i p q k : ℕ} {As : List (ND ℂ)} {E : ℕ → ℕ → ℕ → ℂ} {A B pr : ND ℂ} {U : ℕ → ℕ → ℕ → ℂ} {lam rho mu : ℕ → ℝ}

theorem SiteFacts.gauge_iff (hs : SiteFacts L d As E i A B p q k U pr lam rho mu) (W : ND ℂ) :
    LeftGauge d p q (leftEnv ((List.replicate L d).take i) (As.take i)) A W ↔
      ∀ c < q, ∀ c' < q, ∑ s ∈ range d, ∑ a ∈ range p, star (A.val [s, a, c]) * (lam a : ℂ) * W.val [s, a, c'] = 0 := by
  refine forall₂_congr fun c _ => forall₂_congr fun c' _ => ?_
  rw [Finset.sum_congr rfl fun s _ => Finset.sum_congr rfl fun a ha => by
    rw [Finset.sum_eq_single a (by
      intro b hb hne
      rw [hs.left a (Finset.mem_range.1 ha) b (Finset.mem_range.1 hb), if_neg (Ne.symm hne), mul_zero, zero_mul]) (fun hn => absurd ha hn),
      hs.left a (Finset.mem_range.1 ha) a (Finset.mem_range.1 ha), if_pos rfl]]

theorem SiteFacts.gauge (hs : SiteFacts L d As E i A B p q k U pr lam rho mu) :
    LeftGauge d p q (leftEnv ((List.replicate L d).take i) (As.take i)) A B := by
  rw [hs.gauge_iff]
  intro c hc c' hc'
  by_cases hq : d * p = q
  · refine Finset.sum_eq_zero fun s hs' => Finset.sum_eq_zero fun a ha => ?_
    rw [hs.hBv s (Finset.mem_range.1 hs') a (Finset.mem_range.1 ha) c' hc', if_pos hq, mul_zero]
  · rw [Finset.sum_congr rfl fun s hs' => Finset.sum_congr rfl fun a ha => by
      rw [hs.hBv s (Finset.mem_range.1 hs') a (Finset.mem_range.1 ha) c' hc', if_neg hq, Finset.mul_sum]]
    rw [sum_swap2]
    refine Finset.sum_eq_zero fun k1 hk1 => ?_
    rw [Finset.sum_congr rfl fun s _ => Finset.sum_congr rfl fun a _ => by rw [← mul_assoc]]
    simp only [← Finset.sum_mul]
    rw [hs.proj.null c hc k1 (Finset.mem_range.1 hk1), zero_mul]

/-- a tensor in the gauge is zero if the site has no tangent space -/
theorem SiteFacts.gauge_zero (hs : SiteFacts L d As E i A B p q k U pr lam rho mu) (hq : d * p = q) {W : ND ℂ}
    (hW : LeftGauge d p q (leftEnv ((List.replicate L d).take i) (As.take i)) A W) :
    ∀ s < d, ∀ a < p, ∀ c < q, W.val [s, a, c] = 0 := by
  rw [hs.gauge_iff] at hW
  subst hq
  intro s hs' a ha c hc
  have hpp : 0 < p := by omega
  set M : Matrix (Fin (d * p)) (Fin (d * p)) ℂ := fun x y => star (A.val [y.1 / p, y.1 % p, x.1]) * (lam (y.1 % p) : ℂ) with hM
  set N : Matrix (Fin (d * p)) (Fin (d * p)) ℂ := fun x y => A.val [x.1 / p, x.1 % p, y.1] * ((mu y.1 : ℝ) : ℂ)⁻¹ with hN
  have e : M * N = 1 := by
    ext x y
    rw [Matrix.mul_apply, Matrix.one_apply]
    have := hs.next x.1 x.2 y.1 y.2
    have hmu : ((mu y.1 : ℝ) : ℂ) ≠ 0 := Complex.ofReal_ne_zero.2 (hs.pos'' y.1 y.2).ne'
    have hsum := Fin.sum_univ_eq_sum_range (fun j => star (A.val [j / p, j % p, x.1]) * (lam (j % p) : ℂ) *
      (A.val [j / p, j % p, y.1] * ((mu y.1 : ℝ) : ℂ)⁻¹)) (d * p)
    refine hsum.trans ?_
    rw [sum_range_mul]
    rw [Finset.sum_congr rfl fun s _ => Finset.sum_congr rfl fun a ha => by
      rw [flat_div (Finset.mem_range.1 ha), flat_mod (Finset.mem_range.1 ha), ← mul_assoc]]
    simp only [← Finset.sum_mul]
    rw [this]
    by_cases hxy : x = y
    · subst hxy
      simp [hmu]
    · rw [if_neg (fun h => hxy (Fin.ext h)), if_neg hxy, zero_mul]
  have e' : N * M = 1 := mul_eq_one_comm.1 e
  set v : Fin (d * p) → ℂ := fun x => W.val [x.1 / p, x.1 % p, c] with hv
  have hMv : M.mulVec v = 0 := by
    ext x
    have := hW x.1 x.2 c hc
    show ∑ y, M x y * v y = 0
    rw [← this]
    have := Fin.sum_univ_eq_sum_range (fun j => star (A.val [j / p, j % p, x.1]) * (lam (j % p) : ℂ) * W.val [j / p, j % p, c]) (d * p)
    refine (this : ∑ y, M x y * v y = _).trans ?_
    rw [sum_range_mul]
    exact Finset.sum_congr rfl fun s _ => Finset.sum_congr rfl fun a ha => by
      rw [flat_div (Finset.mem_range.1 ha), flat_mod (Finset.mem_range.1 ha)]
  have hv0 : v = 0 := by
    have : (N * M).mulVec v = 0 := by rw [← Matrix.mulVec_mulVec, hMv, Matrix.mulVec_zero]
    rwa [e', Matrix.one_mulVec] at this
  have := congrFun hv0 ⟨s * p + a, mul_add_lt hs' ha⟩
  simp only [hv, flat_div ha, flat_mod ha] at this
  exact this

/-- the projection: both sides of the variational equation at the site -/
theorem SiteFacts.project (hs : SiteFacts L d As E i A B p q k U pr lam rho mu) {W : ND ℂ}
    (hW : LeftGauge d p q (leftEnv ((List.replicate L d).take i) (As.take i)) A W) :
    ∑ t ∈ range d, ∑ b ∈ range p, ∑ c ∈ range q, star (W.val [t, b, c]) * (∑ b' ∈ range p, ∑ c' ∈ range q,
        leftEnv ((List.replicate L d).take i) (As.take i) b b' * B.val [t, b', c'] * rightEnv ((List.replicate L d).drop (i + 1)) (As.drop (i + 1)) c' c) =
      ∑ t ∈ range d, ∑ b ∈ range p, ∑ c ∈ range q, star (W.val [t, b, c]) * E t b c := by
  by_cases hq : d * p = q
  · have h0 := hs.gauge_zero hq hW
    rw [Finset.sum_eq_zero, Finset.sum_eq_zero]
    · intro t ht
      refine Finset.sum_eq_zero fun b hb => Finset.sum_eq_zero fun c hc => ?_
      simp only [Finset.mem_range] at ht hb hc
      rw [h0 t ht b hb c hc, star_zero, zero_mul]
    · intro t ht
      refine Finset.sum_eq_zero fun b hb => Finset.sum_eq_zero fun c hc => ?_
      simp only [Finset.mem_range] at ht hb hc
      rw [h0 t ht b hb c hc, star_zero, zero_mul]
  · have hg := (hs.gauge_iff W).1 hW
    set w : ℕ → ℕ → ℂ := fun k1 c => ∑ s ∈ range d, ∑ a ∈ range p, star (W.val [s, a, c]) * (lam a : ℂ) * U s a k1 with hw
    set Y : ℕ → ℕ → ℂ := fun k1 c => ∑ t ∈ range d, ∑ b ∈ range p, star (U t b k1) * E t b c with hY
    have hWv : ∀ t < d, ∀ b < p, ∀ c < q, star (W.val [t, b, c]) = ∑ k1 ∈ range k, star (U t b k1) * w k1 c := by
      intro t ht b hb c hc
      have := hs.proj.complete (fun s a => W.val [s, a, c]) (fun c' hc' => hg c' hc' c hc) t ht b hb
      rw [this, star_sum]
      refine Finset.sum_congr rfl fun k1 _ => ?_
      rw [star_mul', star_sum]
      congr 1
      refine Finset.sum_congr rfl fun s _ => ?_
      rw [star_sum]
      refine Finset.sum_congr rfl fun a _ => ?_
      rw [star_mul', star_mul', star_star, show star (lam a : ℂ) = (lam a : ℂ) from Complex.conj_ofReal _]
      ring
    have hR : ∑ t ∈ range d, ∑ b ∈ range p, ∑ c ∈ range q, star (W.val [t, b, c]) * E t b c =
        ∑ c ∈ range q, ∑ k1 ∈ range k, w k1 c * Y k1 c := by
      rw [sum_swap2]
      refine Finset.sum_congr rfl fun c hc => ?_
      rw [Finset.sum_congr rfl fun t ht => Finset.sum_congr rfl fun b hb => by
        rw [hWv t (Finset.mem_range.1 ht) b (Finset.mem_range.1 hb) c (Finset.mem_range.1 hc), Finset.sum_mul]]
      rw [sum_swap2]
      refine Finset.sum_congr rfl fun k1 _ => ?_
      rw [hY, Finset.mul_sum]
      refine Finset.sum_congr rfl fun t _ => ?_
      rw [Finset.mul_sum]
      exact Finset.sum_congr rfl fun b _ => by ring
    rw [hR, sum_swap2]
    refine Finset.sum_congr rfl fun c hc => ?_
    have hc := Finset.mem_range.1 hc
    have hrne : (rho c : ℂ) ≠ 0 := Complex.ofReal_ne_zero.2 (hs.pos' c hc).ne'
    have hinner : ∀ t < d, ∀ b < p, ∑ b' ∈ range p, ∑ c' ∈ range q, leftEnv ((List.replicate L d).take i) (As.take i) b b' * B.val [t, b', c'] *
        rightEnv ((List.replicate L d).drop (i + 1)) (As.drop (i + 1)) c' c = ∑ k1 ∈ range k, (lam b : ℂ) * U t b k1 * Y k1 c := by
      intro t ht b hb
      rw [Finset.sum_eq_single b]
      · rw [hs.left b hb b hb, if_pos rfl, sum_diag_env hs.right _ hc, hs.hBv t ht b hb c hc, if_neg hq, Finset.mul_sum, Finset.sum_mul]
        refine Finset.sum_congr rfl fun k1 _ => ?_
        have : ∑ t ∈ range d, ∑ b ∈ range p, star (U t b k1) * (E t b c * (rho c : ℂ)⁻¹) = Y k1 c * (rho c : ℂ)⁻¹ := by
          rw [hY, Finset.sum_mul]
          refine Finset.sum_congr rfl fun t _ => ?_
          rw [Finset.sum_mul]
          exact Finset.sum_congr rfl fun b _ => by ring
        rw [this]
        field_simp
      · intro b' hb' hne
        rw [hs.left b hb b' (Finset.mem_range.1 hb'), if_neg (Ne.symm hne)]
        simp
      · intro hn
        exact absurd (Finset.mem_range.2 hb) hn
    rw [Finset.sum_congr rfl fun t ht => Finset.sum_congr rfl fun b hb => by
      rw [hinner t (Finset.mem_range.1 ht) b (Finset.mem_range.1 hb), Finset.mul_sum]]
    rw [sum_swap2]
    refine Finset.sum_congr rfl fun k1 _ => ?_
    rw [hw, Finset.sum_mul]
    refine Finset.sum_congr rfl fun t _ => ?_
    rw [Finset.sum_mul]
    exact Finset.sum_congr rfl fun b _ => by ring

end

/-! ### all sites together -/

section
variable {x y : FMPS ℂ} {L d : ℕ} {E : ℕ → ℕ → ℕ → ℕ → ℂ} (hx : x.Holds (List.replicate L d)) (hyl : y.data.length = L)
  (hs : ∀ i (hi : i < x.data.length) (hi' : i < y.data.length), ∃ p q k U pr lam rho mu,
    SiteFacts L d x.data (E i) i x.data[i] y.data[i] p q k U pr lam rho mu)
include hx hyl hs

/-- the inner products with the tangent vectors in the gauge are those of the environments -/
theorem sites_left {i : ℕ} (hi : i < x.data.length) {p q : ℕ} (hA : x.data[i].shape = [d, p, q]) {W : ND ℂ} (hW : W.shape = [d, p, q])
    (hg : LeftGauge d p q (leftEnv ((List.replicate L d).take i) (x.data.take i)) x.data[i] W) :
    pairing (List.replicate L d) (psi (swapIn x.data i W)) (tangentPsi x.data y.data) =
      ∑ t ∈ range d, ∑ b ∈ range p, ∑ c ∈ range q, star (W.val [t, b, c]) * E i t b c := by
  have hlen := hx.chain.length_eq
  rw [List.length_replicate] at hlen
  obtain ⟨p', q', k, U, pr, lam, rho, mu, h⟩ := hs i hi (by omega)
  have h' := h.hA
  rw [hA] at h'
  obtain ⟨rfl, rfl⟩ : p = p' ∧ q = q' := by simpa using h'
  have hdsi := replicate_cut (L := L) (d := d) (i := i) (by omega)
  unfold tangentPsi
  rw [pairing_sum, Finset.sum_eq_single i]
  · rw [← h.project hg, swapIn, set_cut hi W, swapIn, set_cut hi, List.getD_eq_getElem _ _ (by omega : i < y.data.length)]
    conv_lhs => rw [hdsi]
    rw [inner_site h.hp hW h.hn]
    refine Finset.sum_congr rfl fun t _ => Finset.sum_congr rfl fun b _ => Finset.sum_congr rfl fun c _ => ?_
    rw [envAmp_psi h.hp h.hB h.hn]
  · intro j hj hji
    have hj := Finset.mem_range.1 hj
    rw [List.getD_eq_getElem _ _ (by omega : j < y.data.length)]
    obtain ⟨pj, qj, kj, Uj, prj, lamj, rhoj, muj, g⟩ := hs j hj (by omega)
    have hdsj := replicate_cut (L := L) (d := d) (i := j) (by omega)
    rcases Nat.lt_or_ge i j with hlt | hge
    · -- to the right of the site
      have hBc : MpsChain ((List.replicate L d).drop (i + 1)) ((x.data.drop (i + 1)).set (j - i - 1) y.data[j]) q 1 :=
        chain_set (by simp; omega) h.hn (by
          rw [g.hB, List.getElem_drop, ← g.hA]
          congr 2
          omega)
      rw [swapIn, set_cut hi W]
      conv_lhs => rw [hdsi]
      refine inner_gauge (g := fun s2 c => amp ((x.data.drop (i + 1)).set (j - i - 1) y.data[j]) s2 c 0) h.hp hW h.hn hg ?_
      intro s1 hs1 t ht s2 hs2
      rw [swapIn, set_right hlt hj]
      exact psi_agree h.hp h.hA hBc hs1 hs2.length_eq t
    · -- to the left of the site
      have hlt : j < i := by omega
      have hWc' : MpsChain ((List.replicate L d).drop (j + 1)) ((x.data.drop (j + 1)).set (i - j - 1) W) qj 1 :=
        chain_set (by simp; omega) g.hn (by
          rw [hW, List.getElem_drop, ← hA]
          congr 2
          omega)
      rw [← pairing_star, swapIn, set_cut hj]
      conv_lhs => rw [hdsj]
      rw [inner_gauge (g := fun s2 c => amp ((x.data.drop (j + 1)).set (i - j - 1) W) s2 c 0) g.hp g.hB g.hn g.gauge, star_zero]
      intro s1 hs1 t ht s2 hs2
      rw [swapIn, set_right hlt hi]
      exact psi_agree g.hp g.hA hWc' hs1 hs2.length_eq t
  · intro hn
    exact absurd (Finset.mem_range.2 hi) hn

/-- the tangent vector is orthogonal to the state -/
theorem sites_norm : pairing (List.replicate L d) (psi x.data) (tangentPsi x.data y.data) = 0 := by
  have hlen := hx.chain.length_eq
  rw [List.length_replicate] at hlen
  unfold tangentPsi
  rw [pairing_sum]
  refine Finset.sum_eq_zero fun j hj => ?_
  have hj := Finset.mem_range.1 hj
  rw [List.getD_eq_getElem _ _ (by omega : j < y.data.length)]
  obtain ⟨pj, qj, kj, Uj, prj, lamj, rhoj, muj, g⟩ := hs j hj (by omega)
  have hdsj := replicate_cut (L := L) (d := d) (i := j) (by omega)
  rw [← pairing_star, swapIn, set_cut hj]
  conv_lhs => rw [hdsj]
  rw [inner_gauge (g := fun s2 c => amp (x.data.drop (j + 1)) s2 c 0) g.hp g.hB g.hn g.gauge, star_zero]
  intro s1 hs1 t ht s2 hs2
  conv_lhs => rw [list_cut hj]
  exact psi_agree g.hp g.hA g.hn hs1 hs2.length_eq t

end

/-! ### the theorems -/

section
variable {chol inv null : ND ℂ → Py (ND ℂ)} (hchol : CholTriLaw chol) (hinv : InvLaw inv) (hnull : NullLaw null) (O : SetOrder)
  {x : FMPS ℂ} {L d : ℕ} (hd : 0 < d) (hx : x.Holds (List.replicate L d)) (hf : FullEnvs (List.replicate L d) x.data)
  {H : List (ND ℂ)} (hL : H.length < L) (hH : ∀ h ∈ H, h.shape = [d * d, d * d])
include hchol hinv hnull hd hx hf hL hH

/-- **C48** `dA_dt(H)` at a chain whose environments are diagonal with positive entries succeeds, and every tensor of the result has the shape of
the tensor of the state and is in the left gauge: `Σ_s A_s† l B_s = 0` with the left environment `l` of the site. -/
theorem FMPS.dAdt_gauge : ∃ y, FMPS.dAdt chol inv null O x H = .ok y ∧ y.Holds (List.replicate L d) ∧
    ∀ i (hi : i < x.data.length) (hi' : i < y.data.length), ∀ p q, x.data[i].shape = [d, p, q] → y.data[i].shape = [d, p, q] ∧
      LeftGauge d p q (leftEnv ((List.replicate L d).take i) (x.data.take i)) x.data[i] y.data[i] := by
  obtain ⟨y, e, hy, -, hs⟩ := dAdt_facts hchol hinv hnull O hd hx hf hL hH
  refine ⟨y, e, hy, ?_⟩
  intro i hi hi' p q hA
  obtain ⟨p', q', k, U, pr, lam, rho, mu, h⟩ := hs i hi hi'
  have h' := h.hA
  rw [hA] at h'
  obtain ⟨rfl, rfl⟩ : p = p' ∧ q = q' := by simpa using h'
  exact ⟨h.hB, h.gauge⟩

/-- **C64** The vector of `dA_dt(H)` is the projection of `-i H ψ`: for every site `i` and every tensor `W` in the left gauge there, the tangent
vector with `W` in place of the tensor `i` has the same inner product with the vector of `dA_dt(H)` as with `-i H ψ`. -/
theorem FMPS.dAdt_tdvp {y : FMPS ℂ} (e : FMPS.dAdt chol inv null O x H = .ok y) {i : ℕ} (hi : i < x.data.length) {p q : ℕ}
    (hA : x.data[i].shape = [d, p, q]) {W : ND ℂ} (hW : W.shape = [d, p, q])
    (hg : LeftGauge d p q (leftEnv ((List.replicate L d).take i) (x.data.take i)) x.data[i] W) :
    pairing (List.replicate L d) (psi (swapIn x.data i W)) (tangentPsi x.data y.data) =
      pairing (List.replicate L d) (psi (swapIn x.data i W)) (fun s => -Complex.I * hamAct d H (psi x.data) s) := by
  obtain ⟨y', e', hy, hyl, hs⟩ := dAdt_facts hchol hinv hnull O hd hx hf hL hH
  rw [e] at e'
  injection e' with e'
  subst e'
  have hlen := hx.chain.length_eq
  rw [List.length_replicate] at hlen
  obtain ⟨p', q', k, U, pr, lam, rho, mu, h⟩ := hs i hi (by omega)
  have h' := h.hA
  rw [hA] at h'
  obtain ⟨rfl, rfl⟩ : p = p' ∧ q = q' := by simpa using h'
  have hdsi := replicate_cut (L := L) (d := d) (i := i) (by omega)
  have hWc := chain_set hi hx.chain (B := W) (by rw [hW, hA])
  have hleft : pairing (List.replicate L d) (psi (swapIn x.data i W)) (tangentPsi x.data y.data) =
      ∑ t ∈ range d, ∑ b ∈ range p, ∑ c ∈ range q, star (W.val [t, b, c]) * termsEnv L d x.data H i t b c:=
    sites_left hx hyl hs hi hA hW hg
  rw [hleft, pairing_smul]
  unfold hamAct
  rw [pairing_sum]
  have hterm : ∀ m < H.length, pairing (List.replicate L d) (psi (swapIn x.data i W)) (gateAct d (H.getD m ⟨[], fun _ => 0⟩) m (m + 1) (psi x.data)) =
      if m ≤ i then ∑ t ∈ range d, ∑ b ∈ range p, ∑ c ∈ range q, star (W.val [t, b, c]) * envAmp ((List.replicate L d).take i) (x.data.take i)
        ((List.replicate L d).drop (i + 1)) (x.data.drop (i + 1)) (gateAct d (H.getD m ⟨[], fun _ => 0⟩) m (m + 1) (psi x.data)) t b c else 0 := by
    intro m hm
    rw [swapIn, set_cut hi W]
    conv_lhs => rw [hdsi]
    by_cases hmi : m ≤ i
    · rw [if_pos hmi, inner_site h.hp hW h.hn]
    · rw [if_neg hmi]
      have hl1 : ((List.replicate L d).take i).length = i := by simp; omega
      refine inner_gauge h.hp hW h.hn hg (f := gateAct d (H.getD m ⟨[], fun _ => 0⟩) m (m + 1) (psi x.data))
        (g := fun s2 c => ∑ p1 ∈ range d, ∑ p2 ∈ range d, (H.getD m ⟨[], fun _ => 0⟩).val [s2.getD (m - ((List.replicate L d).take i).length - 1) 0 * d +
          s2.getD (m + 1 - ((List.replicate L d).take i).length - 1) 0, p1 * d + p2] *
            amp (x.data.drop (i + 1)) ((s2.set (m - ((List.replicate L d).take i).length - 1) p1).set (m + 1 - ((List.replicate L d).take i).length - 1) p2) c 0) ?_
      intro s1 hs1 t ht s2 hs2
      conv_lhs => rw [list_cut hi]
      exact gate_agree h.hp h.hA h.hn (by rw [hl1]; omega) hs1 hs2 t
  rw [Finset.sum_congr rfl fun m hm => hterm m (Finset.mem_range.1 hm), Finset.mul_sum]
  simp only [termsEnv, Finset.mul_sum]
  rw [sum_swap3]
  refine Finset.sum_congr rfl fun m _ => ?_
  split_ifs
  · simp only [Finset.mul_sum]
    refine Finset.sum_congr rfl fun t _ => Finset.sum_congr rfl fun b _ => Finset.sum_congr rfl fun c _ => ?_
    ring
  · simp

/-- the tangent vector is orthogonal to the state: the norm does not change to first order -/
theorem FMPS.dAdt_norm {y : FMPS ℂ} (e : FMPS.dAdt chol inv null O x H = .ok y) :
    pairing (List.replicate L d) (psi x.data) (tangentPsi x.data y.data) = 0 := by
  obtain ⟨y', e', hy, hyl, hs⟩ := dAdt_facts hchol hinv hnull O hd hx hf hL hH
  rw [e] at e'
  injection e' with e'
  subst e'
  exact sites_norm hx hyl hs

/-- the variational equation for sums of tangent vectors -/
theorem FMPS.dAdt_project {y : FMPS ℂ} (e : FMPS.dAdt chol inv null O x H = .ok y) {Ws : List (ND ℂ)} (hWl : Ws.length = x.data.length)
    (hW : ∀ i (hi : i < x.data.length) (hi' : i < Ws.length), ∀ p q, x.data[i].shape = [d, p, q] → Ws[i].shape = [d, p, q] ∧
      LeftGauge d p q (leftEnv ((List.replicate L d).take i) (x.data.take i)) x.data[i] Ws[i]) :
    pairing (List.replicate L d) (tangentPsi x.data Ws) (tangentPsi x.data y.data) =
      pairing (List.replicate L d) (tangentPsi x.data Ws) (fun s => -Complex.I * hamAct d H (psi x.data) s) := by
  have h1 : ∀ g, pairing (List.replicate L d) (tangentPsi x.data Ws) g =
      ∑ i ∈ range x.data.length, pairing (List.replicate L d) (psi (swapIn x.data i (Ws.getD i ⟨[], fun _ => 0⟩))) g :=
    fun g => pairing_sum_left _ _ _ _
  rw [h1, h1]
  refine Finset.sum_congr rfl fun i hi => ?_
  have hi := Finset.mem_range.1 hi
  obtain ⟨p, q, -, hA, -, -⟩ := chain_site hx.chain hi
  obtain ⟨g1, g2⟩ := hW i hi (by omega) p q hA
  rw [List.getD_eq_getElem _ _ (by omega : i < Ws.length)]
  exact FMPS.dAdt_tdvp hchol hinv hnull O hd hx hf hL hH e hi hA g1 g2

/-- the energy does not change to first order: `Re⟨Φ(B)|H ψ⟩ = 0` -/
theorem FMPS.dAdt_energy {y : FMPS ℂ} (e : FMPS.dAdt chol inv null O x H = .ok y) :
    (pairing (List.replicate L d) (tangentPsi x.data y.data) (hamAct d H (psi x.data))).re = 0 := by
  obtain ⟨y', e', hy, hg⟩ := FMPS.dAdt_gauge hchol hinv hnull O hd hx hf hL hH
  rw [e] at e'
  injection e' with e'
  subst e'
  have key := FMPS.dAdt_project hchol hinv hnull O hd hx hf hL hH e (Ws := y.data) (by rw [hy.chain.length_eq, hx.chain.length_eq]) hg
  rw [pairing_smul] at key
  have him : (pairing (List.replicate L d) (tangentPsi x.data y.data) (tangentPsi x.data y.data)).im = 0 :=
    Complex.conj_eq_iff_im.1 (pairing_star _ _ _)
  rw [key] at him
  simpa using him

end

end Xmps
