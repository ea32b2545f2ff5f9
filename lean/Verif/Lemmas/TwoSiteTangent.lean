import Verif.Lemmas.RightNull

/-!
# Two neighbouring sites and the tangent space
-/

namespace Xmps

open Finset Spec Xmps.Ncon

/-- `Σ conj(vL) conj(vR) X r` -/
noncomputable def gSum (d p n : ℕ) (vL vR : ND ℂ) (rho : ℕ → ℝ) (X : ℕ → ℕ → ℕ → ℕ → ℂ) (k1 k2 : ℕ) : ℂ :=
  ∑ t ∈ range d, ∑ u ∈ range d, ∑ a ∈ range p, ∑ b ∈ range n, star (vL.val [t, a, k1]) * star (vR.val [u, k2, b]) * (X t u a b * (rho b : ℂ))

/-- `X = A W + V B` for some `W`, `V` -/
def TwoTangent (d p q n : ℕ) (A B : ND ℂ) (X : ℕ → ℕ → ℕ → ℕ → ℂ) : Prop :=
  ∃ W V : ND ℂ, W.shape = [d, q, n] ∧ V.shape = [d, p, q] ∧ ∀ t < d, ∀ u < d, ∀ a < p, ∀ b < n,
    X t u a b = ∑ c ∈ range q, A.val [t, a, c] * W.val [u, c, b] + ∑ c ∈ range q, V.val [t, a, c] * B.val [u, c, b]

section
variable {d p q n kL kR : ℕ} {A B vL vR : ND ℂ} {lam rho mu : ℕ → ℝ} {X : ℕ → ℕ → ℕ → ℕ → ℂ}

/-- `vL` is orthogonal to `A` -/
theorem NullBasis.null_one (hb : NullBasis d p q kL A lam vL) (hlam : ∀ a < p, lam a = 1) {c k1 : ℕ} (hc : c < q) (hk : k1 < kL) :
    ∑ s ∈ range d, ∑ a ∈ range p, star (vL.val [s, a, k1]) * A.val [s, a, c] = 0 := by
  have h := congrArg star (hb.null c hc k1 hk)
  rw [star_zero, star_sum] at h
  rw [← h]
  refine Finset.sum_congr rfl fun s _ => ?_
  rw [star_sum]
  refine Finset.sum_congr rfl fun a ha => ?_
  rw [hlam a (Finset.mem_range.1 ha)]
  simp only [Real.sqrt_one, Complex.ofReal_one, mul_one, star_mul', star_star]
  ring

theorem RNullBasis.null_star (hb : RNullBasis d q n kR B rho vR) {c k1 : ℕ} (hc : c < q) (hk : k1 < kR) :
    ∑ s ∈ range d, ∑ a ∈ range n, B.val [s, c, a] * (rho a : ℂ) * star (vR.val [s, k1, a]) = 0 := by
  have h := congrArg star (hb.null c hc k1 hk)
  rw [star_zero, star_sum] at h
  rw [← h]
  refine Finset.sum_congr rfl fun s _ => ?_
  rw [star_sum]
  refine Finset.sum_congr rfl fun a ha => ?_
  simp only [star_mul', star_star]
  rw [show star ((rho a : ℝ) : ℂ) = _ from Complex.conj_ofReal _]

theorem gSum_tangent (hL : NullBasis d p q kL A lam vL) (hlam : ∀ a < p, lam a = 1) (hR : RNullBasis d q n kR B rho vR)
    (h : TwoTangent d p q n A B X) {k1 k2 : ℕ} (h1 : k1 < kL) (h2 : k2 < kR) : gSum d p n vL vR rho X k1 k2 = 0 := by
  obtain ⟨W, V, -, -, hX⟩ := h
  unfold gSum
  calc _ = ∑ t ∈ range d, ∑ u ∈ range d, ∑ a ∈ range p, ∑ b ∈ range n, ∑ c ∈ range q,
        ((star (vL.val [t, a, k1]) * A.val [t, a, c]) * (star (vR.val [u, k2, b]) * (W.val [u, c, b] * (rho b : ℂ))) +
          (star (vL.val [t, a, k1]) * V.val [t, a, c]) * (B.val [u, c, b] * (rho b : ℂ) * star (vR.val [u, k2, b]))) := by
        refine Finset.sum_congr rfl fun t ht => Finset.sum_congr rfl fun u hu => Finset.sum_congr rfl fun a ha => Finset.sum_congr rfl fun b hb => ?_
        simp only [Finset.mem_range] at ht hu ha hb
        rw [hX t ht u hu a ha b hb, ← Finset.sum_add_distrib, Finset.sum_mul, Finset.mul_sum]
        exact Finset.sum_congr rfl fun c _ => by ring
    _ = ∑ c ∈ range q, ((∑ t ∈ range d, ∑ a ∈ range p, star (vL.val [t, a, k1]) * A.val [t, a, c]) *
          (∑ u ∈ range d, ∑ b ∈ range n, star (vR.val [u, k2, b]) * (W.val [u, c, b] * (rho b : ℂ))) +
          (∑ t ∈ range d, ∑ a ∈ range p, star (vL.val [t, a, k1]) * V.val [t, a, c]) *
          (∑ u ∈ range d, ∑ b ∈ range n, B.val [u, c, b] * (rho b : ℂ) * star (vR.val [u, k2, b]))) := by
        rw [sum_swap4]
        refine Finset.sum_congr rfl fun c _ => ?_
        simp only [Finset.sum_add_distrib]
        have key : ∀ F K : ℕ → ℕ → ℂ, ∑ t ∈ range d, ∑ u ∈ range d, ∑ a ∈ range p, ∑ b ∈ range n, F t a * K u b =
            (∑ t ∈ range d, ∑ a ∈ range p, F t a) * ∑ u ∈ range d, ∑ b ∈ range n, K u b := by
          intro F K
          rw [Finset.sum_mul]
          refine Finset.sum_congr rfl fun t _ => ?_
          rw [Finset.sum_comm, Finset.sum_mul]
          refine Finset.sum_congr rfl fun a _ => ?_
          rw [Finset.mul_sum]
          exact Finset.sum_congr rfl fun u _ => by rw [Finset.mul_sum]
        rw [key (fun t a => star (vL.val [t, a, k1]) * A.val [t, a, c]) (fun u b => star (vR.val [u, k2, b]) * (W.val [u, c, b] * (rho b : ℂ))),
          key (fun t a => star (vL.val [t, a, k1]) * V.val [t, a, c]) (fun u b => B.val [u, c, b] * (rho b : ℂ) * star (vR.val [u, k2, b]))]
    _ = 0 := by
        refine Finset.sum_eq_zero fun c hc => ?_
        have hc := Finset.mem_range.1 hc
        rw [hL.null_one hlam hc h1, hR.null_star hc h2, zero_mul, mul_zero, add_zero]

theorem tangent_of_gSum (hL : NullBasis d p q kL A lam vL) (hlam : ∀ a < p, lam a = 1) (hR : RNullBasis d q n kR B rho vR)
    (hiso : ∀ c < q, ∀ c' < q, ∑ s ∈ range d, ∑ a ∈ range p, star (A.val [s, a, c]) * A.val [s, a, c'] = if c = c' then 1 else 0)
    (next : ∀ c < q, ∀ c' < q, ∑ s ∈ range d, ∑ a ∈ range n, B.val [s, c, a] * (rho a : ℂ) * star (B.val [s, c', a]) = if c = c' then (mu c : ℂ) else 0)
    (hpos : ∀ a < n, 0 < rho a) (hmu : ∀ a < q, 0 < mu a)
    (hG : ∀ k1 < kL, ∀ k2 < kR, gSum d p n vL vR rho X k1 k2 = 0) : TwoTangent d p q n A B X := by
  set W1 : ℕ → ℕ → ℕ → ℂ := fun u c b => ∑ t ∈ range d, ∑ a ∈ range p, star (A.val [t, a, c]) * X t u a b with hW1
  set Y : ℕ → ℕ → ℕ → ℂ := fun k u b => ∑ t ∈ range d, ∑ a ∈ range p, star (vL.val [t, a, k]) * X t u a b with hY
  set w : ℕ → ℕ → ℂ := fun k c => (mu c : ℂ)⁻¹ * ∑ u ∈ range d, ∑ b ∈ range n, Y k u b * (rho b : ℂ) * star (B.val [u, c, b]) with hw
  have hsum : ∀ F : ℕ → ℕ → ℂ, ∀ u b, ∑ t ∈ range d, ∑ a ∈ range p, F t a * (X t u a b - ∑ c ∈ range q, A.val [t, a, c] * W1 u c b) =
      ∑ t ∈ range d, ∑ a ∈ range p, F t a * X t u a b - ∑ c ∈ range q, (∑ t ∈ range d, ∑ a ∈ range p, F t a * A.val [t, a, c]) * W1 u c b := by
    intro F u b
    simp only [mul_sub, Finset.sum_sub_distrib, Finset.mul_sum]
    congr 1
    rw [sum_swap2]
    refine Finset.sum_congr rfl fun c _ => ?_
    rw [Finset.sum_mul]
    refine Finset.sum_congr rfl fun t _ => ?_
    rw [Finset.sum_mul]
    exact Finset.sum_congr rfl fun a _ => by ring
  have hZ : ∀ u b, ∀ t < d, ∀ a < p, X t u a b - ∑ c ∈ range q, A.val [t, a, c] * W1 u c b = ∑ k ∈ range kL, vL.val [t, a, k] * Y k u b := by
    intro u b t ht a ha
    rw [hL.complete (fun t a => X t u a b - ∑ c ∈ range q, A.val [t, a, c] * W1 u c b) (by
      intro c hc
      have : ∀ s a, a ∈ range p → star (A.val [s, a, c]) * (Real.sqrt (lam a) : ℝ) = star (A.val [s, a, c]) := by
        intro s a ha
        rw [hlam a (Finset.mem_range.1 ha)]
        simp
      rw [Finset.sum_congr rfl fun s _ => Finset.sum_congr rfl fun a ha => by rw [this s a ha]]
      rw [hsum (fun t a => star (A.val [t, a, c])), sub_eq_zero, Finset.sum_eq_single (s := range q) c]
      · rw [hiso c hc c hc, if_pos rfl, one_mul]
      · intro c' hc' hne
        rw [hiso c hc c' (Finset.mem_range.1 hc'), if_neg (Ne.symm hne), zero_mul]
      · intro hn
        exact absurd (Finset.mem_range.2 hc) hn) t ht a ha]
    refine Finset.sum_congr rfl fun k hk => ?_
    rw [hsum (fun t a => star (vL.val [t, a, k])), sub_eq_self.2]
    exact Finset.sum_eq_zero fun c hc => by rw [hL.null_one hlam (Finset.mem_range.1 hc) (Finset.mem_range.1 hk), zero_mul]
  have hYB : ∀ k < kL, ∀ u < d, ∀ b < n, Y k u b - ∑ c ∈ range q, w k c * B.val [u, c, b] = 0 := by
    intro k hk
    have hsum2 : ∀ F : ℕ → ℕ → ℂ, ∑ u ∈ range d, ∑ b ∈ range n, (Y k u b - ∑ c ∈ range q, w k c * B.val [u, c, b]) * (rho b : ℂ) * F u b =
        ∑ u ∈ range d, ∑ b ∈ range n, Y k u b * (rho b : ℂ) * F u b -
          ∑ c ∈ range q, w k c * ∑ u ∈ range d, ∑ b ∈ range n, B.val [u, c, b] * (rho b : ℂ) * F u b := by
      intro F
      simp only [sub_mul, Finset.sum_sub_distrib, Finset.mul_sum, Finset.sum_mul]
      congr 1
      rw [sum_swap2]
      exact Finset.sum_congr rfl fun c _ => Finset.sum_congr rfl fun u _ => Finset.sum_congr rfl fun b _ => by ring
    refine hR.zero hpos (v := fun u b => Y k u b - ∑ c ∈ range q, w k c * B.val [u, c, b]) ?_ ?_
    · intro c hc
      have h := hsum2 (fun u b => star (B.val [u, c, b]))
      rw [Finset.sum_eq_single (s := range q) c] at h
      · have hne : (mu c : ℂ) ≠ 0 := Complex.ofReal_ne_zero.2 (hmu c hc).ne'
        rw [next c hc c hc, if_pos rfl] at h
        have hw' : w k c * (mu c : ℂ) = ∑ u ∈ range d, ∑ b ∈ range n, Y k u b * (rho b : ℂ) * star (B.val [u, c, b]) := by
          simp only [hw]
          rw [mul_right_comm, inv_mul_cancel₀ hne, one_mul]
        rw [hw', sub_self] at h
        rw [← h]
        exact Finset.sum_congr rfl fun u _ => Finset.sum_congr rfl fun b _ => by ring
      · intro c' hc' hne
        rw [next c' (Finset.mem_range.1 hc') c hc, if_neg hne, mul_zero]
      · intro hn
        exact absurd (Finset.mem_range.2 hc) hn
    · intro k2 hk2
      rw [hsum2 fun u b => star (vR.val [u, k2, b]), Finset.sum_eq_zero (s := range q) fun c hc => by rw [hR.null_star (Finset.mem_range.1 hc) hk2, mul_zero],
        sub_zero, ← hG k hk k2 hk2]
      unfold gSum
      simp only [hY]
      symm
      rw [Finset.sum_comm]
      refine Finset.sum_congr rfl fun u _ => ?_
      rw [Finset.sum_congr rfl fun t _ => Finset.sum_comm, Finset.sum_comm]
      refine Finset.sum_congr rfl fun b _ => ?_
      rw [Finset.sum_mul, Finset.sum_mul]
      refine Finset.sum_congr rfl fun t _ => ?_
      rw [Finset.sum_mul, Finset.sum_mul]
      exact Finset.sum_congr rfl fun a _ => by ring
  refine ⟨⟨[d, q, n], fun
      | [u, c, b] => W1 u c b
      | _ => 0⟩, ⟨[d, p, q], fun
      | [t, a, c] => ∑ k ∈ range kL, vL.val [t, a, k] * w k c
      | _ => 0⟩, rfl, rfl, ?_⟩
  intro t ht u hu a ha b hb
  simp only
  rw [← sub_eq_iff_eq_add', hZ u b t ht a ha]
  simp only [Finset.sum_mul]
  rw [Finset.sum_comm]
  refine Finset.sum_congr rfl fun k hk => ?_
  rw [sub_eq_zero.1 (hYB k (Finset.mem_range.1 hk) u hu b hb), Finset.mul_sum]
  exact Finset.sum_congr rfl fun c _ => by ring

end

end Xmps
