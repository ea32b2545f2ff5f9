import Verif.Props.TdvpCanon
import Verif.Spec.ProjError

/-!
# Every tangent vector is one in the left gauge plus a multiple of the state
-/

namespace Xmps

open Spec Finset

/-- the tangent vector as seen from a value of the left bond -/
def tanAmp : List (ND ℂ) → List (ND ℂ) → List ℕ → ℕ → ℂ
  | A :: As, B :: Bs, t :: s, a => ∑ c ∈ range (A.dim 2), (B.val [t, a, c] * amp As s c 0 + A.val [t, a, c] * tanAmp As Bs s c)
  | _, _, _, _ => 0

theorem tanAmp_eq : ∀ (As Bs : List (ND ℂ)) (s : List ℕ) (a : ℕ), List.Forall₂ (fun B A => B.shape = A.shape) Bs As → s.length = As.length →
    ∑ i ∈ range As.length, amp (As.set i (Bs.getD i ⟨[], fun _ => 0⟩)) s a 0 = tanAmp As Bs s a
  | [], _, _, _, _, _ => by simp [tanAmp]
  | A :: As, B :: Bs, t :: s, a, h, hl => by
    have hs : B.shape = A.shape := (List.forall₂_cons.1 h).1
    have hd : B.dim 2 = A.dim 2 := by unfold ND.dim; rw [hs]
    have ih := fun c => tanAmp_eq As Bs s c (List.forall₂_cons.1 h).2 (by simpa using hl)
    rw [List.length_cons, Finset.sum_range_succ']
    simp only [List.set_cons_zero, List.getD_cons_zero, List.set_cons_succ, List.getD_cons_succ, amp_cons, tanAmp]
    rw [Finset.sum_comm, hd, ← Finset.sum_add_distrib]
    refine Finset.sum_congr rfl fun c _ => ?_
    rw [← ih c, Finset.mul_sum]
    ring

/-- the tangent vector of tensors of the same shapes -/
theorem tangentPsi_eq {ds : List ℕ} {As Bs : List (ND ℂ)} (hc : MpsChain ds As 1 1) (hB : List.Forall₂ (fun B A => B.shape = A.shape) Bs As)
    {s : List ℕ} (hs : s.length = ds.length) : tangentPsi As Bs s = tanAmp As Bs s 0 := by
  rw [← tanAmp_eq As Bs s 0 hB (by rw [hs, hc.length_eq])]
  unfold tangentPsi
  refine Finset.sum_congr rfl fun i hi => ?_
  have hi := Finset.mem_range.1 hi
  have hl := hB.length_eq
  unfold swapIn
  refine psi_eq_amp (chain_set hi hc ?_) ?_ hs
  · rw [List.getD_eq_getElem _ _ (by omega)]
    exact hB.get (by omega) hi
  · intro h
    have := congrArg List.length h
    rw [List.length_set, List.length_nil] at this
    omega

/-- the tensor of the next site, the matrix `X` on the bond before it absorbed -/
def absorb (p : ℕ) (X : ℕ → ℕ → ℂ) (A B : ND ℂ) (t a c : ℕ) : ℂ := B.val [t, a, c] + ∑ b ∈ range p, X a b * A.val [t, b, c]

/-- the matrix to be moved to the next bond -/
noncomputable def moved (d p : ℕ) (lam mu : ℕ → ℝ) (A : ND ℂ) (Z : ℕ → ℕ → ℕ → ℂ) (c c' : ℕ) : ℂ :=
  (mu c : ℂ)⁻¹ * ∑ s ∈ range d, ∑ a ∈ range p, star (A.val [s, a, c]) * (lam a : ℂ) * Z s a c'

theorem gauge_fix : ∀ (ds2 : List ℕ) (As2 Bs : List (ND ℂ)) (ds1 : List ℕ) (As1 : List (ND ℂ)) (p : ℕ) (X : ℕ → ℕ → ℂ), MpsChain ds1 As1 1 p →
    MpsChain ds2 As2 p 1 → List.Forall₂ (fun B A => B.shape = A.shape) Bs As2 →
    (∀ k ≤ ds2.length, ∀ q, MpsChain (ds2.take k) (As2.take k) p q → ∃ lam : ℕ → ℝ, (∀ a < q, 0 < lam a) ∧
      ∀ a < q, ∀ b < q, leftEnv (ds1 ++ ds2.take k) (As1 ++ As2.take k) a b = if a = b then (lam a : ℂ) else 0) →
    ∃ (Cs : List (ND ℂ)) (z : ℂ), List.Forall₂ (fun B A => B.shape = A.shape) Cs As2 ∧
      (∀ i (hi : i < As2.length) (hi' : i < Cs.length), ∀ d p q, As2[i].shape = [d, p, q] →
        LeftGauge d p q (leftEnv (ds1 ++ ds2.take i) (As1 ++ As2.take i)) As2[i] Cs[i]) ∧
      ∀ s, InB ds2 s → ∀ a < p, tanAmp As2 Bs s a + ∑ b ∈ range p, X a b * amp As2 s b 0 = tanAmp As2 Cs s a + z * amp As2 s a 0
  | [], [], [], ds1, As1, p, X, h1, h2, _, _ => by
    have hp : p = 1 := h2
    subst hp
    refine ⟨[], X 0 0, List.Forall₂.nil, fun i hi => absurd hi (by simp), ?_⟩
    intro s hs a ha
    match s, hs with
    | [], _ =>
      obtain rfl : a = 0 := by omega
      simp [tanAmp]
  | d :: ds2, A :: As2, B :: Bs, ds1, As1, p, X, h1, ⟨q, hA, h2⟩, hB, henv => by
    have hBA : B.shape = A.shape := (List.forall₂_cons.1 hB).1
    obtain ⟨lam, lpos, l0⟩ := henv 0 (by omega) p rfl
    obtain ⟨mu, mpos, m0⟩ := henv 1 (by simp) q ⟨q, hA, rfl⟩
    simp only [List.take_zero, List.append_nil] at l0
    simp only [List.take_succ_cons, List.take_zero] at m0
    set Z := absorb p X A B with hZ
    set Y := moved d p lam mu A Z with hY
    set C : ND ℂ := ⟨[d, p, q], fun | [t, a, c] => Z t a c - ∑ e ∈ range q, A.val [t, a, e] * Y e c | _ => 0⟩ with hC
    have hsn : MpsChain (ds1 ++ [d]) (As1 ++ [A]) 1 q := (mpsChain_append h1.length_eq).2 ⟨p, h1, q, hA, rfl⟩
    obtain ⟨Cs, z, c1, c2, c3⟩ := gauge_fix ds2 As2 Bs (ds1 ++ [d]) (As1 ++ [A]) q Y hsn h2 (List.forall₂_cons.1 hB).2 (by
      intro k hk r hr
      obtain ⟨l, p1, p2⟩ := henv (k + 1) (by simpa using hk) r ⟨q, hA, hr⟩
      refine ⟨l, p1, ?_⟩
      simpa using p2)
    have hnext : ∀ c < q, ∀ e < q, ∑ s ∈ range d, ∑ a ∈ range p, star (A.val [s, a, c]) * (lam a : ℂ) * A.val [s, a, e] = if c = e then (mu c : ℂ) else 0 := by
      intro c hc e he
      rw [← m0 c hc e he, leftEnv_snoc h1 hA c e hc he]
      refine Finset.sum_congr rfl fun s _ => Finset.sum_congr rfl fun a ha => ?_
      have ha := Finset.mem_range.1 ha
      rw [Finset.sum_eq_single a]
      · rw [l0 a ha a ha, if_pos rfl]
      · intro b hb hne
        rw [l0 a ha b (Finset.mem_range.1 hb), if_neg (Ne.symm hne)]
        ring
      · intro hn
        exact absurd (Finset.mem_range.2 ha) hn
    refine ⟨C :: Cs, z, List.Forall₂.cons hA.symm c1, ?_, ?_⟩
    · intro i hi hi' d' p' q' hs
      match i with
      | 0 =>
        simp only [List.getElem_cons_zero] at hs ⊢
        rw [hA] at hs
        obtain ⟨rfl, rfl, rfl⟩ : d = d' ∧ p = p' ∧ q = q' := by simpa using hs
        simp only [List.take_zero, List.append_nil]
        intro c hc c' hc'
        have hmu : (mu c : ℂ) ≠ 0 := by
          have := mpos c hc
          exact_mod_cast this.ne'
        have e1 : ∑ s ∈ range d, ∑ a ∈ range p, ∑ a' ∈ range p, star (A.val [s, a, c]) * leftEnv ds1 As1 a a' * C.val [s, a', c'] =
            ∑ s ∈ range d, ∑ a ∈ range p, (star (A.val [s, a, c]) * (lam a : ℂ) * Z s a c' -
              ∑ e ∈ range q, star (A.val [s, a, c]) * (lam a : ℂ) * A.val [s, a, e] * Y e c') := by
          refine Finset.sum_congr rfl fun s _ => Finset.sum_congr rfl fun a ha => ?_
          have ha := Finset.mem_range.1 ha
          rw [Finset.sum_eq_single a]
          · rw [l0 a ha a ha, if_pos rfl]
            simp only [hC]
            rw [mul_sub, Finset.mul_sum]
            congr 1
            exact Finset.sum_congr rfl fun e _ => by ring
          · intro b hb hne
            rw [l0 a ha b (Finset.mem_range.1 hb), if_neg (Ne.symm hne)]
            ring
          · intro hn
            exact absurd (Finset.mem_range.2 ha) hn
        rw [e1]
        simp only [Finset.sum_sub_distrib]
        rw [sum_swap2, sub_eq_zero]
        have e2 : ∀ e ∈ range q, ∑ s ∈ range d, ∑ a ∈ range p, star (A.val [s, a, c]) * (lam a : ℂ) * A.val [s, a, e] * Y e c' =
            (if c = e then (mu c : ℂ) else 0) * Y e c' := by
          intro e he
          rw [← hnext c hc e (Finset.mem_range.1 he), Finset.sum_mul]
          exact Finset.sum_congr rfl fun s _ => by rw [Finset.sum_mul]
        rw [Finset.sum_congr rfl e2]
        simp only [ite_mul, zero_mul]
        rw [Finset.sum_ite_eq, if_pos (Finset.mem_range.2 hc), hY]
        unfold moved
        field_simp
      | i + 1 =>
        simp only [List.getElem_cons_succ] at hs ⊢
        have := c2 i (by simpa using hi) (by simpa using hi') d' p' q' hs
        simpa using this
    · intro s hs a ha
      match s, hs with
      | t :: s, ⟨ht, hs⟩ =>
        simp only [tanAmp, amp_cons, dim2 hA]
        have ih := c3 s hs
        have e1 : ∀ c ∈ range q, B.val [t, a, c] * amp As2 s c 0 + A.val [t, a, c] * tanAmp As2 Bs s c =
            B.val [t, a, c] * amp As2 s c 0 + A.val [t, a, c] * (tanAmp As2 Cs s c + z * amp As2 s c 0) -
              ∑ b ∈ range q, A.val [t, a, c] * (Y c b * amp As2 s b 0) := by
          intro c hc
          rw [← ih c (Finset.mem_range.1 hc), ← Finset.mul_sum]
          ring
        have e2 : ∑ b ∈ range p, X a b * ∑ c ∈ range q, A.val [t, b, c] * amp As2 s c 0 =
            ∑ c ∈ range q, (∑ b ∈ range p, X a b * A.val [t, b, c]) * amp As2 s c 0 := by
          simp only [Finset.mul_sum, Finset.sum_mul]
          rw [Finset.sum_comm]
          exact Finset.sum_congr rfl fun c _ => Finset.sum_congr rfl fun b _ => by ring
        rw [Finset.sum_congr rfl e1, e2, Finset.sum_sub_distrib]
        have e3 : ∑ c ∈ range q, ∑ b ∈ range q, A.val [t, a, c] * (Y c b * amp As2 s b 0) =
            ∑ c ∈ range q, (∑ e ∈ range q, A.val [t, a, e] * Y e c) * amp As2 s c 0 := by
          rw [Finset.sum_comm]
          refine Finset.sum_congr rfl fun c _ => ?_
          rw [Finset.sum_mul]
          exact Finset.sum_congr rfl fun b _ => by ring
        rw [e3, sub_add_eq_add_sub, ← Finset.sum_add_distrib, ← Finset.sum_sub_distrib, Finset.mul_sum, ← Finset.sum_add_distrib]
        refine Finset.sum_congr rfl fun c _ => ?_
        simp only [hC, hZ, absorb]
        ring

end Xmps
