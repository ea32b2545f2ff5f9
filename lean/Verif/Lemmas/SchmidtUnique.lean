import Verif.Spec.Schmidt
import Mathlib.Algebra.BigOperators.Fin
import Mathlib.Tactic.LinearCombination
import Mathlib.Data.List.GetD
import Mathlib.Data.List.Count
import Mathlib.Analysis.Complex.Norm

/-!
# The Schmidt weights are determined by the state

Two Schmidt decompositions of one state across one cut have the same weights up to their order, and the weights add up to the squared norm.
-/

namespace Xmps

open Finset Spec

/-- contraction of a decomposition with a left vector -/
theorem schmidt_contract {ds1 ds2 : List ℕ} {ψ : List ℕ → ℂ} {n : ℕ} {u v : ℕ → List ℕ → ℂ} {σ : ℕ → ℂ}
    (h : ∀ s1, InB ds1 s1 → ∀ s2, InB ds2 s2 → ψ (s1 ++ s2) = ∑ a ∈ range n, u a s1 * σ a * v a s2) (w : List ℕ → ℂ) {s2 : List ℕ} (hs : InB ds2 s2) :
    sumIdx ds1 (fun s1 => star (w s1) * ψ (s1 ++ s2)) = ∑ a ∈ range n, sumIdx ds1 (fun s1 => star (w s1) * u a s1) * (σ a * v a s2) := by
  rw [sumIdx_congr (g := fun s1 => ∑ a ∈ range n, star (w s1) * u a s1 * (σ a * v a s2)) fun s1 h1 => by
    rw [h s1 h1 s2 hs, Finset.mul_sum]
    exact Finset.sum_congr rfl fun a _ => by ring]
  rw [sumIdx_finset_sum]
  exact Finset.sum_congr rfl fun a _ => by rw [sumIdx_mul_right]

theorem star_pair (ds : List ℕ) (f g : List ℕ → ℂ) : star (sumIdx ds fun s => star (f s) * g s) = sumIdx ds fun s => star (g s) * f s := by
  rw [sumIdx_star]
  exact sumIdx_congr fun s _ => by rw [star_mul', star_star, mul_comm]

theorem star_mul_self_norm (z : ℂ) : star z * z = ((‖z‖ ^ 2 : ℝ) : ℂ) := by
  have := Complex.normSq_eq_conj_mul_self (z := z)
  rw [show star z * z = (Complex.normSq z : ℂ) from this.symm, Complex.normSq_eq_norm_sq]

/-- The overlaps `c` of the left vectors of two decompositions of one state: the row sums of `|c|²` are 1 and `c a b` vanishes unless the weights `a`
and `b` are equal. -/
theorem schmidt_overlaps {ds1 ds2 : List ℕ} {ψ : List ℕ → ℂ} {n m : ℕ} {u v u' v' : ℕ → List ℕ → ℂ} {σ σ' : ℕ → ℝ}
    (hσ : ∀ a < n, 0 < σ a) (hσ' : ∀ b < m, 0 < σ' b)
    (h : ∀ s1, InB ds1 s1 → ∀ s2, InB ds2 s2 → ψ (s1 ++ s2) = ∑ a ∈ range n, u a s1 * (σ a : ℂ) * v a s2)
    (h' : ∀ s1, InB ds1 s1 → ∀ s2, InB ds2 s2 → ψ (s1 ++ s2) = ∑ a ∈ range m, u' a s1 * (σ' a : ℂ) * v' a s2)
    (hu : ∀ a < n, ∀ b < n, sumIdx ds1 (fun s => star (u a s) * u b s) = if a = b then 1 else 0)
    (hv : ∀ a < n, ∀ b < n, sumIdx ds2 (fun s => star (v a s) * v b s) = if a = b then 1 else 0)
    (hu' : ∀ a < m, ∀ b < m, sumIdx ds1 (fun s => star (u' a s) * u' b s) = if a = b then 1 else 0)
    (hv' : ∀ a < m, ∀ b < m, sumIdx ds2 (fun s => star (v' a s) * v' b s) = if a = b then 1 else 0) :
    (∀ a < n, ∀ b < m, sumIdx ds1 (fun s => star (u a s) * u' b s) ≠ 0 → σ a = σ' b) ∧
      ∀ a < n, ∑ b ∈ range m, ‖sumIdx ds1 (fun s => star (u a s) * u' b s)‖ ^ 2 = 1 := by
  set c : ℕ → ℕ → ℂ := fun a b => sumIdx ds1 (fun s => star (u a s) * u' b s) with hc
  set e : ℕ → ℕ → ℂ := fun a b => sumIdx ds2 (fun s => star (v' b s) * v a s) with he
  have hsum : ∀ {k : ℕ} {a : ℕ}, a < k → ∀ f : ℕ → ℂ, ∑ b ∈ range k, (if a = b then (1 : ℂ) else 0) * f b = f a := by
    intro k a ha f
    simp [ha]
  -- the state contracted with `u a`
  have A : ∀ a < n, ∀ s2, InB ds2 s2 → (σ a : ℂ) * v a s2 = ∑ b ∈ range m, c a b * ((σ' b : ℂ) * v' b s2) := by
    intro a ha s2 hs
    rw [← schmidt_contract h' (u a) hs, schmidt_contract h (u a) hs]
    rw [Finset.sum_congr rfl fun b hb => by rw [hu a ha b (by simpa using hb)]]
    rw [hsum ha]
  have B : ∀ b < m, ∀ s2, InB ds2 s2 → (σ' b : ℂ) * v' b s2 = ∑ a ∈ range n, star (c a b) * ((σ a : ℂ) * v a s2) := by
    intro b hb s2 hs
    have h1 := schmidt_contract h (u' b) hs
    rw [schmidt_contract h' (u' b) hs, Finset.sum_congr rfl fun a ha => by rw [hu' b hb a (by simpa using ha)], hsum hb] at h1
    rw [h1]
    exact Finset.sum_congr rfl fun a _ => by rw [hc, star_pair]
  -- pairing with the right vectors
  have A2 : ∀ a < n, ∀ b < m, (σ a : ℂ) * e a b = c a b * (σ' b : ℂ) := by
    intro a ha b hb
    have : (σ a : ℂ) * e a b = sumIdx ds2 fun s => star (v' b s) * ((σ a : ℂ) * v a s) := by
      rw [he, ← sumIdx_mul_left]
      exact sumIdx_congr fun s _ => by ring
    rw [this, sumIdx_congr (g := fun s => ∑ b' ∈ range m, (star (v' b s) * v' b' s) * (c a b' * (σ' b' : ℂ))) fun s hs => by
      rw [A a ha s hs, Finset.mul_sum]
      exact Finset.sum_congr rfl fun _ _ => by ring]
    rw [sumIdx_finset_sum, Finset.sum_congr rfl fun b' hb' => by rw [sumIdx_mul_right, hv' b hb b' (by simpa using hb')], hsum hb]
  have B2 : ∀ a < n, ∀ b < m, (σ' b : ℂ) * e a b = c a b * (σ a : ℂ) := by
    intro a ha b hb
    have h1 : (σ' b : ℂ) * star (e a b) = star (c a b) * (σ a : ℂ) := by
      have : (σ' b : ℂ) * star (e a b) = sumIdx ds2 fun s => star (v a s) * ((σ' b : ℂ) * v' b s) := by
        rw [he, star_pair, ← sumIdx_mul_left]
        exact sumIdx_congr fun s _ => by ring
      rw [this, sumIdx_congr (g := fun s => ∑ a' ∈ range n, (star (v a s) * v a' s) * (star (c a' b) * (σ a' : ℂ))) fun s hs => by
        rw [B b hb s hs, Finset.mul_sum]
        exact Finset.sum_congr rfl fun _ _ => by ring]
      rw [sumIdx_finset_sum, Finset.sum_congr rfl fun a' ha' => by rw [sumIdx_mul_right, hv a ha a' (by simpa using ha')], hsum ha]
    have := congrArg star h1
    simpa [star_mul'] using this
  have key : ∀ a < n, ∀ b < m, c a b ≠ 0 → σ a = σ' b := by
    intro a ha b hb hne
    have h1 := A2 a ha b hb
    have h2 := B2 a ha b hb
    have h3 : c a b * (σ a : ℂ) ^ 2 = c a b * (σ' b : ℂ) ^ 2 := by linear_combination (-(σ a : ℂ)) * h2 + (σ' b : ℂ) * h1
    have h4 := mul_left_cancel₀ hne h3
    have h5 : σ a ^ 2 = σ' b ^ 2 := by exact_mod_cast h4
    have p1 := hσ a ha
    have p2 := hσ' b hb
    nlinarith
  refine ⟨key, fun a ha => ?_⟩
  -- the norm of `σ a * v a`
  have N : ((σ a ^ 2 : ℝ) : ℂ) = ∑ b ∈ range m, (star (c a b) * c a b) * ((σ' b : ℂ) ^ 2) := by
    have h1 : sumIdx ds2 (fun s => star ((σ a : ℂ) * v a s) * ((σ a : ℂ) * v a s)) = ((σ a ^ 2 : ℝ) : ℂ) := by
      rw [sumIdx_congr (g := fun s => ((σ a : ℂ) ^ 2) * (star (v a s) * v a s)) fun s _ => by
        rw [star_mul', show star (σ a : ℂ) = (σ a : ℂ) from Complex.conj_ofReal _]; ring]
      rw [sumIdx_mul_left, hv a ha a ha, if_pos rfl]
      push_cast; ring
    rw [← h1, sumIdx_congr (g := fun s => ∑ b ∈ range m, (c a b * (σ' b : ℂ)) * (star ((σ a : ℂ) * v a s) * v' b s)) fun s hs => by
      conv_lhs => rhs; rw [A a ha s hs]
      rw [Finset.mul_sum]
      exact Finset.sum_congr rfl fun _ _ => by ring]
    rw [sumIdx_finset_sum]
    refine Finset.sum_congr rfl fun b hb => ?_
    have hb : b < m := by simpa using hb
    rw [sumIdx_mul_left]
    have : sumIdx ds2 (fun s => star ((σ a : ℂ) * v a s) * v' b s) = (σ a : ℂ) * star (e a b) := by
      rw [he, star_pair, ← sumIdx_mul_left]
      exact sumIdx_congr fun s _ => by
        rw [star_mul', show star (σ a : ℂ) = (σ a : ℂ) from Complex.conj_ofReal _]; ring
    rw [this]
    have h2 := congrArg star (A2 a ha b hb)
    rw [star_mul', star_mul', show star (σ a : ℂ) = (σ a : ℂ) from Complex.conj_ofReal _,
      show star (σ' b : ℂ) = (σ' b : ℂ) from Complex.conj_ofReal _] at h2
    rw [h2]
    ring
  have N2 : σ a ^ 2 = ∑ b ∈ range m, ‖c a b‖ ^ 2 * σ' b ^ 2 := by
    have : ((σ a ^ 2 : ℝ) : ℂ) = ((∑ b ∈ range m, ‖c a b‖ ^ 2 * σ' b ^ 2 : ℝ) : ℂ) := by
      rw [N]
      push_cast
      refine Finset.sum_congr rfl fun b _ => ?_
      rw [star_mul_self_norm]
      push_cast
      ring
    exact_mod_cast this
  have N3 : σ a ^ 2 = (∑ b ∈ range m, ‖c a b‖ ^ 2) * σ a ^ 2 := by
    conv_lhs => rw [N2]
    rw [Finset.sum_mul]
    refine Finset.sum_congr rfl fun b hb => ?_
    by_cases hz : c a b = 0
    · simp [hz]
    · rw [key a ha b (by simpa using hb) hz]
  have hpos : σ a ^ 2 ≠ 0 := pow_ne_zero 2 (hσ a ha).ne'
  exact (mul_right_cancel₀ hpos (show (1 : ℝ) * σ a ^ 2 = (∑ b ∈ range m, ‖c a b‖ ^ 2) * σ a ^ 2 from (one_mul _).trans N3)).symm

theorem sum_map_getD {α : Type} [AddCommMonoid α] (f : ℝ → α) : ∀ (l : List ℝ), (l.map f).sum = ∑ a ∈ range l.length, f (l.getD a 0)
  | [] => by simp
  | x :: l => by
    rw [List.map_cons, List.sum_cons, sum_map_getD f l, List.length_cons, Finset.sum_range_succ']
    simp [add_comm]

/-- **C16**, **C54** any quantity summed over the Schmidt weights is the same for all Schmidt decompositions of a state across a cut. -/
theorem Spec.SchmidtAt.sum_eq {ds1 ds2 : List ℕ} {ψ : List ℕ → ℂ} {lam lam' : List ℝ} (h : SchmidtAt ds1 ds2 ψ lam) (h' : SchmidtAt ds1 ds2 ψ lam')
    (f : ℝ → ℝ) : (lam.map f).sum = (lam'.map f).sum := by
  obtain ⟨hp, u, v, h1, h2, h3⟩ := h
  obtain ⟨hp', u', v', h1', h2', h3'⟩ := h'
  have pos : ∀ {l : List ℝ}, (∀ x ∈ l, 0 < x) → ∀ a < l.length, 0 < Real.sqrt (l.getD a 0) := by
    intro l hl a ha
    rw [List.getD_eq_getElem _ _ ha]
    exact Real.sqrt_pos.2 (hl _ (List.getElem_mem ha))
  obtain ⟨k1, r1⟩ := schmidt_overlaps (σ := fun a => Real.sqrt (lam.getD a 0)) (σ' := fun a => Real.sqrt (lam'.getD a 0)) (pos hp) (pos hp') h1 h1' h2 h3 h2' h3'
  obtain ⟨-, r2⟩ := schmidt_overlaps (σ := fun a => Real.sqrt (lam'.getD a 0)) (σ' := fun a => Real.sqrt (lam.getD a 0)) (pos hp') (pos hp) h1' h1 h2' h3' h2 h3
  have nn : ∀ a b, ‖sumIdx ds1 (fun s => star (u' b s) * u a s)‖ = ‖sumIdx ds1 (fun s => star (u a s) * u' b s)‖ := by
    intro a b
    rw [← star_pair, norm_star]
  have eqv : ∀ a < lam.length, ∀ b < lam'.length, sumIdx ds1 (fun s => star (u a s) * u' b s) ≠ 0 → lam.getD a 0 = lam'.getD b 0 := by
    intro a ha b hb hne
    have := k1 a ha b hb hne
    have g : ∀ {l : List ℝ}, (∀ x ∈ l, 0 < x) → ∀ a < l.length, 0 ≤ l.getD a 0 := by
      intro l hl a ha
      rw [List.getD_eq_getElem _ _ ha]
      exact (hl _ (List.getElem_mem ha)).le
    exact (Real.sqrt_inj (g hp a ha) (g hp' b hb)).1 this
  rw [sum_map_getD, sum_map_getD]
  calc ∑ a ∈ range lam.length, f (lam.getD a 0)
      = ∑ a ∈ range lam.length, ∑ b ∈ range lam'.length, ‖sumIdx ds1 (fun s => star (u a s) * u' b s)‖ ^ 2 * f (lam.getD a 0) := by
        refine Finset.sum_congr rfl fun a ha => ?_
        rw [← Finset.sum_mul, r1 a (by simpa using ha), one_mul]
    _ = ∑ a ∈ range lam.length, ∑ b ∈ range lam'.length, ‖sumIdx ds1 (fun s => star (u a s) * u' b s)‖ ^ 2 * f (lam'.getD b 0) := by
        refine Finset.sum_congr rfl fun a ha => Finset.sum_congr rfl fun b hb => ?_
        by_cases hz : sumIdx ds1 (fun s => star (u a s) * u' b s) = 0
        · rw [hz]; simp
        · rw [eqv a (by simpa using ha) b (by simpa using hb) hz]
    _ = ∑ b ∈ range lam'.length, ∑ a ∈ range lam.length, ‖sumIdx ds1 (fun s => star (u' b s) * u a s)‖ ^ 2 * f (lam'.getD b 0) := by
        rw [Finset.sum_comm]
        simp only [nn]
    _ = _ := by
        refine Finset.sum_congr rfl fun b hb => ?_
        rw [← Finset.sum_mul, r2 b (by simpa using hb), one_mul]

/-- **C16**, **C54** the Schmidt weights of a state across a cut are determined by the state, up to their order. -/
theorem Spec.SchmidtAt.perm {ds1 ds2 : List ℕ} {ψ : List ℕ → ℂ} {lam lam' : List ℝ} (h : SchmidtAt ds1 ds2 ψ lam) (h' : SchmidtAt ds1 ds2 ψ lam') :
    lam.Perm lam' := by
  classical
  rw [List.perm_iff_count]
  intro t
  have key : ∀ l : List ℝ, (l.map fun x => if x = t then (1 : ℝ) else 0).sum = (l.count t : ℝ) := by
    intro l
    induction l with
    | nil => simp
    | cons x l ih =>
      rw [List.map_cons, List.sum_cons, ih, List.count_cons]
      by_cases hx : x = t <;> simp [hx, add_comm]
  have := h.sum_eq h' fun x => if x = t then (1 : ℝ) else 0
  rw [key, key] at this
  exact_mod_cast this

/-- the weights add up to the squared norm -/
theorem Spec.SchmidtAt.sum_norm {ds1 ds2 : List ℕ} {ψ : List ℕ → ℂ} {lam : List ℝ} (h : SchmidtAt ds1 ds2 ψ lam) :
    sumIdx (ds1 ++ ds2) (fun s => star (ψ s) * ψ s) = ((lam.sum : ℝ) : ℂ) := by
  obtain ⟨hp, u, v, h1, h2, h3⟩ := h
  rw [sumIdx_append]
  rw [sumIdx_congr (g := fun s1 => sumIdx ds2 fun s2 => ∑ a ∈ range lam.length, ∑ b ∈ range lam.length,
      (star (u a s1) * u b s1) * ((Real.sqrt (lam.getD a 0) : ℂ) * (Real.sqrt (lam.getD b 0) : ℂ) * (star (v a s2) * v b s2))) fun s1 hs1 =>
    sumIdx_congr fun s2 hs2 => by
      rw [h1 s1 hs1 s2 hs2, star_sum, Finset.sum_mul]
      refine Finset.sum_congr rfl fun a _ => ?_
      rw [Finset.mul_sum]
      refine Finset.sum_congr rfl fun b _ => ?_
      rw [star_mul', star_mul', show star (Real.sqrt (lam.getD a 0) : ℂ) = (Real.sqrt (lam.getD a 0) : ℂ) from Complex.conj_ofReal _]
      ring]
  have step : ∀ s1, sumIdx ds2 (fun s2 => ∑ a ∈ range lam.length, ∑ b ∈ range lam.length,
      (star (u a s1) * u b s1) * ((Real.sqrt (lam.getD a 0) : ℂ) * (Real.sqrt (lam.getD b 0) : ℂ) * (star (v a s2) * v b s2)))
      = ∑ a ∈ range lam.length, (star (u a s1) * u a s1) * ((lam.getD a 0 : ℝ) : ℂ) := by
    intro s1
    rw [sumIdx_finset_sum]
    refine Finset.sum_congr rfl fun a ha => ?_
    have ha : a < lam.length := by simpa using ha
    rw [sumIdx_finset_sum]
    rw [Finset.sum_congr rfl fun b hb => by rw [sumIdx_mul_left, sumIdx_mul_left, h3 a ha b (by simpa using hb)]]
    have hsq : (Real.sqrt (lam.getD a 0) : ℂ) * (Real.sqrt (lam.getD a 0) : ℂ) = ((lam.getD a 0 : ℝ) : ℂ) := by
      rw [← Complex.ofReal_mul, Real.mul_self_sqrt]
      rw [List.getD_eq_getElem _ _ ha]
      exact (hp _ (List.getElem_mem ha)).le
    rw [Finset.sum_eq_single a (by intro b _ hb; rw [if_neg (Ne.symm hb)]; ring) (by simp [ha]), if_pos rfl, mul_one, hsq]
  simp only [step]
  rw [sumIdx_finset_sum]
  rw [Finset.sum_congr rfl fun a ha => by rw [sumIdx_mul_right, h2 a (by simpa using ha) a (by simpa using ha), if_pos rfl, one_mul]]
  have := sum_map_getD (fun x : ℝ => (x : ℂ)) lam
  rw [← this]
  clear h1 h2 h3 hp step this
  induction lam with
  | nil => simp
  | cons x l ih => simp only [List.map_cons, List.sum_cons, ih]; push_cast; rfl

end Xmps
