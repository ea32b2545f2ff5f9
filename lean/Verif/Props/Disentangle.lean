import Verif.Model.Disentangle
import Verif.Props.MatchGauge
import Verif.Lemmas.FmpsBasic

/-!
# Property C126: `E2`, `renyi` and `renyi_2_disentangler` of `peps_tools.py`
-/

namespace Xmps.Disent

open Finset Xmps.Spec Xmps.Ncon

theorem ncon_eval (O : SetOrder) {AA : List (ND ℂ)} {v : List (List ℤ)} (dim : ℤ → ℕ) (P F : List ℤ) (h : WellLabelled AA v dim P F)
    (hP : P.Pairwise (· < ·)) (hF : F.Pairwise (· > ·)) :
    ∃ R, ncon O (.many AA) (.nested v) = .ok R ∧ R.shape = F.map dim ∧
      ∀ idx, idx.length = F.length → R.val idx = labelSum P dim (netTerm AA v) (assign F idx) := by
  obtain ⟨R, P', hR, _, hs, hv⟩ := nconBody_spec O h true
  have hne : v ≠ [] := by
    rintro rfl
    exact h.nonempty (List.length_eq_zero_iff.1 h.shapes.length_eq)
  refine ⟨R, ?_, hs, fun idx hl => ?_⟩
  · rw [ncon_einsum_default O h hP hF]
    obtain ⟨l, v', rfl⟩ := List.exists_cons_of_ne_nil hne
    unfold ncon nconEff
    simp only [VArg.toList, ok_bind, Option.getD_some, TArg.toList, hR]
    rfl
  · rw [← hv, map_assign _ _ h.nodupF hl]

/-- `U` is a unitary gate on two legs of extents `d1` and `d2`: the rows and the columns are orthonormal. -/
structure Gate (d1 d2 : ℕ) (U : ND ℂ) : Prop where
  shape : U.shape = [d1, d2, d1, d2]
  rows : ∀ a < d1, ∀ b < d2, ∀ a' < d1, ∀ b' < d2, ∑ i ∈ range d1, ∑ j ∈ range d2, U.val [a, b, i, j] * star (U.val [a', b', i, j]) =
    if a = a' ∧ b = b' then 1 else 0
  cols : ∀ i < d1, ∀ j < d2, ∀ i' < d1, ∀ j' < d2, ∑ a ∈ range d1, ∑ b ∈ range d2, star (U.val [a, b, i, j]) * U.val [a, b, i', j'] =
    if i = i' ∧ j = j' then 1 else 0

/-- the state after the gate -/
def gated (d1 d2 : ℕ) (U θ : ND ℂ) (a b l r : ℕ) : ℂ := ∑ i ∈ range d1, ∑ j ∈ range d2, U.val [a, b, i, j] * θ.val [i, j, l, r]

/-- the density matrix of the first leg and the left bond of a state `ψ a b l r` -/
def rhoL (d2 Xr : ℕ) (ψ : ℕ → ℕ → ℕ → ℕ → ℂ) (a l a' l' : ℕ) : ℂ := ∑ b ∈ range d2, ∑ r ∈ range Xr, ψ a b l r * star (ψ a' b l' r)

/-- `tr ρ²`, written out -/
noncomputable def trSq (d1 d2 Xl Xr : ℕ) (ψ : ℕ → ℕ → ℕ → ℕ → ℂ) : ℝ :=
  ∑ a ∈ range d1, ∑ l ∈ range Xl, ∑ a' ∈ range d1, ∑ l' ∈ range Xl, ‖rhoL d2 Xr ψ a l a' l'‖ ^ 2

/-- the squared norm -/
noncomputable def sqNorm (d1 d2 Xl Xr : ℕ) (ψ : ℕ → ℕ → ℕ → ℕ → ℂ) : ℝ :=
  ∑ a ∈ range d1, ∑ l ∈ range Xl, ∑ b ∈ range d2, ∑ r ∈ range Xr, ‖ψ a b l r‖ ^ 2

variable {O : SetOrder} {d1 d2 Xl Xr : ℕ} {U θ : ND ℂ}

theorem tensordot_gate (hU : U.shape = [d1, d2, d1, d2]) (hθ : θ.shape = [d1, d2, Xl, Xr]) :
    ∃ W, U.tensordot θ [2, 3] [0, 1] = .ok W ∧ W.shape = [d1, d2, Xl, Xr] ∧ ∀ a b l r, W.val [a, b, l, r] = gated d1 d2 U θ a b l r := by
  refine ⟨U.tensordotR θ [2, 3] [0, 1], by simp [ND.tensordot, ND.rank, ND.dim, hU, hθ], ?_, ?_⟩
  · simp [ND.tensordotR, ND.transposeR, ND.rank, ND.others, ND.dim, hU, hθ, List.range_succ]
  · intro a b l r
    simp [ND.tensordotR, ND.transposeR, ND.rank, ND.others, ND.dim, hU, hθ, List.range_succ, gated]

/-- `E2`, for every tensor `U`: `U†` applied to the gated state, then the rest of the diagram -/
theorem E2_ok (O : SetOrder) (hU : U.shape = [d1, d2, d1, d2]) (hθ : θ.shape = [d1, d2, Xl, Xr]) :
    ∃ E, E2 O U θ = .ok E ∧ E.shape = [d1, d2, d1, d2] ∧ ∀ i j p q, E.val [i, j, p, q] =
      ∑ a ∈ range d1, ∑ b ∈ range d2, star (U.val [a, b, i, j]) * ∑ l ∈ range Xl, ∑ a' ∈ range d1, ∑ l' ∈ range Xl,
        (∑ r ∈ range Xr, gated d1 d2 U θ a b l r * star (gated d1 d2 U θ a' q l' r)) * rhoL d2 Xr (gated d1 d2 U θ) a' l' p l := by
  obtain ⟨W, e1, hW, vW⟩ := tensordot_gate hU hθ
  obtain ⟨Uc, hUc⟩ : ∃ Uc, Uc = U.conj := ⟨_, rfl⟩
  obtain ⟨Wc, hWc⟩ : ∃ Wc, Wc = W.conj := ⟨_, rfl⟩
  have sU : Uc.shape = [d1, d2, d1, d2] := by rw [hUc]; exact hU
  have sW : Wc.shape = [d1, d2, Xl, Xr] := by rw [hWc]; exact hW
  have vU : ∀ a b i j, Uc.val [a, b, i, j] = star (U.val [a, b, i, j]) := by intros; rw [hUc]; rfl
  have vWc : ∀ a b i j, Wc.val [a, b, i, j] = star (gated d1 d2 U θ a b i j) := by intros; rw [hWc, ← vW]; rfl
  obtain ⟨E, e2, hE, vE⟩ := ncon_eval O (AA := [Uc, W, Wc, W, Wc])
    (v := [[7, 8, -1, -2], [7, 8, 1, 2], [3, -4, 4, 2], [3, 5, 4, 6], [-3, 5, 1, 6]])
    (dimOf [(1, Xl), (2, Xr), (3, d1), (4, Xl), (5, d2), (6, Xr), (7, d1), (8, d2), (-1, d1), (-2, d2), (-3, d1), (-4, d2)])
    [1, 2, 3, 4, 5, 6, 7, 8] [-1, -2, -3, -4]
    ⟨by simp, by simp [sU, hW, sW, dimOf, List.lookup], by simp, by simp, by decide, by decide, by decide, by decide, by decide⟩ (by decide) (by decide)
  refine ⟨E, ?_, by rw [hE]; simp [dimOf, List.lookup], ?_⟩
  · unfold E2
    rw [e1, ok_bind, ← hUc, ← hWc, e2]
  · intro i j p q
    rw [vE _ rfl, labelSum_perm (l' := [7, 8, 1, 3, 4, 5, 6, 2]) (by decide) (by decide)]
    obtain ⟨f, hf⟩ : ∃ f, f = dimOf [(1, Xl), (2, Xr), (3, d1), (4, Xl), (5, d2), (6, Xr), (7, d1), (8, d2), (-1, d1), (-2, d2), (-3, d1), (-4, d2)] :=
      ⟨_, rfl⟩
    have f1 : f 1 = Xl := by rw [hf]; rfl
    have f2 : f 2 = Xr := by rw [hf]; rfl
    have f3 : f 3 = d1 := by rw [hf]; rfl
    have f4 : f 4 = Xl := by rw [hf]; rfl
    have f5 : f 5 = d2 := by rw [hf]; rfl
    have f6 : f 6 = Xr := by rw [hf]; rfl
    have f7 : f 7 = d1 := by rw [hf]; rfl
    have f8 : f 8 = d2 := by rw [hf]; rfl
    rw [← hf]
    simp only [labelSum, f1, f2, f3, f4, f5, f6, f7, f8]
    refine sum_congr rfl fun a _ => sum_congr rfl fun b _ => ?_
    simp only [mul_sum, sum_mul, rhoL]
    refine sum_congr rfl fun l _ => sum_congr rfl fun a' _ => sum_congr rfl fun l' _ => sum_congr rfl fun b' _ => sum_congr rfl fun r' _ =>
      sum_congr rfl fun r _ => ?_
    show Uc.val [a, b, i, j] * (W.val [a, b, l, r] * (Wc.val [a', q, l', r] * (W.val [a', b', l', r'] * (Wc.val [p, b', l, r'] * 1)))) = _
    rw [vU, vW, vW, vWc, vWc]
    ring

/-- The trace under the logarithm of `renyi` is `tr ρ²` of the gated state. -/
theorem purity_ok (O : SetOrder) (hU : Gate d1 d2 U) (hθ : θ.shape = [d1, d2, Xl, Xr]) :
    purity O U θ = .ok ((trSq d1 d2 Xl Xr (gated d1 d2 U θ) : ℝ) : ℂ) := by
  obtain ⟨E, e1, hE, vE⟩ := E2_ok O hU.shape hθ
  obtain ⟨R, e2, hR, vR⟩ := ncon_eval O (AA := [U, E]) (v := [[-1, -2, 1, 2], [1, 2, -3, -4]])
    (dimOf [(1, d1), (2, d2), (-1, d1), (-2, d2), (-3, d1), (-4, d2)]) [1, 2] [-1, -2, -3, -4]
    ⟨by simp, by simp [hU.shape, hE, dimOf, List.lookup], by simp, by simp, by decide, by decide, by decide, by decide, by decide⟩ (by decide) (by decide)
  have hR' : R.shape = [d1, d2, d1, d2] := by rw [hR]; simp [dimOf, List.lookup]
  have vR' : ∀ p q p' q', R.val [p, q, p', q'] = ∑ i ∈ range d1, ∑ j ∈ range d2, U.val [p, q, i, j] * E.val [i, j, p', q'] := by
    intro p q p' q'
    rw [vR _ rfl]
    simp [labelSum, netTerm, assign, dimOf, List.lookup, Function.update]
  have d0 : θ.dim 0 = d1 := by simp [ND.dim, hθ]
  have d1' : θ.dim 1 = d2 := by simp [ND.dim, hθ]
  unfold purity
  simp only [d0, d1']
  have hg : (θ.shape.length == 4) = true := by simp [hθ]
  rw [hg, guardPy_true, ok_bind, e1, ok_bind, e2, ok_bind, ND.reshape_ok (by rw [hR']; simp [mul_assoc]), ok_bind]
  show Except.ok _ = _
  congr 1
  rw [Nat.min_self, sum_range_mul]
  set ψ := gated d1 d2 U θ with hψ
  set X : ℕ → ℕ → ℕ → ℕ → ℂ := fun a b p q => ∑ l ∈ range Xl, ∑ a' ∈ range d1, ∑ l' ∈ range Xl,
        (∑ r ∈ range Xr, ψ a b l r * star (ψ a' q l' r)) * rhoL d2 Xr ψ a' l' p l with hX
  have key : ∀ p < d1, ∀ q < d2, (R.reshapeR [d1 * d2, d1 * d2]).val [p * d2 + q, p * d2 + q] = X p q p q := by
    intro p hp q hq
    rw [ND.reshapeR_val (idx := [p, q, p, q]) (by rw [hR']; exact ⟨hp, hq, hp, hq, trivial⟩) (by
      rw [hR']; simp only [ravel_cons, ravel_nil, List.prod_cons, List.prod_nil]; ring), vR']
    have : ∀ i j, U.val [p, q, i, j] * E.val [i, j, p, q] = ∑ a ∈ range d1, ∑ b ∈ range d2, U.val [p, q, i, j] * star (U.val [a, b, i, j]) * X a b p q := by
      intro i j
      rw [vE, mul_sum]
      refine sum_congr rfl fun a _ => ?_
      rw [mul_sum]
      exact sum_congr rfl fun b _ => by rw [hX, mul_assoc]
    simp only [this]
    have sw : ∀ g : ℕ → ℕ → ℕ → ℕ → ℂ, ∑ i ∈ range d1, ∑ j ∈ range d2, ∑ a ∈ range d1, ∑ b ∈ range d2, g i j a b =
        ∑ a ∈ range d1, ∑ b ∈ range d2, ∑ i ∈ range d1, ∑ j ∈ range d2, g i j a b := by
      intro g
      have e : ∀ f : ℕ → ℕ → ℂ, ∑ i ∈ range d1, ∑ j ∈ range d2, f i j = ∑ x ∈ range d1 ×ˢ range d2, f x.1 x.2 := fun f => (sum_product' _ _ _).symm
      rw [e, e]
      simp only [e]
      exact sum_comm
    rw [sw]
    have : ∀ a ∈ range d1, ∀ b ∈ range d2, ∑ i ∈ range d1, ∑ j ∈ range d2, U.val [p, q, i, j] * star (U.val [a, b, i, j]) * X a b p q =
        if p = a then if q = b then X a b p q else 0 else 0 := by
      intro a ha b hb
      simp only [← sum_mul]
      rw [hU.rows p hp q hq a (mem_range.1 ha) b (mem_range.1 hb)]
      by_cases h1 : p = a <;> by_cases h2 : q = b <;> simp [h1, h2]
    rw [sum_congr rfl fun a ha => sum_congr rfl fun b hb => this a ha b hb]
    rw [sum_eq_single p (fun a _ h => by simp [h.symm]) (fun h => absurd (mem_range.2 hp) h)]
    simp [hq]
  rw [sum_congr rfl fun p hp => sum_congr rfl fun q hq => key p (mem_range.1 hp) q (mem_range.1 hq)]
  simp only [hX, trSq]
  push_cast
  refine sum_congr rfl fun a _ => ?_
  rw [sum_comm]
  refine sum_congr rfl fun l _ => ?_
  rw [sum_comm]
  refine sum_congr rfl fun a' _ => ?_
  rw [sum_comm]
  refine sum_congr rfl fun l' _ => ?_
  rw [← sum_mul]
  have hs : rhoL d2 Xr ψ a' l' a l = star (rhoL d2 Xr ψ a l a' l') := by
    simp only [rhoL, star_sum, star_mul', star_star]
    exact sum_congr rfl fun _ _ => sum_congr rfl fun _ _ => mul_comm _ _
  rw [hs]
  show rhoL d2 Xr ψ a l a' l' * star (rhoL d2 Xr ψ a l a' l') = _
  rw [Complex.star_def, Complex.mul_conj, Complex.normSq_eq_norm_sq]
  push_cast
  rfl

/-! ### bounds -/

theorem iso_norm {ι : Type} [DecidableEq ι] (S : Finset ι) (u : ι → ι → ℂ)
    (h : ∀ i ∈ S, ∀ i' ∈ S, ∑ a ∈ S, star (u a i) * u a i' = if i = i' then 1 else 0) (v : ι → ℂ) :
    ∑ a ∈ S, ‖∑ i ∈ S, u a i * v i‖ ^ 2 = ∑ i ∈ S, ‖v i‖ ^ 2 := by
  have e : ∀ z : ℂ, ((‖z‖ ^ 2 : ℝ) : ℂ) = star z * z := by
    intro z
    rw [Complex.star_def, ← Complex.normSq_eq_conj_mul_self, Complex.normSq_eq_norm_sq]
  have : ((∑ a ∈ S, ‖∑ i ∈ S, u a i * v i‖ ^ 2 : ℝ) : ℂ) = ((∑ i ∈ S, ‖v i‖ ^ 2 : ℝ) : ℂ) := by
    rw [Complex.ofReal_sum, Complex.ofReal_sum]
    simp only [e, star_sum, star_mul', sum_mul_sum]
    rw [sum_comm]
    refine sum_congr rfl fun i hi => ?_
    rw [sum_comm, sum_eq_single_of_mem i hi]
    · have := h i hi i hi
      simp only [if_true] at this
      calc _ = ∑ a ∈ S, star (u a i) * u a i * (star (v i) * v i) := sum_congr rfl fun a _ => by ring
        _ = _ := by rw [← sum_mul, this, one_mul]
    · intro i' hi' hne
      have := h i hi i' hi'
      rw [if_neg (Ne.symm hne)] at this
      calc _ = ∑ a ∈ S, star (u a i) * u a i' * (star (v i) * v i') := sum_congr rfl fun a _ => by ring
        _ = _ := by rw [← sum_mul, this, zero_mul]
  exact_mod_cast this

theorem pairs (d1 d2 : ℕ) {M : Type} [AddCommMonoid M] (f : ℕ → ℕ → M) :
    ∑ i ∈ range d1, ∑ j ∈ range d2, f i j = ∑ x ∈ range d1 ×ˢ range d2, f x.1 x.2 := (sum_product' _ _ _).symm

/-- A gate does not change the norm. -/
theorem gated_norm (hU : Gate d1 d2 U) : sqNorm d1 d2 Xl Xr (gated d1 d2 U θ) = sqNorm d1 d2 Xl Xr (fun i j l r => θ.val [i, j, l, r]) := by
  have sw : ∀ g : ℕ → ℕ → ℕ → ℕ → ℝ, ∑ a ∈ range d1, ∑ l ∈ range Xl, ∑ b ∈ range d2, ∑ r ∈ range Xr, g a b l r =
      ∑ l ∈ range Xl, ∑ r ∈ range Xr, ∑ x ∈ range d1 ×ˢ range d2, g x.1 x.2 l r := by
    intro g
    rw [sum_comm]
    refine sum_congr rfl fun l _ => ?_
    rw [sum_comm (s := range Xr)]
    exact pairs d1 d2 fun a b => ∑ r ∈ range Xr, g a b l r
  unfold sqNorm
  rw [sw, sw]
  refine sum_congr rfl fun l _ => sum_congr rfl fun r _ => ?_
  unfold gated
  simp only [pairs]
  refine iso_norm (range d1 ×ˢ range d2) (fun x y => U.val [x.1, x.2, y.1, y.2]) ?_ (fun y => θ.val [y.1, y.2, l, r])
  rintro ⟨i, j⟩ hi ⟨i', j'⟩ hi'
  simp only [mem_product, mem_range] at hi hi'
  rw [← pairs d1 d2 (fun a b => star (U.val [a, b, i, j]) * U.val [a, b, i', j']), hU.cols i hi.1 j hi.2 i' hi'.1 j' hi'.2]
  simp [Prod.ext_iff]

variable {ψ : ℕ → ℕ → ℕ → ℕ → ℂ}

theorem rhoL_diag (a l : ℕ) : rhoL d2 Xr ψ a l a l = ((∑ b ∈ range d2, ∑ r ∈ range Xr, ‖ψ a b l r‖ ^ 2 : ℝ) : ℂ) := by
  unfold rhoL
  push_cast
  refine sum_congr rfl fun b _ => sum_congr rfl fun r _ => ?_
  rw [Complex.star_def, Complex.mul_conj, Complex.normSq_eq_norm_sq]
  push_cast
  rfl

theorem rhoL_cs (a l a' l' : ℕ) : ‖rhoL d2 Xr ψ a l a' l'‖ ^ 2 ≤
    (∑ b ∈ range d2, ∑ r ∈ range Xr, ‖ψ a b l r‖ ^ 2) * ∑ b ∈ range d2, ∑ r ∈ range Xr, ‖ψ a' b l' r‖ ^ 2 := by
  unfold rhoL
  simp only [pairs]
  have h1 := norm_sum_le (range d2 ×ˢ range Xr) (fun x => ψ a x.1 l x.2 * star (ψ a' x.1 l' x.2))
  simp only [norm_mul, norm_star] at h1
  refine le_trans (pow_le_pow_left₀ (norm_nonneg _) h1 2) ?_
  exact sum_mul_sq_le_sq_mul_sq _ _ _

/-- `tr ρ² ≤ (tr ρ)²` -/
theorem trSq_le : trSq d1 d2 Xl Xr ψ ≤ sqNorm d1 d2 Xl Xr ψ ^ 2 := by
  calc trSq d1 d2 Xl Xr ψ ≤ ∑ a ∈ range d1, ∑ l ∈ range Xl, ∑ a' ∈ range d1, ∑ l' ∈ range Xl,
        (∑ b ∈ range d2, ∑ r ∈ range Xr, ‖ψ a b l r‖ ^ 2) * ∑ b ∈ range d2, ∑ r ∈ range Xr, ‖ψ a' b l' r‖ ^ 2 :=
      sum_le_sum fun a _ => sum_le_sum fun l _ => sum_le_sum fun a' _ => sum_le_sum fun l' _ => rhoL_cs a l a' l'
    _ = _ := by
      rw [sq]
      unfold sqNorm
      simp only [pairs d1 Xl]
      rw [sum_mul_sum]

theorem trSq_pos (h : 0 < sqNorm d1 d2 Xl Xr ψ) : 0 < trSq d1 d2 Xl Xr ψ := by
  obtain ⟨a, ha, h⟩ := exists_lt_of_sum_lt (s := range d1) (f := fun _ => (0 : ℝ)) (by simpa [sqNorm] using h)
  obtain ⟨l, hl, h⟩ := exists_lt_of_sum_lt (s := range Xl) (f := fun _ => (0 : ℝ)) (by simpa using h)
  have n : ∀ a l a' l', 0 ≤ ‖rhoL d2 Xr ψ a l a' l'‖ ^ 2 := fun _ _ _ _ => sq_nonneg _
  have h0 : 0 < ‖rhoL d2 Xr ψ a l a l‖ ^ 2 := by
    rw [rhoL_diag, Complex.norm_real]
    exact pow_pos (norm_pos_iff.2 h.ne') 2
  unfold trSq
  refine lt_of_lt_of_le h0 ?_
  refine le_trans ?_ (single_le_sum (f := fun a => ∑ l ∈ range Xl, ∑ a' ∈ range d1, ∑ l' ∈ range Xl, ‖rhoL d2 Xr ψ a l a' l'‖ ^ 2)
    (fun a _ => sum_nonneg fun _ _ => sum_nonneg fun _ _ => sum_nonneg fun _ _ => n _ _ _ _) ha)
  refine le_trans ?_ (single_le_sum (f := fun l => ∑ a' ∈ range d1, ∑ l' ∈ range Xl, ‖rhoL d2 Xr ψ a l a' l'‖ ^ 2)
    (fun a _ => sum_nonneg fun _ _ => sum_nonneg fun _ _ => n _ _ _ _) hl)
  refine le_trans ?_ (single_le_sum (f := fun a' => ∑ l' ∈ range Xl, ‖rhoL d2 Xr ψ a l a' l'‖ ^ 2)
    (fun a _ => sum_nonneg fun _ _ => n _ _ _ _) ha)
  exact single_le_sum (f := fun l' => ‖rhoL d2 Xr ψ a l a l'‖ ^ 2) (fun a _ => n _ _ _ _) hl

/-- **C126** `renyi(U, θ)` is the second Rényi entropy of the first leg and the left bond after the gate, for every unitary gate. -/
theorem renyi_value (O : SetOrder) (hU : Gate d1 d2 U) (hθ : θ.shape = [d1, d2, Xl, Xr]) :
    renyi O U θ = .ok (-Real.log (trSq d1 d2 Xl Xr (gated d1 d2 U θ))) := by
  unfold renyi
  rw [purity_ok O hU hθ, ok_bind, Complex.log_ofReal_re]

/-- **C126** For a normalised state the argument of the logarithm is in (0, 1], so that the entropy is not negative. -/
theorem renyi_nonneg (O : SetOrder) (hU : Gate d1 d2 U) (hθ : θ.shape = [d1, d2, Xl, Xr])
    (hn : sqNorm d1 d2 Xl Xr (fun i j l r => θ.val [i, j, l, r]) = 1) :
    0 < trSq d1 d2 Xl Xr (gated d1 d2 U θ) ∧ ∃ S, renyi O U θ = .ok S ∧ 0 ≤ S := by
  have hg := gated_norm (Xl := Xl) (Xr := Xr) (θ := θ) hU
  rw [hn] at hg
  have hp : 0 < trSq d1 d2 Xl Xr (gated d1 d2 U θ) := trSq_pos (by rw [hg]; exact one_pos)
  refine ⟨hp, _, renyi_value O hU hθ, ?_⟩
  have := trSq_le (d1 := d1) (d2 := d2) (Xl := Xl) (Xr := Xr) (ψ := gated d1 d2 U θ)
  rw [hg, one_pow] at this
  linarith [Real.log_nonpos hp.le this]

end Xmps.Disent
