import Verif.Lemmas.MixedTransfer
import Verif.Model.ImpsOverlap
import Verif.Spec.ImpsOverlap
import Verif.Props.TransferMatrix
import Verif.Props.ImpsWitness
import Verif.Props.Isometry
import Mathlib.LinearAlgebra.Eigenspace.Minpoly
import Mathlib.LinearAlgebra.Eigenspace.Triangularizable
import Mathlib.Analysis.Complex.Polynomial.Basic

/-!
# The overlap of two infinite states
-/

namespace Xmps

open Finset Matrix Spec ImpsCore ComplexOrder

/-! ### the eigensolver -/

theorem leading_pair {n : ℕ} (hn : 0 < n) (M : Matrix (Fin n) (Fin n) ℂ) :
    ∃ (η : ℂ) (u : Fin n → ℂ), ∑ x, ‖u x‖ ^ 2 = 1 ∧ M *ᵥ u = η • u ∧
      ∀ (μ : ℂ) (v : Fin n → ℂ), v ≠ 0 → M *ᵥ v = μ • v → ‖μ‖ ≤ ‖η‖ := by
  haveI : Nonempty (Fin n) := ⟨⟨0, hn⟩⟩
  set f : Module.End ℂ (Fin n → ℂ) := Matrix.toLin' M with hf
  obtain ⟨μ0, h0⟩ := Module.End.exists_eigenvalue f
  obtain ⟨η, h1, h2⟩ := Set.exists_max_image {μ | f.HasEigenvalue μ} (fun μ => ‖μ‖) f.finite_hasEigenvalue ⟨μ0, h0⟩
  obtain ⟨v, hv⟩ := Module.End.HasEigenvalue.exists_hasEigenvector h1
  have hv1 : M *ᵥ v = η • v := by
    rw [← Matrix.toLin'_apply]
    exact Module.End.HasEigenvector.apply_eq_smul hv
  have hS : 0 < ∑ x, ‖v x‖ ^ 2 := by
    obtain ⟨i, hi⟩ : ∃ i, v i ≠ 0 := by
      by_contra h
      push Not at h
      exact hv.2 (funext h)
    exact lt_of_lt_of_le (pow_pos (norm_pos_iff.2 hi) 2) (single_le_sum (f := fun x => ‖v x‖ ^ 2) (fun x _ => sq_nonneg _) (mem_univ i))
  set S := ∑ x, ‖v x‖ ^ 2 with hSd
  refine ⟨η, (((Real.sqrt S)⁻¹ : ℝ) : ℂ) • v, ?_, ?_, ?_⟩
  · have : ∀ x, ‖((((Real.sqrt S)⁻¹ : ℝ) : ℂ) • v) x‖ ^ 2 = S⁻¹ * ‖v x‖ ^ 2 := by
      intro x
      rw [Pi.smul_apply, smul_eq_mul, norm_mul, Complex.norm_real, Real.norm_of_nonneg (inv_nonneg.2 (Real.sqrt_nonneg _)), mul_pow, inv_pow,
        Real.sq_sqrt hS.le]
    rw [sum_congr rfl fun x _ => this x, ← Finset.mul_sum, ← hSd, inv_mul_cancel₀ hS.ne']
  · rw [Matrix.mulVec_smul, hv1, smul_comm]
  · intro μ w hw hμ
    refine h2 μ (Module.End.hasEigenvalue_of_hasEigenvector (x := w) ⟨?_, hw⟩)
    rw [Module.End.mem_eigenspace_iff, hf, Matrix.toLin'_apply, hμ]

/-- the matrix of an operator is determined by the operator -/
theorem Spec.ActsAs.unique {f : ND ℂ → Py (ND ℂ)} {n : ℕ} {M N : Matrix (Fin n) (Fin n) ℂ} (hM : ActsAs f n M) (hN : ActsAs f n N) : M = N := by
  ext x y
  obtain ⟨w, h1, _, h2⟩ := hM ⟨[n], fun i => if i = [(y : ℕ)] then 1 else 0⟩ rfl
  obtain ⟨w', h1', _, h2'⟩ := hN ⟨[n], fun i => if i = [(y : ℕ)] then 1 else 0⟩ rfl
  have : w = w' := by
    rw [h1] at h1'
    exact Except.ok.inj h1'
  subst this
  have := (h2 x).symm.trans (h2' x)
  simpa [Fin.val_inj] using this

/-- Functions with the contract of the eigensolver exist. -/
theorem leadingLaw_exists : ∃ arn, LeadingLaw arn := by
  classical
  have key : ∀ (f : ND ℂ → Py (ND ℂ)) (n : ℕ), ∃ p : ℂ × ND ℂ, ∀ M : Matrix (Fin n) (Fin n) ℂ, 2 < n → ActsAs f n M →
      p.2.shape = [n, 1] ∧ ∑ x : Fin n, ‖p.2.val [(x : ℕ), 0]‖ ^ 2 = 1 ∧
      (M *ᵥ fun x => p.2.val [(x : ℕ), 0]) = p.1 • (fun x : Fin n => p.2.val [(x : ℕ), 0]) ∧
      ∀ (μ : ℂ) (v : Fin n → ℂ), v ≠ 0 → M *ᵥ v = μ • v → ‖μ‖ ≤ ‖p.1‖ := by
    intro f n
    by_cases h : 2 < n ∧ ∃ M, ActsAs f n M
    · obtain ⟨hn, M, hM⟩ := h
      obtain ⟨η, u, h1, h2, h3⟩ := leading_pair (by omega) M
      refine ⟨(η, ⟨[n, 1], fun i => if h : i.getD 0 0 < n then u ⟨i.getD 0 0, h⟩ else 0⟩), fun N _ hN => ?_⟩
      rw [← hM.unique hN]
      refine ⟨rfl, ?_, ?_, h3⟩
      · simpa using h1
      · simpa using h2
    · exact ⟨(0, ⟨[], fun _ => 0⟩), fun M hn hM => absurd ⟨hn, M, hM⟩ h⟩
  choose p hp using key
  refine ⟨fun f n => .ok (p f n), fun n f M hn hM => ?_⟩
  obtain ⟨h1, h2, h3, h4⟩ := hp f n M hn hM
  exact ⟨(p f n).1, (p f n).2, rfl, h1, h2, h3, h4⟩

/-! ### the operator of `Map` -/

/-- pairs of bond indices and rows of a vector -/
def pairEquiv (D : ℕ) : Fin D × Fin D ≃ Fin (D ^ 2) := finProdFinEquiv.trans (finCongr (pow_two D).symm)

theorem pairEquiv_val {D : ℕ} (a b : Fin D) : ((pairEquiv D (a, b) : Fin (D ^ 2)) : ℕ) = a * D + b := by
  simp [pairEquiv, finProdFinEquiv]
  ring

/-- a vector as a matrix -/
def unvec (D : ℕ) (v : Fin (D ^ 2) → ℂ) : Matrix (Fin D) (Fin D) ℂ := Matrix.of fun a b => v (pairEquiv D (a, b))

theorem unvec_inj {D : ℕ} {v w : Fin (D ^ 2) → ℂ} (h : unvec D v = unvec D w) : v = w := by
  funext x
  obtain ⟨⟨a, b⟩, rfl⟩ := (pairEquiv D).surjective x
  exact congrFun (congrFun h a) b

theorem unvec_surj {D : ℕ} (N : Matrix (Fin D) (Fin D) ℂ) : ∃ v, unvec D v = N :=
  ⟨fun x => N ((pairEquiv D).symm x).1 ((pairEquiv D).symm x).2, by ext a b; simp [unvec]⟩

theorem unvec_smul {D : ℕ} (c : ℂ) (v : Fin (D ^ 2) → ℂ) : unvec D (c • v) = c • unvec D v := rfl

namespace TMap

variable {E : TMap} {d D : ℕ}

/-- `mvr` multiplies the vector of a matrix `m` to the vector of `Σ A_s† m B_s` -/
theorem mvr_acts (hA : E.A.shape = [d, D, D]) (hB : E.B.shape = [d, D, D]) :
    ∃ M, ActsAs E.mvr (D ^ 2) M ∧ ∀ v, unvec D (M *ᵥ v) = ∑ s ∈ range d, (toM3 D D E.A s)ᴴ * unvec D v * toM3 D D E.B s := by
  set M : Matrix (Fin (D ^ 2)) (Fin (D ^ 2)) ℂ := Matrix.of fun x y => ∑ s ∈ range d,
    star (E.A.val [s, ((pairEquiv D).symm y).1, ((pairEquiv D).symm x).1]) * E.B.val [s, ((pairEquiv D).symm y).2, ((pairEquiv D).symm x).2]
    with hM
  refine ⟨M, ?_, ?_⟩
  · intro v hv
    obtain ⟨h1, h2⟩ := hc3 hA
    obtain ⟨w, ew, hw, vw⟩ := sandwich_ok h1 hB hv
    refine ⟨w, ?_, hw, ?_⟩
    · unfold mvr
      rw [show E.A.dim 1 = D by simp [ND.dim, hA]]
      exact ew
    · intro x
      obtain ⟨⟨a, b⟩, rfl⟩ := (pairEquiv D).surjective x
      rw [pairEquiv_val, vw a a.2 b b.2, ← (pairEquiv D).sum_comp, Fintype.sum_prod_type, Finset.sum_range]
      refine sum_congr rfl fun y _ => ?_
      rw [Finset.sum_range]
      refine sum_congr rfl fun y' _ => ?_
      simp only [hM, Matrix.of_apply, Equiv.symm_apply_apply, pairEquiv_val, h2]
  · intro v
    ext a b
    simp only [unvec, Matrix.of_apply, Matrix.mulVec, dotProduct, Matrix.sum_apply, Matrix.mul_apply, conjTranspose_apply, toM3_apply, hM]
    rw [← (pairEquiv D).sum_comp, Fintype.sum_prod_type]
    simp only [Equiv.symm_apply_apply, Finset.sum_mul]
    rw [sum_congr rfl fun y _ => Finset.sum_comm, Finset.sum_comm]
    refine sum_congr rfl fun s _ => ?_
    rw [Finset.sum_comm]
    exact sum_congr rfl fun y' _ => sum_congr rfl fun y _ => by ring

/-- what the eigensolver finds -/
theorem leading {arn : (ND ℂ → Py (ND ℂ)) → ℕ → Py (ℂ × ND ℂ)} (harn : LeadingLaw arn) (hD : 1 < D) (hA : E.A.shape = [d, D, D])
    (hB : E.B.shape = [d, D, D]) :
    ∃ η l, arn E.mvr (D ^ 2) = .ok (η, l) ∧ l.shape = [D ^ 2, 1] ∧
      ∑ a : Fin D, ∑ b : Fin D, ‖l.val [(a : ℕ) * D + b, 0]‖ ^ 2 = 1 ∧
      ∑ s ∈ range d, (toM3 D D E.A s)ᴴ * (Matrix.of fun a b : Fin D => l.val [(a : ℕ) * D + b, 0]) * toM3 D D E.B s =
        η • (Matrix.of fun a b : Fin D => l.val [(a : ℕ) * D + b, 0]) ∧
      ∀ (μ : ℂ) (N : Matrix (Fin D) (Fin D) ℂ), N ≠ 0 → ∑ s ∈ range d, (toM3 D D E.A s)ᴴ * N * toM3 D D E.B s = μ • N → ‖μ‖ ≤ ‖η‖ := by
  obtain ⟨M, h1, h2⟩ := mvr_acts hA hB
  obtain ⟨η, l, e1, e2, e3, e4, e5⟩ := harn (D ^ 2) E.mvr M (by nlinarith) h1
  have hu : unvec D (fun x => l.val [(x : ℕ), 0]) = Matrix.of fun a b : Fin D => l.val [(a : ℕ) * D + b, 0] := by
    ext a b
    simp [unvec, pairEquiv_val]
  refine ⟨η, l, e1, e2, ?_, ?_, ?_⟩
  · rw [← e3, ← (pairEquiv D).sum_comp, Fintype.sum_prod_type]
    simp only [pairEquiv_val]
  · rw [← hu, ← h2, e4, unvec_smul]
  · intro μ N hN hμ
    obtain ⟨v, rfl⟩ := unvec_surj N
    refine e5 μ v (fun h => hN (by rw [h]; rfl)) (unvec_inj ?_)
    rw [h2, hμ, unvec_smul]

theorem norm_rotate {z : ℂ} (h : z ≠ 0) : ‖csqrt (star z / z) * (npSign z)⁻¹‖ = 1 := by
  have h1 : ‖csqrt (star z / z)‖ = 1 := by
    have : csqrt (star z / z) ^ 2 = star z / z := by
      unfold csqrt
      exact_mod_cast Complex.cpow_nat_inv_pow (star z / z) two_ne_zero
    have h2 := congrArg norm this
    rw [norm_pow, norm_div, norm_star, div_self (norm_ne_zero_iff.2 h)] at h2
    nlinarith [norm_nonneg (csqrt (star z / z))]
  have h2 : ‖npSign z‖ = 1 := by
    have := congrArg norm (npSign_mul_self h)
    rw [norm_mul, norm_one, ← pow_two] at this
    nlinarith [norm_nonneg (npSign z)]
  rw [norm_mul, norm_inv, h1, h2]
  simp

/-- `left_fixed_point()` returns the leading eigenvalue and a unit eigenvector of `l ↦ Σ A_s† l B_s` — if the eigenvector the eigensolver
found does not begin with a zero; otherwise everything is `nan`. -/
theorem leftFixedPoint_ok {arn : (ND ℂ → Py (ND ℂ)) → ℕ → Py (ℂ × ND ℂ)} (harn : LeadingLaw arn) (hD : 1 < D) (hA : E.A.shape = [d, D, D])
    (hB : E.B.shape = [d, D, D]) :
    ∃ η, ∃ m : Matrix (Fin D) (Fin D) ℂ, m ≠ 0 ∧ ∑ s ∈ range d, (toM3 D D E.A s)ᴴ * m * toM3 D D E.B s = η • m ∧
      (∀ (μ : ℂ) (N : Matrix (Fin D) (Fin D) ℂ), N ≠ 0 → ∑ s ∈ range d, (toM3 D D E.A s)ᴴ * N * toM3 D D E.B s = μ • N → ‖μ‖ ≤ ‖η‖) ∧
      ((m ⟨0, by omega⟩ ⟨0, by omega⟩ = 0 ∧ E.leftFixedPoint arn = .ok none) ∨
        (m ⟨0, by omega⟩ ⟨0, by omega⟩ ≠ 0 ∧ ∃ l, E.leftFixedPoint arn = .ok (some (η, l)) ∧ l.shape = [D, D] ∧ (mᴴ * m).trace = 1 ∧
          ∃ w : ℂ, ‖w‖ = 1 ∧ toM D D l = w • m)) := by
  obtain ⟨η, l, h1, h2, h3, h4, h5⟩ := leading harn hD hA hB
  set m : Matrix (Fin D) (Fin D) ℂ := Matrix.of fun a b : Fin D => l.val [(a : ℕ) * D + b, 0] with hm
  have ht : (mᴴ * m).trace = 1 := by
    have : (mᴴ * m).trace = ((∑ a : Fin D, ∑ b : Fin D, ‖m a b‖ ^ 2 : ℝ) : ℂ) := by
      rw [Finset.sum_comm]
      simp only [Matrix.trace, Matrix.diag, Matrix.mul_apply, conjTranspose_apply, Mixed.star_mul_norm]
      push_cast
      rfl
    rw [this, show (∑ a : Fin D, ∑ b : Fin D, ‖m a b‖ ^ 2) = 1 from h3, Complex.ofReal_one]
  have hm0 : m ≠ 0 := by
    intro e
    rw [e] at ht
    simp at ht
  have h00 : m ⟨0, by omega⟩ ⟨0, by omega⟩ = l.val [0, 0] := by simp [hm]
  refine ⟨η, m, hm0, h4, h5, ?_⟩
  by_cases hz : l.val [0, 0] = 0
  · left
    refine ⟨h00.trans hz, ?_⟩
    unfold leftFixedPoint
    rw [show E.A.dim 1 = D by simp [ND.dim, hA]]
    dsimp only
    rw [h1, ok_bind]
    simp only [hz, if_true]
  · right
    refine ⟨by rwa [h00], ?_⟩
    set q := (rotateToHermitian l).smul (npSign (l.val [0, 0]))⁻¹ with hq
    have hqs : q.shape = [D ^ 2, 1] := h2
    set w := csqrt (star (l.val [0, 0]) / l.val [0, 0]) * (npSign (l.val [0, 0]))⁻¹ with hw
    have hwn : ‖w‖ = 1 := norm_rotate hz
    have hqm : toM D D (q.reshapeR [D, D]) = w • m := by
      ext a b
      have : (q.reshapeR [D, D]).val [(a : ℕ), (b : ℕ)] = q.val [(a : ℕ) * D + b, 0] := by
        refine ND.reshapeR_val_any ?_ ?_
        · rw [hqs]
          exact ⟨flat_pair a.2 b.2, Nat.one_pos, trivial⟩
        · rw [hqs]
          simp [ravel]
      rw [toM_apply, this, Matrix.smul_apply, hm, Matrix.of_apply, hq, hw]
      simp only [ND.smul, rotateToHermitian, smul_eq_mul]
      ring
    have hr1 : q.reshape [D, D] = .ok (q.reshapeR [D, D]) := ND.reshape_ok_any (by simp [hqs, pow_two])
    obtain ⟨c1, c2⟩ := hc2 (A := q.reshapeR [D, D]) (m := D) (n := D) rfl
    obtain ⟨R, r1, r2, r3⟩ := matmul22M c1 (show (q.reshapeR [D, D]).shape = [D, D] from rfl)
    have hhc : toM D D (q.reshapeR [D, D]).hc = (w • m)ᴴ := by
      rw [← hqm]
      ext a b
      rw [toM_apply, c2]
      rfl
    have hR : (toM D D R).trace = 1 := by
      rw [r3, hhc, hqm, conjTranspose_smul, Matrix.smul_mul, Matrix.mul_smul, smul_smul, Mixed.star_mul_norm, hwn, trace_smul, ht]
      simp
    have hs : csqrt 1 = 1 := by
      have := csqrt_real (x := 1) one_pos
      simpa using this
    refine ⟨(q.reshapeR [D, D]).smul (csqrt 1)⁻¹, ?_, rfl, ht, w, hwn, ?_⟩
    · unfold leftFixedPoint
      rw [show E.A.dim 1 = D by simp [ND.dim, hA]]
      dsimp only
      rw [h1, ok_bind]
      simp only [hz, if_false]
      rw [← hq, hr1, ok_bind, r1, ok_bind, IMPS.tr2_ok r2, ok_bind, hR, hs, mul_one]
    · rw [toM_smul, hqm, hs, inv_one, one_smul]

end TMap

/-! ### the overlap -/

namespace IMPS

variable {d D : ℕ} {chol inv : ND ℂ → Py (ND ℂ)} {svd : ND ℂ → Py (ND ℂ × List ℝ × ND ℂ)} {eigs : ND ℂ → Py (ℝ × ND ℂ × ND ℂ)}
  {arn : (ND ℂ → Py (ND ℂ)) → ℕ → Py (ℂ × ND ℂ)}

theorem diag_sq_posDef {L : ND ℂ} {lam : List ℝ} (h : DiagReal L lam) (hl : lam.length = D) (hp : ∀ v ∈ lam, 0 < v) :
    (toM D D L * toM D D L).PosDef := by
  have : toM D D L = diagonal fun i : Fin D => ((lam.getD i 0 : ℝ) : ℂ) := by
    ext i j
    rw [toM_apply, h.2 i (by rw [hl]; exact i.2) j (by rw [hl]; exact j.2), diagonal_apply]
    simp only [Fin.ext_iff]
  rw [this, diagonal_mul_diagonal]
  refine PosDef.diagonal fun i => ?_
  have h0 : 0 < lam.getD i 0 := by
    rw [List.getD_eq_getElem _ _ (by rw [hl]; exact i.2)]
    exact hp _ (List.getElem_mem _)
  exact_mod_cast mul_pos h0 h0

theorem sameInf_symm {A B : ND ℂ} (h : SameInf d D A B) : SameInf d D B A := by
  obtain ⟨g, gi, c, h1, h2, h3⟩ := h
  have h1' : gi * g = 1 := mul_eq_one_comm.1 h1
  refine ⟨gi, g, c⁻¹, h1', inv_ne_zero h2, fun s hs => ?_⟩
  rw [h3 s hs, Matrix.mul_smul, Matrix.smul_mul, smul_smul, inv_mul_cancel₀ h2, one_smul]
  calc toM3 D D A s = (gi * g) * toM3 D D A s * (gi * g) := by rw [h1', Matrix.one_mul, Matrix.mul_one]
    _ = _ := by simp only [Matrix.mul_assoc]

theorem sameInf_trans {A B C : ND ℂ} (h : SameInf d D A B) (h' : SameInf d D B C) : SameInf d D A C := by
  obtain ⟨g, gi, c, h1, h2, h3⟩ := h
  obtain ⟨k, ki, e, k1, k2, k3⟩ := h'
  refine ⟨k * g, gi * ki, e * c, ?_, mul_ne_zero k2 h2, fun s hs => ?_⟩
  · calc k * g * (gi * ki) = k * (g * gi) * ki := by simp only [Matrix.mul_assoc]
      _ = 1 := by rw [h1, Matrix.mul_one, k1]
  · rw [k3 s hs, h3 s hs, Matrix.mul_smul, Matrix.smul_mul, smul_smul]
    simp only [Matrix.mul_assoc]

theorem sameInf_of_gauge {A B : ND ℂ} {c : ℝ} (h : GaugeEquiv d D A B c) (hc : c ≠ 0) : SameInf d D A B := by
  obtain ⟨g, gi, h1, h2⟩ := h
  exact ⟨g, gi, c, h1, by exact_mod_cast hc, h2⟩

/-- a simple leading eigenvalue stays simple under the change of gauge and normalisation -/
theorem simpleLeft_gauge {A B : ND ℂ} {eta : ℝ} (he : 0 < eta) (h : GaugeEquiv d D A B (Real.sqrt eta)⁻¹) (hs : SimpleLeft d D A eta) :
    SimpleLeft d D B 1 := by
  obtain ⟨g, gi, h1, h2⟩ := h
  have h1' : gi * g = 1 := mul_eq_one_comm.1 h1
  have hcc : (((Real.sqrt eta)⁻¹ : ℝ) : ℂ) * (((Real.sqrt eta)⁻¹ : ℝ) : ℂ) = ((eta : ℝ) : ℂ)⁻¹ := by
    rw [← Complex.ofReal_mul, ← Complex.ofReal_inv, ← mul_inv, Real.mul_self_sqrt he.le]
  have tr : ∀ M : Matrix (Fin D) (Fin D) ℂ, ∑ s ∈ range d, (toM3 D D B s)ᴴ * M * toM3 D D B s = ((1 : ℝ) : ℂ) • M →
      ∑ s ∈ range d, (toM3 D D A s)ᴴ * (gᴴ * M * g) * toM3 D D A s = (eta : ℂ) • (gᴴ * M * g) := by
    intro M hM
    have e : ∀ s ∈ range d, (toM3 D D A s)ᴴ * (gᴴ * M * g) * toM3 D D A s =
        (eta : ℂ) • (gᴴ * ((toM3 D D B s)ᴴ * M * toM3 D D B s) * g) := by
      intro s hs
      have e1 : gᴴ * ((toM3 D D B s)ᴴ * M * toM3 D D B s) * g = ((eta : ℝ) : ℂ)⁻¹ •
          ((gi * g)ᴴ * ((toM3 D D A s)ᴴ * (gᴴ * M * g) * toM3 D D A s) * (gi * g)) := by
        rw [h2 s (mem_range.1 hs), conjTranspose_smul, Complex.star_def, Complex.conj_ofReal, conjTranspose_mul, conjTranspose_mul, conjTranspose_mul, ← hcc]
        simp only [Matrix.smul_mul, Matrix.mul_smul, smul_smul, Matrix.mul_assoc]
      rw [e1, h1', conjTranspose_one, Matrix.one_mul, Matrix.mul_one, smul_smul, mul_inv_cancel₀ (by exact_mod_cast he.ne'), one_smul]
    rw [sum_congr rfl e, ← Finset.smul_sum, ← Finset.sum_mul, ← Finset.mul_sum, hM, Complex.ofReal_one, one_smul]
  have back : ∀ M : Matrix (Fin D) (Fin D) ℂ, giᴴ * (gᴴ * M * g) * gi = M := by
    intro M
    calc giᴴ * (gᴴ * M * g) * gi = (g * gi)ᴴ * M * (g * gi) := by
          rw [conjTranspose_mul]
          simp only [Matrix.mul_assoc]
      _ = M := by rw [h1]; simp
  intro M N hM hN hN0
  obtain ⟨c, hc⟩ := hs _ _ (tr M hM) (tr N hN) (fun e => hN0 (by rw [← back N, e]; simp))
  refine ⟨c, ?_⟩
  rw [← back M, hc, Matrix.mul_smul, Matrix.smul_mul, back]

/-- **C75** For all states with positive definite fixed points `overlap` returns; the value, unless it is `nan`, lies between 0 and 1, and if
the leading eigenvalue of `other` is simple then it is 1 exactly when the two tensors generate the same state.  Both arguments are left
in left canonical form. -/
theorem overlap_spec (hchol : CholLaw chol) (hsvd : SVDLaw svd) (hinv : InvLaw inv) (harn : LeadingLaw arn) (hD : 1 < D) {x y : IMPS}
    {l r l' r' : ND ℂ} {eta eta' : ℝ} (hx : eigs x.A = .ok (eta, l, r)) (hfx : FixedPoints d D x.A l r eta)
    (hy : eigs y.A = .ok (eta', l', r')) (hfy : FixedPoints d D y.A l' r' eta') :
    ∃ x' y' v, overlap eigs chol svd inv arn x y = .ok (x', y', v) ∧ LeftIso x'.A ∧ LeftIso y'.A ∧ SameInf d D x.A x'.A ∧
      SameInf d D y.A y'.A ∧ ∀ o, v = some o → 0 ≤ o ∧ o ≤ 1 ∧ (SimpleLeft d D y.A eta' → (o = 1 ↔ SameInf d D x.A y.A)) := by
  have hD0 : 0 < D := by omega
  obtain ⟨x', L, lam, a1, a2, a3, a4, _, a6, a7, a8, _, _, a11⟩ := canonicalise_left hchol hsvd hinv hD0 hx hfx
  obtain ⟨y', L', lam', b1, b2, b3, b4, _, b6, b7, b8, _, _, b11⟩ := canonicalise_left hchol hsvd hinv hD0 hy hfy
  obtain ⟨η, m, m0, m1, m2, m3⟩ := TMap.leftFixedPoint_ok (E := ⟨x'.A, y'.A⟩) harn hD a2 b2
  have sx : SameInf d D x.A x'.A := sameInf_of_gauge a4 (inv_ne_zero (Real.sqrt_pos.2 hfx.eta_pos).ne')
  have sy : SameInf d D y.A y'.A := sameInf_of_gauge b4 (inv_ne_zero (Real.sqrt_pos.2 hfy.eta_pos).ne')
  have iA := (leftIso_iff a2).1 a3
  have iB := (leftIso_iff b2).1 b3
  have pA := diag_sq_posDef a6 a7 a8
  have pB := diag_sq_posDef b6 b7 b8
  rcases m3 with ⟨_, m3⟩ | ⟨_, l0, m3, _⟩
  · refine ⟨x', y', none, ?_, a3, b3, sx, sy, fun o ho => by simp at ho⟩
    unfold overlap
    rw [a1, ok_bind, b1, ok_bind, m3, ok_bind]
    rfl
  refine ⟨x', y', some (‖η‖ ^ 2), ?_, a3, b3, sx, sy, ?_⟩
  · unfold overlap
    rw [a1, ok_bind, b1, ok_bind, m3, ok_bind]
    rfl
  intro o ho
  obtain rfl : ‖η‖ ^ 2 = o := Option.some.inj ho
  obtain ⟨n1, n2⟩ := Mixed.norm_le_one iA m1 m0 b11 pB
  refine ⟨sq_nonneg _, pow_le_one₀ (norm_nonneg _) n1, fun hs => ⟨fun h => ?_, fun h => ?_⟩⟩
  · have h1 : ‖η‖ = 1 := by nlinarith [norm_nonneg η]
    have hi := n2 h1
    have hfix := Mixed.fixed_of_intertwine iA hi h1
    obtain ⟨c, hc⟩ := simpleLeft_gauge hfy.eta_pos b4 hs (mᴴ * m) 1 (by rw [hfix, Complex.ofReal_one, one_smul])
      (by simp only [Matrix.mul_one]; rw [iB, Complex.ofReal_one, one_smul]) (by
        intro e
        have := congrFun (congrFun e ⟨0, hD0⟩) ⟨0, hD0⟩
        simp at this)
    have hc0 : c ≠ 0 := by
      rintro rfl
      rw [zero_smul, conjTranspose_mul_self_eq_zero] at hc
      exact m0 hc
    have hu : (c⁻¹ • mᴴ) * m = 1 := by rw [Matrix.smul_mul, hc, smul_smul, inv_mul_cancel₀ hc0, one_smul]
    refine sameInf_trans (sameInf_trans sx ⟨c⁻¹ • mᴴ, m, η, hu, ?_, fun s hs' => ?_⟩) (sameInf_symm sy)
    · rw [← norm_ne_zero_iff, h1]
      exact one_ne_zero
    · rw [Matrix.mul_assoc, ← Matrix.mul_smul, ← hi s hs', ← Matrix.mul_assoc, hu, Matrix.one_mul]
  · obtain ⟨g, gi, c, h1, h2, h3⟩ := sameInf_trans (sameInf_trans (sameInf_symm sx) h) sy
    obtain ⟨e1, e2⟩ := Mixed.eigen_of_gauge hD0 iA iB a11 pA h1 h3
    have := m2 c gi (by
      rintro rfl
      have := congrFun (congrFun h1 ⟨0, hD0⟩) ⟨0, hD0⟩
      simp at this) e2
    rw [e1] at this
    rw [le_antisymm n1 this, one_pow]

/-! ### a fixed point that is not found -/

/-- `A_0 = diag(1, 0)`, `A_1 = diag(0, 1)` -/
noncomputable def exDiagA : ND ℂ := ⟨[2, 2, 2], fun
  | [0, 0, 0] => 1
  | [1, 1, 1] => 1
  | _ => 0⟩

/-- `B_0 = diag(3/5, 1)`, `B_1 = diag(4/5, 0)` -/
noncomputable def exDiagB : ND ℂ := ⟨[2, 2, 2], fun
  | [0, 0, 0] => 3 / 5
  | [0, 1, 1] => 1
  | [1, 0, 0] => 4 / 5
  | _ => 0⟩

theorem exDiag_mat : toM3 2 2 exDiagA 0 = !![1, 0; 0, 0] ∧ toM3 2 2 exDiagA 1 = !![0, 0; 0, 1] ∧ toM3 2 2 exDiagB 0 = !![3 / 5, 0; 0, 1] ∧
    toM3 2 2 exDiagB 1 = !![4 / 5, 0; 0, 0] := by
  refine ⟨?_, ?_, ?_, ?_⟩ <;> ext i j <;> match i, j with
    | 0, 0 => rfl
    | 0, 1 => rfl
    | 1, 0 => rfl
    | 1, 1 => rfl

/-- **C75 fails** when the leading eigenvector begins with a zero: for these two left isometries `left_fixed_point()` is `nan` whatever
eigenvector the eigensolver finds, although the leading eigenvalue is 1. -/
theorem leftFixedPoint_nan (harn : LeadingLaw arn) : LeftIso exDiagA ∧ LeftIso exDiagB ∧
    (∑ s ∈ range 2, (toM3 2 2 exDiagA s)ᴴ * !![0, 1; 0, 0] * toM3 2 2 exDiagB s = !![0, 1; 0, 0]) ∧
    TMap.leftFixedPoint arn ⟨exDiagA, exDiagB⟩ = .ok none := by
  obtain ⟨a0, a1, b0, b1⟩ := exDiag_mat
  have h3 : ∑ s ∈ range 2, (toM3 2 2 exDiagA s)ᴴ * !![0, 1; 0, 0] * toM3 2 2 exDiagB s = !![0, 1; 0, 0] := by
    rw [Finset.sum_range_succ, Finset.sum_range_one, a0, a1, b0, b1]
    simp only [ct2, Matrix.mul_fin_two, Matrix.of_add_of, Matrix.add_cons, Matrix.head_cons, Matrix.tail_cons, Matrix.empty_add_empty]
    refine eq2 ?_ ?_ ?_ ?_ <;> simp
  refine ⟨?_, ?_, h3, ?_⟩
  · rw [leftIso_iff (d := 2) (D := 2) rfl, Finset.sum_range_succ, Finset.sum_range_one, a0, a1, one_fin_two]
    simp [ct2]
  · rw [leftIso_iff (d := 2) (D := 2) rfl, Finset.sum_range_succ, Finset.sum_range_one, b0, b1, one_fin_two]
    simp only [ct2, Matrix.mul_fin_two, Matrix.of_add_of, Matrix.add_cons, Matrix.head_cons, Matrix.tail_cons, Matrix.empty_add_empty]
    refine eq2 ?_ ?_ ?_ ?_ <;> apply Complex.ext <;> simp <;> norm_num
  · obtain ⟨η, m, m0, m1, m2, m3⟩ := TMap.leftFixedPoint_ok (E := ⟨exDiagA, exDiagB⟩) (d := 2) (D := 2) harn (by norm_num) rfl rfl
    rcases m3 with ⟨_, m3⟩ | ⟨hne, _⟩
    · exact m3
    · exfalso
      apply hne
      have h1 : 1 ≤ ‖η‖ := by
        have := m2 1 !![0, 1; 0, 0] (by
          intro e
          have := congrFun (congrFun e 0) 1
          simp at this) (by rw [one_smul]; exact h3)
        simpa using this
      have h2 := congrFun (congrFun m1 0) 0
      rw [Finset.sum_range_succ, Finset.sum_range_one, a0, a1, b0, b1] at h2
      simp [Matrix.mul_apply, Fin.sum_univ_two, Matrix.add_apply] at h2
      change m 0 0 = 0
      by_contra h0
      have : η = 3 / 5 := by
        have h2' : (η - 3 / 5) * m 0 0 = 0 := by linear_combination -h2
        rcases mul_eq_zero.1 h2' with h | h
        · linear_combination h
        · exact absurd h h0
      rw [this] at h1
      norm_num at h1

/-! ### the hypotheses can be met -/

theorem exRot_simple : SimpleLeft 2 2 exRot 4 := by
  have hI := Complex.I_mul_I
  have key : ∀ M : Matrix (Fin 2) (Fin 2) ℂ, ∑ s ∈ range 2, (toM3 2 2 exRot s)ᴴ * M * toM3 2 2 exRot s = ((4 : ℝ) : ℂ) • M →
      M = M 0 0 • 1 := by
    intro M hM
    obtain ⟨p, q, r, t, rfl⟩ : ∃ p q r t, M = !![p, q; r, t] := ⟨_, _, _, _, Matrix.eta_fin_two M⟩
    rw [Finset.sum_range_succ, Finset.sum_range_one, exRot0, exRot1, ct2, ct2] at hM
    simp only [Matrix.mul_fin_two, Matrix.smul_of, Matrix.smul_cons, Matrix.smul_empty, smul_eq_mul, Matrix.of_add_of, Matrix.add_cons,
      Matrix.head_cons, Matrix.tail_cons, Matrix.empty_add_empty] at hM
    have e00 := congrFun (congrFun hM 0) 0
    have e01 := congrFun (congrFun hM 0) 1
    have e10 := congrFun (congrFun hM 1) 0
    simp at e00 e01 e10
    have f00 : t - p + Complex.I * (q - r) = 0 := by
      linear_combination e00 + (p + t) * hI
    have f01 : r - 3 * q + Complex.I * (p - t) - 2 * Complex.I * q = 0 := by
      linear_combination e01 + (q + r) * hI
    have f10 : q - 3 * r + Complex.I * (t - p) + 2 * Complex.I * r = 0 := by
      linear_combination e10 + (q + r) * hI
    have h1 : q = 0 := by
      linear_combination (-1 / 16 : ℂ) * (4 - 2 * Complex.I) * (f01 + Complex.I * f00) - (1 / 8 : ℂ) * (f10 - Complex.I * f00) + (q * (3 / 8 - Complex.I / 8) + r * (-1 / 8 + Complex.I / 8)) * hI
    have h2 : r = 0 := by
      linear_combination (1 / 2 : ℂ) * (f01 + Complex.I * f00) + (2 + Complex.I) * h1 + (r / 2 - q / 2) * hI
    have h3 : t = p := by
      linear_combination f00 - Complex.I * h1 + Complex.I * h2
    ext i j
    match i, j with
    | 0, 0 => simp
    | 0, 1 => simpa using h1
    | 1, 0 => simpa using h2
    | 1, 1 => simpa using h3
  intro M N hM hN hN0
  have h1 := key M hM
  have h2 := key N hN
  refine ⟨M 0 0 / N 0 0, ?_⟩
  have hn : N 0 0 ≠ 0 := by
    intro e
    rw [e, zero_smul] at h2
    exact hN0 h2
  rw [h1, h2, smul_smul]
  simp [hn]

/-- the theorem applies to the tensor of two rotations and a tensor that generates another state -/
example : ∃ chol svd inv arn, ∃ eigs : ND ℂ → Py (ℝ × ND ℂ × ND ℂ), ∃ x' y' v,
    overlap eigs chol svd inv arn ⟨exGen, none, none, none⟩ ⟨exRot, none, none, none⟩ = .ok (x', y', v) ∧ ∀ o, v = some o → 0 ≤ o ∧ o < 1 := by
  classical
  obtain ⟨chol, h1⟩ := cholLaw_exists
  obtain ⟨svd, h2⟩ := svdLaw_exists
  obtain ⟨inv, h3⟩ := invLaw_exists
  obtain ⟨arn, h4⟩ := leadingLaw_exists
  have hne : exGen.val ≠ exRot.val := by
    intro e
    have := congrFun e [0, 0, 0]
    have := congrArg Complex.re this
    simp [exGen, exRot] at this
  obtain ⟨x', y', v, e1, _, _, _, _, e2⟩ := overlap_spec (d := 2) (D := 2) h1 h2 h3 h4 (by norm_num) (x := ⟨exGen, none, none, none⟩)
    (y := ⟨exRot, none, none, none⟩) (eigs := fun A => if A.val = exRot.val then .ok (4, exHalf, exHalf) else .ok (2, exL, exR))
    (if_neg hne) exGen_fixed (if_pos rfl) exRot_fixed
  refine ⟨chol, svd, inv, arn, _, x', y', v, e1, fun o ho => ?_⟩
  obtain ⟨o1, o2, o3⟩ := e2 o ho
  refine ⟨o1, lt_of_le_of_ne o2 fun e => ?_⟩
  obtain ⟨g, gi, c, g1, g2, g3⟩ := (o3 exRot_simple).1 e
  have := congrArg Matrix.det (g3 0 (by norm_num))
  have hI := Complex.I_mul_I
  rw [exRot0, exGen0, Matrix.det_smul, Matrix.det_mul, Matrix.det_mul, Matrix.det_fin_two_of, Matrix.det_fin_two_of] at this
  have h5 : -Complex.I * Complex.I - 1 * 1 = 0 := by linear_combination -hI
  have h6 : (1 : ℂ) * 1 - Complex.I * Complex.I = 2 := by linear_combination -hI
  rw [h5, h6, mul_zero, zero_mul, mul_zero] at this
  norm_num at this

end IMPS

end Xmps
