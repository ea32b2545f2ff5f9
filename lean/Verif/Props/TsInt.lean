import Verif.Props.Lyapunov
import Verif.Props.ExactDiag

/-!
# `lyapunov(just_max=True)` (C97) and `ts_int` (C98)
-/

namespace Xmps

open Finset Spec Matrix Xmps.Ncon

theorem flow_cons (n : ℕ) (dt : ℝ) (J : ND ℂ) (Js : List (ND ℂ)) : flow n dt (J :: Js) = flow n dt Js * NormedSpace.exp ((dt : ℂ) • toM n n J) := by
  have key : ∀ (Js : List (ND ℂ)) (P : Matrix (Fin n) (Fin n) ℂ), Js.foldl (fun P J => NormedSpace.exp ((dt : ℂ) • toM n n J) * P) P =
      Js.foldl (fun P J => NormedSpace.exp ((dt : ℂ) • toM n n J) * P) 1 * P := by
    intro Js
    induction Js with
    | nil => simp
    | cons J Js ih =>
      intro P
      simp only [List.foldl_cons]
      rw [ih, ih (_ * 1), mul_one, Matrix.mul_assoc]
  unfold flow
  rw [List.foldl_cons, key, mul_one]

theorem flow_unit (n : ℕ) (dt : ℝ) (Js : List (ND ℂ)) : IsUnit (flow n dt Js) := by
  induction Js with
  | nil => simp [flow]
  | cons J Js ih =>
    rw [flow_cons]
    exact ih.mul (Matrix.isUnit_exp _)

/-- the flow of Hamiltonian matrices is symplectic -/
theorem flow_symp {D : ℕ} (dt : ℝ) (Js : List (ND ℂ)) (h : ∀ J ∈ Js, HamND D J) : (flow (2 * D) dt Js)ᵀ * Om D * flow (2 * D) dt Js = Om D := by
  induction Js with
  | nil => simp [flow]
  | cons J Js ih =>
    rw [flow_cons, Matrix.transpose_mul]
    have hJ := h J (by simp)
    have e1 := exp_symp (ham_smul ((ham_iff hJ.shape).1 hJ) (dt : ℂ))
    have e2 := ih fun J' hJ' => h J' (by simp [hJ'])
    set A := NormedSpace.exp ((dt : ℂ) • toM (2 * D) (2 * D) J)
    set B := flow (2 * D) dt Js
    rw [show Aᵀ * Bᵀ * Om D * (B * A) = Aᵀ * (Bᵀ * Om D * B) * A by simp only [Matrix.mul_assoc], e2, e1]

/-- the norm of a vector -/
noncomputable def vnorm {n : ℕ} (v : Fin n → ℂ) : ℝ := Real.sqrt (∑ i, ‖v i‖ ^ 2)

theorem vnorm_smul {n : ℕ} (c : ℂ) (v : Fin n → ℂ) : vnorm (c • v) = ‖c‖ * vnorm v := by
  unfold vnorm
  simp only [Pi.smul_apply, smul_eq_mul, norm_mul, mul_pow]
  rw [← Finset.mul_sum, Real.sqrt_mul (sq_nonneg _), Real.sqrt_sq (norm_nonneg _)]

theorem vnorm_pos {n : ℕ} {v : Fin n → ℂ} (h : v ≠ 0) : 0 < vnorm v := by
  obtain ⟨i, hi⟩ := Function.ne_iff.1 h
  refine Real.sqrt_pos.2 (Finset.sum_pos' (fun j _ => sq_nonneg _) ⟨i, Finset.mem_univ i, ?_⟩)
  have := norm_pos_iff.2 (show v i ≠ 0 from hi)
  positivity

theorem normV_eq {n : ℕ} {q : ND ℂ} (h : q.shape = [n]) : Tdvp.normV q = vnorm (Tdvp.toV n q) := by
  unfold Tdvp.normV vnorm
  rw [show q.dim 0 = n by simp [ND.dim, h], Finset.sum_range]
  rfl

theorem mulVec_ne_zero {n : ℕ} {P : Matrix (Fin n) (Fin n) ℂ} (hP : IsUnit P) {v : Fin n → ℂ} (h : v ≠ 0) : P *ᵥ v ≠ 0 := by
  intro h0
  refine h ?_
  have := congrArg (P⁻¹ *ᵥ ·) h0
  simpa [Matrix.nonsing_inv_mul _ ((Matrix.isUnit_iff_isUnit_det _).1 hP)] using this

section
variable {jac : FMPS ℂ → Option (List (ND ℂ)) → Py (ND ℂ × List (ND ℂ))} {evolve : FMPS ℂ → Py (FMPS ℂ)} {I : FMPS ℂ → Option (List (ND ℂ)) → Prop} {D : ℕ}
  (hI : Tdvp.HamRun jac evolve I D)
include hI

theorem lyMaxLoop_inv {dt : ℝ} : ∀ (k : ℕ) (x : FMPS ℂ) (old : Option (List (ND ℂ))) (q q' : ND ℂ) (lys : List ℝ), I x old → q.shape = [2 * D] → Tdvp.toV (2 * D) q ≠ 0 →
    vnorm (Tdvp.toV (2 * D) q) = 1 → Tdvp.lyMaxLoop jac evolve dt k x old q = .ok (q', lys) →
    ∃ Js, Visits jac evolve x old Js ∧ Js.length = k ∧ lys.length = k ∧ q'.shape = [2 * D] ∧
      lys.sum = Real.log (vnorm (flow (2 * D) dt Js *ᵥ Tdvp.toV (2 * D) q)) ∧
      Tdvp.toV (2 * D) q' = (((vnorm (flow (2 * D) dt Js *ᵥ Tdvp.toV (2 * D) q))⁻¹ : ℝ) : ℂ) • (flow (2 * D) dt Js *ᵥ Tdvp.toV (2 * D) q) := by
  intro k
  induction k with
  | zero =>
    intro x old q q' lys hx hq h0 h1 h
    obtain ⟨rfl, rfl⟩ : q = q' ∧ [] = lys := by simpa [Tdvp.lyMaxLoop] using h
    exact ⟨[], .nil x old, rfl, rfl, hq, by simp [flow, h1], by simp [flow, h1]⟩
  | succ k ih =>
    intro x old q q' lys hx hq h0 h1 h
    obtain ⟨J, vs, e1, hJ, hnext⟩ := hI x old hx
    obtain ⟨r, e2, hr, vr⟩ := Tdvp.expmMul_ok (n := 2 * D) (A := J.smul (dt : ℂ)) (v := q) hJ.shape hq
    rw [toM_smul] at vr
    rw [Tdvp.lyMaxLoop, e1, ok_bind] at h
    simp only at h
    rw [e2, ok_bind] at h
    obtain ⟨y, h2, h3⟩ := bind_eq_ok h
    obtain ⟨⟨q2, lys2⟩, h4, h5⟩ := bind_eq_ok h3
    obtain ⟨rfl, rfl⟩ := (by simpa using h5 : q2 = q' ∧ _ = lys)
    have r0 : Tdvp.toV (2 * D) r ≠ 0 := by
      rw [vr]
      exact mulVec_ne_zero (Matrix.isUnit_exp _) h0
    have rp := vnorm_pos r0
    have hs : Tdvp.toV (2 * D) (r.smul (((Tdvp.normV r)⁻¹ : ℝ) : ℂ)) = (((vnorm (Tdvp.toV (2 * D) r))⁻¹ : ℝ) : ℂ) • Tdvp.toV (2 * D) r := by
      rw [normV_eq hr]
      rfl
    have nc : ‖(((vnorm (Tdvp.toV (2 * D) r))⁻¹ : ℝ) : ℂ)‖ = (vnorm (Tdvp.toV (2 * D) r))⁻¹ := by
      rw [Complex.norm_real, Real.norm_of_nonneg (inv_nonneg.2 rp.le)]
    obtain ⟨Js, g1, g2, g3, g4, g5, g6⟩ := ih y (some vs) _ q2 lys2 (hnext y h2) (by simpa [ND.smul] using hr)
      (by rw [hs]; exact smul_ne_zero (by exact_mod_cast (inv_pos.2 rp).ne') r0) (by rw [hs, vnorm_smul, nc, inv_mul_cancel₀ rp.ne']) h4
    set P := flow (2 * D) dt Js with hP
    have hv : flow (2 * D) dt (J :: Js) *ᵥ Tdvp.toV (2 * D) q = P *ᵥ Tdvp.toV (2 * D) r := by
      rw [flow_cons, vr, Matrix.mulVec_mulVec]
    have vp := vnorm_pos (mulVec_ne_zero (flow_unit (2 * D) dt Js) r0)
    rw [hs, Matrix.mulVec_smul, vnorm_smul, nc] at g5 g6
    refine ⟨J :: Js, .cons e1 h2 g1, by simp [g2], by simp [g3], g4, ?_, ?_⟩
    · rw [List.sum_cons, g5, hv, normV_eq hr, Real.log_mul (inv_pos.2 rp).ne' vp.ne', Real.log_inv]
      ring
    · rw [g6, hv, smul_smul, ← Complex.ofReal_mul]
      congr 2
      rw [mul_inv, inv_inv, mul_comm, ← mul_assoc, inv_mul_cancel₀ rp.ne', one_mul]

/-- **C97** `lyapunov(T, just_max=True)`: the vector is the first row of the initial basis (not the first column), moved by the flow and normalised; the entries of
`lys` sum to the logarithm of its growth.  The list `exps` that is returned is empty. -/
theorem Tdvp.lyapunovMax_spec {Q : ND ℂ} (hD : 0 < D) (hQ : IsUnitary Q (2 * D)) {x : FMPS ℂ} (hx : I x none) {t0 t1 : ℝ} {ts : List ℝ} {k : ℕ}
    {exps : List (List ℝ)} {lys : List ℝ} {q : ND ℂ} (h : Tdvp.lyapunovMax jac evolve x Q (t0 :: t1 :: ts) k = .ok (exps, lys, q)) :
    exps = [] ∧ ∃ Js, Visits jac evolve x none Js ∧ Js.length = ts.length + 2 ∧ lys.length = ts.length + 2 ∧ q.shape = [2 * D] ∧
      lys.sum = Real.log (vnorm (flow (2 * D) (t1 - t0) Js *ᵥ fun j => Q.val [0, j])) ∧
      Tdvp.toV (2 * D) q = (((vnorm (flow (2 * D) (t1 - t0) Js *ᵥ fun j => Q.val [0, j]))⁻¹ : ℝ) : ℂ) • (flow (2 * D) (t1 - t0) Js *ᵥ fun j => Q.val [0, j]) := by
  unfold Tdvp.lyapunovMax at h
  rw [show Tdvp.row0 Q = .ok ⟨[2 * D], fun idx => Q.val (0 :: idx)⟩ by
    unfold Tdvp.row0; rw [hQ.shape]; simp only; rw [if_pos (by omega)], ok_bind,
    show Tdvp.lyDt (t0 :: t1 :: ts) = .ok (t1 - t0) by simp [Tdvp.lyDt, pyGet], ok_bind] at h
  obtain ⟨⟨q', lys'⟩, h1, h2⟩ := bind_eq_ok h
  simp only [Except.ok.injEq, Prod.mk.injEq] at h2
  obtain ⟨rfl, rfl, rfl⟩ := h2
  have hrow := hQ.rows 0 (by simp [ND.dim, hQ.shape]; omega) 0 (by simp [ND.dim, hQ.shape]; omega)
  simp only [ND.dim, hQ.shape, List.getD_cons_succ, List.getD_cons_zero, if_true] at hrow
  have h1' : vnorm (Tdvp.toV (2 * D) ⟨[2 * D], fun idx => Q.val (0 :: idx)⟩) = 1 := by
    unfold vnorm Tdvp.toV
    rw [Real.sqrt_eq_one, ← Finset.sum_range (fun j => ‖Q.val [0, j]‖ ^ 2)]
    have : ((∑ j ∈ range (2 * D), ‖Q.val [0, j]‖ ^ 2 : ℝ) : ℂ) = 1 := by
      rw [← hrow, Complex.ofReal_sum]
      exact Finset.sum_congr rfl fun j _ => by rw [Complex.star_def, Complex.mul_conj, Complex.normSq_eq_norm_sq]
    exact_mod_cast this
  refine ⟨by simp, ?_⟩
  have h0 : Tdvp.toV (2 * D) ⟨[2 * D], fun idx => Q.val (0 :: idx)⟩ ≠ 0 := by
    intro h0
    rw [h0] at h1'
    simp [vnorm] at h1'
  obtain ⟨Js, g1, g2, g3, g4, g5, g6⟩ := lyMaxLoop_inv hI _ x none _ q' lys' hx rfl h0 h1' h1
  have e : Tdvp.toV (2 * D) ⟨[2 * D], fun idx => Q.val (0 :: idx)⟩ = fun j : Fin (2 * D) => Q.val [0, j.1] := rfl
  rw [e] at g5 g6
  exact ⟨Js, g1, g2, g3, g4, g5, g6⟩

/-- The run with `just_max=True` succeeds if the evolution does. -/
theorem Tdvp.lyapunovMax_total (hev : ∀ x old, I x old → ∃ y, evolve x = .ok y) {Q : ND ℂ} (hD : 0 < D) (hQ : IsUnitary Q (2 * D)) {x : FMPS ℂ} (hx : I x none)
    (t0 t1 : ℝ) (ts : List ℝ) (k : ℕ) : ∃ out, Tdvp.lyapunovMax jac evolve x Q (t0 :: t1 :: ts) k = .ok out := by
  have key : ∀ (k : ℕ) (x : FMPS ℂ) (old : Option (List (ND ℂ))) (q : ND ℂ), I x old → q.shape = [2 * D] →
      ∃ out, Tdvp.lyMaxLoop jac evolve (t1 - t0) k x old q = .ok out := by
    intro k
    induction k with
    | zero => exact fun x old q _ _ => ⟨_, rfl⟩
    | succ k ih =>
      intro x old q hx hq
      obtain ⟨J, vs, e1, hJ, hnext⟩ := hI x old hx
      obtain ⟨r, e2, hr, -⟩ := Tdvp.expmMul_ok (n := 2 * D) (A := J.smul ((t1 - t0 : ℝ) : ℂ)) (v := q) hJ.shape hq
      obtain ⟨y, ey⟩ := hev x old hx
      obtain ⟨⟨q', l⟩, e3⟩ := ih y (some vs) (r.smul (((Tdvp.normV r)⁻¹ : ℝ) : ℂ)) (hnext y ey) (by simpa [ND.smul] using hr)
      rw [Tdvp.lyMaxLoop, e1, ok_bind]
      simp only
      rw [e2, ok_bind, ey, ok_bind, e3, ok_bind]
      exact ⟨_, rfl⟩
  obtain ⟨⟨q', l⟩, e⟩ := key (ts.length + 2) x none ⟨[2 * D], fun idx => Q.val (0 :: idx)⟩ hx rfl
  unfold Tdvp.lyapunovMax
  rw [show Tdvp.row0 Q = .ok ⟨[2 * D], fun idx => Q.val (0 :: idx)⟩ by
    unfold Tdvp.row0; rw [hQ.shape]; simp only; rw [if_pos (by omega)], ok_bind,
    show Tdvp.lyDt (t0 :: t1 :: ts) = .ok (t1 - t0) by simp [Tdvp.lyDt, pyGet], ok_bind]
  simp only [List.length_cons]
  rw [e]
  exact ⟨_, rfl⟩

theorem tsLoop_inv {dt : ℝ} : ∀ (k : ℕ) (x : FMPS ℂ) (old : Option (List (ND ℂ))) (M : ND ℂ) (Ms : List (ND ℂ)), I x old → M.shape = [2 * D, 2 * D] →
    Tdvp.tsLoop jac evolve dt k x old M = .ok Ms →
    ∃ Js, Visits jac evolve x old Js ∧ Js.length = k ∧ (∀ J ∈ Js, HamND D J) ∧ Ms.length = k ∧ ∀ m (hm : m < Ms.length), Ms[m].shape = [2 * D, 2 * D] ∧
      toM (2 * D) (2 * D) Ms[m] = flow (2 * D) dt (Js.take (m + 1)) * toM (2 * D) (2 * D) M := by
  intro k
  induction k with
  | zero =>
    intro x old M Ms hx hM h
    obtain rfl : [] = Ms := by simpa [Tdvp.tsLoop] using h
    exact ⟨[], .nil x old, rfl, by simp, rfl, by simp⟩
  | succ k ih =>
    intro x old M Ms hx hM h
    obtain ⟨J, vs, e1, hJ, hnext⟩ := hI x old hx
    obtain ⟨R, e2, hR, vR⟩ := expmMat_ok (A := J.smul (dt : ℂ)) hJ.shape hM
    rw [toM_smul] at vR
    rw [Tdvp.tsLoop, e1, ok_bind] at h
    simp only at h
    rw [e2, ok_bind] at h
    obtain ⟨y, h2, h3⟩ := bind_eq_ok h
    obtain ⟨Ms', h4, h5⟩ := bind_eq_ok h3
    obtain rfl := (by simpa using h5 : R :: Ms' = Ms)
    obtain ⟨Js, g1, g2, g3, g4, g5⟩ := ih y (some vs) R Ms' (hnext y h2) hR h4
    refine ⟨J :: Js, .cons e1 h2 g1, by simp [g2], ?_, by simp [g4], ?_⟩
    · intro J' hJ'
      rcases List.mem_cons.1 hJ' with rfl | h'
      · exact hJ
      · exact g3 J' h'
    · intro m hm
      cases m with
      | zero => exact ⟨hR, by simpa [flow_cons, flow] using vR⟩
      | succ m =>
        obtain ⟨a, b⟩ := g5 m (by simpa using hm)
        refine ⟨a, ?_⟩
        simp only [List.getElem_cons_succ, List.take_succ_cons]
        rw [b, flow_cons, vR, Matrix.mul_assoc]

/-- **C98** Whatever `ts_int` returns: `Ms` holds the identity and then the products of the exponentials at the states visited.  All preserve the symplectic
form and have determinants of modulus 1. -/
theorem Tdvp.tsInt_spec {x : FMPS ℂ} (hx : I x none) {t0 t1 : ℝ} {ts : List ℝ} {Ms : List (ND ℂ)} (h : Tdvp.tsInt jac evolve x (t0 :: t1 :: ts) = .ok Ms) :
    ∃ Js, Visits jac evolve x none Js ∧ Js.length = ts.length + 2 ∧ Ms.length = ts.length + 3 ∧ ∀ m (hm : m < Ms.length),
      SympND D Ms[m] ∧ toM (2 * D) (2 * D) Ms[m] = flow (2 * D) (t1 - t0) (Js.take m) ∧ ‖(toM (2 * D) (2 * D) Ms[m]).det‖ = 1 := by
  unfold Tdvp.tsInt at h
  obtain ⟨J, vs, e1, hJ, -⟩ := hI x none hx
  rw [show Tdvp.lyDt (t0 :: t1 :: ts) = .ok (t1 - t0) by simp [Tdvp.lyDt, pyGet], ok_bind, e1, ok_bind] at h
  obtain ⟨Ms', h1, h2⟩ := bind_eq_ok h
  obtain rfl := (by simpa using h2 : _ = Ms)
  have hd : J.dim 0 = 2 * D := by simp [ND.dim, hJ.shape]
  have eyeM : toM (2 * D) (2 * D) (eyeND (J.dim 0)) = 1 := by
    rw [toM_one_iff]
    intro i hi j hj
    simp [eyeND]
  obtain ⟨Js, g1, g2, g3, g4, g5⟩ := tsLoop_inv hI _ x none _ Ms' hx (show (eyeND (J.dim 0) : ND ℂ).shape = [2 * D, 2 * D] by rw [hd]; rfl) h1
  refine ⟨Js, g1, g2, by simp [g4], ?_⟩
  have key : ∀ m (hm : m < (eyeND (J.dim 0) :: Ms').length), (eyeND (J.dim 0) :: Ms')[m].shape = [2 * D, 2 * D] ∧
      toM (2 * D) (2 * D) (eyeND (J.dim 0) :: Ms')[m] = flow (2 * D) (t1 - t0) (Js.take m) := by
    intro m hm
    cases m with
    | zero => exact ⟨by rw [hd]; rfl, by simpa [flow] using eyeM⟩
    | succ m =>
      obtain ⟨a, b⟩ := g5 m (by simpa using hm)
      exact ⟨a, by rw [eyeM, mul_one] at b; exact b⟩
  intro m hm
  obtain ⟨a, b⟩ := key m hm
  have hs := flow_symp (t1 - t0) (Js.take m) fun J hJ => g3 J (List.mem_of_mem_take hJ)
  rw [← b] at hs
  exact ⟨(symp_iff a).2 hs, b, symp_det hs⟩

end

end Xmps
