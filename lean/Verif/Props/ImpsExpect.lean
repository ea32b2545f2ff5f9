import Verif.Props.ImpsEigs

/-!
# Expectation values of an infinite MPS
-/

namespace Xmps

open Finset Matrix Spec ImpsCore ComplexOrder

namespace IMPS

section

variable {eigs : ND ℂ → Py (ℝ × ND ℂ × ND ℂ)} {chol inv : ND ℂ → Py (ND ℂ)} {svd : ND ℂ → Py (ND ℂ × List ℝ × ND ℂ)} {d D : ℕ} {A l r : ND ℂ}
  {eta : ℝ}

/-- the contraction `sum(X * tensordot(op, Z, [1, 0]))` -/
theorem sumMul_op {X Z op : ND ℂ} (hX : X.shape = [d, D, D]) (hZ : Z.shape = [d, D, D]) (ho : op.shape = [d, d]) :
    (do let t ← op.tensordot Z [1] [0]; sumMul X t) =
      .ok (∑ s ∈ range d, ∑ t ∈ range d, op.val [s, t] * (toM3 D D X s * (toM3 D D Z t)ᵀ).trace) := by
  have h1 : op.tensordot Z [1] [0] = .ok (op.tensordotR Z [1] [0]) := by simp [ND.tensordot, ND.rank, ND.dim, ho, hZ]
  have h2 : (op.tensordotR Z [1] [0]).shape = [d, D, D] := by
    simp [ND.tensordotR, ND.transposeR, ND.rank, ND.others, ND.dim, ho, hZ, List.range_succ]
  have h3 : ∀ s a b, (op.tensordotR Z [1] [0]).val [s, a, b] = ∑ t ∈ range d, op.val [s, t] * Z.val [t, a, b] := by
    intro s a b
    simp [ND.tensordotR, ND.transposeR, ND.rank, ND.others, ND.dim, ho, hZ, List.range_succ]
  rw [h1, ok_bind, sumMul, if_pos (by rw [hX, h2]), hX]
  simp only [sumIdx_cons, sumIdx_nil, h3]
  congr 1
  refine sum_congr rfl fun s _ => ?_
  have e : ∀ t, (toM3 D D X s * (toM3 D D Z t)ᵀ).trace = ∑ a ∈ range D, ∑ b ∈ range D, X.val [s, a, b] * Z.val [t, a, b] := by
    intro t
    simp only [Matrix.trace, Matrix.diag, Matrix.mul_apply, transpose_apply, toM3_apply, Finset.sum_range]
  simp only [e, Finset.mul_sum]
  symm
  rw [Finset.sum_comm]
  refine sum_congr rfl fun a _ => ?_
  rw [Finset.sum_comm]
  exact sum_congr rfl fun b _ => sum_congr rfl fun t _ => by ring

theorem toM3_conj {m n : ℕ} (A : ND ℂ) (s : ℕ) : toM3 m n A.conj s = (toM3 m n A s).map star := rfl

/-- the square of a diagonal matrix, entry by entry, is its product with itself -/
theorem VidalForm.sq {G L : ND ℂ} {lam : List ℝ} (h : VidalForm d D G L lam) :
    (sqEntries L).shape = [D, D] ∧ toM D D (sqEntries L) = toM D D L * toM D D L := by
  refine ⟨h.shapeL, ?_⟩
  have hL : ∀ i j : Fin D, L.val [i, j] = if (i : ℕ) = j then ((lam.getD i 0 : ℝ) : ℂ) else 0 := fun i j =>
    h.diag.2 i (by rw [h.len]; exact i.2) j (by rw [h.len]; exact j.2)
  ext i j
  rw [Matrix.mul_apply, Finset.sum_eq_single i]
  · simp only [toM_apply, sqEntries, hL, if_true]
    split_ifs with e
    · rw [Fin.ext e, pow_two]
    · simp
  · intro k _ hk
    rw [toM_apply, hL, if_neg (fun e => hk (Fin.ext e).symm), zero_mul]
  · simp

/-- `L` is symmetric -/
theorem VidalForm.symm {G L : ND ℂ} {lam : List ℝ} (h : VidalForm d D G L lam) : (toM D D L)ᵀ = toM D D L := by
  have hL : ∀ i j : Fin D, L.val [i, j] = if (i : ℕ) = j then ((lam.getD i 0 : ℝ) : ℂ) else 0 := fun i j =>
    h.diag.2 i (by rw [h.len]; exact i.2) j (by rw [h.len]; exact j.2)
  ext i j
  rw [transpose_apply, toM_apply, toM_apply, hL, hL]
  by_cases e : (i : ℕ) = j
  · rw [if_pos e, if_pos e.symm, e]
  · rw [if_neg e, if_neg (Ne.symm e)]

theorem map_star_transpose {n : ℕ} (M : Matrix (Fin n) (Fin n) ℂ) : (M.map star)ᵀ = Mᴴ := rfl

/-- the value of a one-site operator from the pair `(G, L)` -/
theorem pair_expect {G L : ND ℂ} {ll : ℝ} {g gi : Matrix (Fin D) (Fin D) ℂ} (he : 0 < eta) (hl : ((toM D D l)ᵀ * toM D D r).trace = ll)
    (hR : ∀ s, toM3 D D G s * toM D D L = (((Real.sqrt eta)⁻¹ : ℝ) : ℂ) • (g * toM3 D D A s * gi)) (h1 : gi * giᴴ = toM D D r)
    (h2 : gᴴ * (toM D D L * toM D D L) * g = (ll⁻¹ : ℂ) • (toM D D l)ᵀ) (op : ℕ → ℕ → ℂ) :
    ∑ s ∈ range d, ∑ t ∈ range d, op t s * (toM D D L * toM D D L * (toM3 D D G s * toM D D L) * (toM3 D D G t * toM D D L)ᴴ).trace =
      infExpect d D A l r eta op := by
  unfold infExpect
  rw [hl, div_eq_inv_mul, Finset.mul_sum]
  refine sum_congr rfl fun s _ => ?_
  rw [Finset.mul_sum]
  refine sum_congr rfl fun t _ => ?_
  have e2 : (((Real.sqrt eta)⁻¹ : ℝ) : ℂ) * star (((Real.sqrt eta)⁻¹ : ℝ) : ℂ) = (eta : ℂ)⁻¹ := by
    rw [Complex.star_def, Complex.conj_ofReal, ← Complex.ofReal_mul, ← mul_inv, Real.mul_self_sqrt he.le, Complex.ofReal_inv]
  have : (toM D D L * toM D D L * (toM3 D D G s * toM D D L) * (toM3 D D G t * toM D D L)ᴴ).trace =
      (eta : ℂ)⁻¹ * (ll : ℂ)⁻¹ * ((toM D D l)ᵀ * toM3 D D A s * toM D D r * (toM3 D D A t)ᴴ).trace := by
    rw [hR, hR]
    simp only [conjTranspose_smul, Matrix.smul_mul, Matrix.mul_smul, smul_smul, trace_smul, smul_eq_mul]
    have e3 : toM D D L * toM D D L * (g * toM3 D D A s * gi) * (g * toM3 D D A t * gi)ᴴ =
        (toM D D L * toM D D L * g * toM3 D D A s * (gi * giᴴ) * (toM3 D D A t)ᴴ) * gᴴ := by
      simp only [conjTranspose_mul, Matrix.mul_assoc]
    rw [e3, Matrix.trace_mul_comm, h1]
    have e4 : gᴴ * (toM D D L * toM D D L * g * toM3 D D A s * toM D D r * (toM3 D D A t)ᴴ) =
        gᴴ * (toM D D L * toM D D L) * g * toM3 D D A s * toM D D r * (toM3 D D A t)ᴴ := by
      simp only [Matrix.mul_assoc]
    rw [e4, h2]
    simp only [Matrix.smul_mul, trace_smul, smul_eq_mul]
    rw [← e2]
    ring
  rw [this, mul_inv]
  ring

/-- the expectation value of the identity -/
theorem infExpect_identity (hD : 0 < D) (hf : FixedPoints d D A l r eta) : infExpect d D A l r eta (fun t s => if t = s then 1 else 0) = 1 := by
  obtain ⟨c, hc, hc'⟩ := trace_pos hD hf.pos_l.transpose hf.pos_r
  have e0 : (eta : ℂ) ≠ 0 := by exact_mod_cast hf.eta_pos.ne'
  have c0 : (c : ℂ) ≠ 0 := by exact_mod_cast hc.ne'
  unfold infExpect
  rw [hc', div_eq_one_iff_eq (mul_ne_zero e0 c0)]
  have : ∀ s ∈ range d, ∑ t ∈ range d, (if t = s then (1 : ℂ) else 0) * ((toM D D l)ᵀ * toM3 D D A s * toM D D r * (toM3 D D A t)ᴴ).trace =
      ((toM D D l)ᵀ * (toM3 D D A s * toM D D r * (toM3 D D A s)ᴴ)).trace := by
    intro s hs
    rw [Finset.sum_eq_single_of_mem s hs]
    · rw [if_pos rfl, one_mul]
      simp only [Matrix.mul_assoc]
    · intro t _ ht
      rw [if_neg ht, zero_mul]
  rw [sum_congr rfl this, ← Matrix.trace_sum, ← Finset.mul_sum, hf.right, Matrix.mul_smul, trace_smul, hc', smul_eq_mul]

/-- the expectation value does not depend on the scale of the fixed points -/
theorem infExpect_scale {l' r' : ND ℂ} {c c' : ℝ} (hc : 0 < c) (hc' : 0 < c') (el : toM D D l' = (c : ℂ) • toM D D l)
    (er : toM D D r' = (c' : ℂ) • toM D D r) (op : ℕ → ℕ → ℂ) : infExpect d D A l' r' eta op = infExpect d D A l r eta op := by
  have c0 : (c : ℂ) ≠ 0 := by exact_mod_cast hc.ne'
  have c0' : (c' : ℂ) ≠ 0 := by exact_mod_cast hc'.ne'
  unfold infExpect
  rw [el, er]
  simp only [transpose_smul, Matrix.smul_mul, Matrix.mul_smul, trace_smul, smul_eq_mul, ← mul_assoc]
  have : ∀ s t (z : ℂ), op t s * (c' : ℂ) * c * z = ((c' : ℂ) * c) * (op t s * z) := fun s t z => by ring
  simp only [this, ← Finset.mul_sum]
  rw [show (eta : ℂ) * c' * c * ((toM D D l)ᵀ * toM D D r).trace = ((c' : ℂ) * c) * (eta * ((toM D D l)ᵀ * toM D D r).trace) by ring]
  exact mul_div_mul_left _ _ (mul_ne_zero c0' c0)

/-- **C61**: after `canonicalise('r')`, `E(op, 'r')` is the expectation value of the transpose of `op`. -/
theorem E_right (hchol : CholLaw chol) (hsvd : SVDLaw svd) (hinv : InvLaw inv) (hD : 0 < D) {x : IMPS} (he : eigs x.A = .ok (eta, l, r))
    (hf : FixedPoints d D x.A l r eta) {op : ND ℂ} (ho : op.shape = [d, d]) :
    ∃ y, canonicalise eigs chol svd inv x .r = .ok y ∧ y.E op .r = .ok (infExpect d D x.A l r eta fun t s => op.val [s, t]) := by
  obtain ⟨G, L, S, lam, ll, g, gi, k, ki, h1, h2, h3, h4, h5, h6, h7, h8, h9, h10, h11, h12, h13⟩ := vidalPair_spec hchol hsvd hinv hD he hf
  obtain ⟨B, b1, b2, b3⟩ := matmul32M h2.shape h2.shapeL
  obtain ⟨q1, q2⟩ := h2.sq
  obtain ⟨E, e1, e2, e3⟩ := matmul23M (B := B.conj) q1 b2
  refine ⟨⟨B, some L, some l, some r⟩, ?_, ?_⟩
  · unfold canonicalise
    rw [h1, ok_bind]
    simp only [b1, ok_bind]
  · unfold IMPS.E
    simp only [ok_bind, e1]
    rw [sumMul_op b2 e2 ho, ← pair_expect hf.eta_pos h4 h7 h10 h11]
    congr 1
    refine sum_congr rfl fun s _ => sum_congr rfl fun t _ => ?_
    congr 1
    rw [e3, q2, toM3_conj, transpose_mul, transpose_mul, map_star_transpose, h2.symm, ← Matrix.mul_assoc, Matrix.trace_mul_comm, ← Matrix.mul_assoc, b3, b3]

/-- **C61**: after `canonicalise('l')`, `E(op, 'l')` is the expectation value of the transpose of `op`. -/
theorem E_left (hchol : CholLaw chol) (hsvd : SVDLaw svd) (hinv : InvLaw inv) (hD : 0 < D) {x : IMPS} (he : eigs x.A = .ok (eta, l, r))
    (hf : FixedPoints d D x.A l r eta) {op : ND ℂ} (ho : op.shape = [d, d]) :
    ∃ y, canonicalise eigs chol svd inv x .l = .ok y ∧ y.E op .l = .ok (infExpect d D x.A l r eta fun t s => op.val [s, t]) := by
  obtain ⟨G, L, S, lam, ll, g, gi, k, ki, h1, h2, h3, h4, h5, h6, h7, h8, h9, h10, h11, h12, h13⟩ := vidalPair_spec hchol hsvd hinv hD he hf
  obtain ⟨B, b1, b2, b3⟩ := matmul23M h2.shapeL h2.shape
  obtain ⟨q1, q2⟩ := h2.sq
  obtain ⟨E, e1, e2, e3⟩ := matmul32M b2 q1
  refine ⟨⟨B, some L, some l, some r⟩, ?_, ?_⟩
  · unfold canonicalise
    rw [h1, ok_bind]
    simp only [b1, ok_bind]
  · unfold IMPS.E
    simp only [ok_bind, e1]
    rw [sumMul_op (Z := B.conj) e2 b2 ho, ← pair_expect hf.eta_pos h4 h7 h10 h11]
    congr 1
    refine sum_congr rfl fun s _ => sum_congr rfl fun t _ => ?_
    congr 1
    rw [e3, q2, toM3_conj, map_star_transpose, b3, b3]
    have e4 : toM D D L * toM3 D D G s * (toM D D L * toM D D L) * (toM D D L * toM3 D D G t)ᴴ =
        (toM D D L * toM3 D D G s * toM D D L * (toM D D L * (toM3 D D G t)ᴴ)) * toM D D L := by
      simp only [conjTranspose_mul, h2.herm, Matrix.mul_assoc]
    rw [e4, Matrix.trace_mul_comm]
    simp only [conjTranspose_mul, h2.herm, Matrix.mul_assoc]

/-- **C61**: after `canonicalise('m')`, `E(op, 'm')` is the expectation value of the transpose of `op` times `tr(lᵀ r)`. -/
theorem E_mixed (hchol : CholLaw chol) (hsvd : SVDLaw svd) (hinv : InvLaw inv) (hD : 0 < D) {x : IMPS} (he : eigs x.A = .ok (eta, l, r))
    (hf : FixedPoints d D x.A l r eta) {op : ND ℂ} (ho : op.shape = [d, d]) :
    ∃ y, canonicalise eigs chol svd inv x .m = .ok y ∧
      y.E op .m = .ok (((toM D D l)ᵀ * toM D D r).trace * infExpect d D x.A l r eta fun t s => op.val [s, t]) := by
  obtain ⟨G, L, S, lam, ll, g, gi, k, ki, h1, h2, h3, h4, h5, h6, h7, h8, h9, h10, h11, h12, h13⟩ := vidalPair_spec hchol hsvd hinv hD he hf
  obtain ⟨E, q, hcan, e2, hqp, hLq, hE⟩ := mixed_ok h1 h2 h3 h5
  obtain ⟨P, p1, p2, p3⟩ := matmul23M h2.shapeL e2
  obtain ⟨Q, q1, q2, q3⟩ := matmul32M (A := E.conj) e2 h2.shapeL
  refine ⟨_, hcan, ?_⟩
  unfold IMPS.E
  simp only [ok_bind, p1, q1]
  rw [sumMul_op p2 q2 ho, ← pair_expect hf.eta_pos h4 h7 h10 h11, h4, Finset.mul_sum]
  congr 1
  refine sum_congr rfl fun s _ => ?_
  rw [Finset.mul_sum]
  refine sum_congr rfl fun t _ => ?_
  have hss : ((Real.sqrt ll : ℝ) : ℂ) * star ((Real.sqrt ll : ℝ) : ℂ) = ll := by
    rw [Complex.star_def, Complex.conj_ofReal, ← Complex.ofReal_mul, Real.mul_self_sqrt h3.le]
  have e4 : toM3 D D P s * (toM3 D D Q t)ᵀ =
      (ll : ℂ) • ((dS q * dS q * dS q * toM3 D D G s * (dS q * dS q * dS q * dS q) * (toM3 D D G t)ᴴ) * dS q) := by
    rw [p3, q3, transpose_mul, h2.symm, toM3_conj, map_star_transpose, hE, hE, hLq, ← hss]
    simp only [conjTranspose_smul, conjTranspose_mul, dS_herm, Matrix.smul_mul, Matrix.mul_smul, smul_smul, Matrix.mul_assoc]
    rw [mul_comm (star _)]
  have e5 : toM D D L * toM D D L * (toM3 D D G s * toM D D L) * (toM3 D D G t * toM D D L)ᴴ =
      dS q * (dS q * dS q * dS q * toM3 D D G s * (dS q * dS q * dS q * dS q) * (toM3 D D G t)ᴴ) := by
    rw [conjTranspose_mul, h2.herm, hLq]
    simp only [Matrix.mul_assoc]
  rw [e4, e5, trace_smul, Matrix.trace_mul_comm, smul_eq_mul]
  ring

theorem dot3 {G L : ND ℂ} (hG : G.shape = [d, D, D]) (hL : L.shape = [D, D]) : ∃ P, G.tensordot L [2] [0] = .ok P ∧ P.shape = [d, D, D] ∧
    ∀ s a b, P.val [s, a, b] = ∑ c ∈ range D, G.val [s, a, c] * L.val [c, b] := by
  refine ⟨G.tensordotR L [2] [0], by simp [ND.tensordot, ND.rank, ND.dim, hG, hL], ?_, fun s a b => ?_⟩ <;>
  simp [ND.tensordotR, ND.transposeR, ND.rank, ND.others, ND.dim, hG, hL, List.range_succ]

theorem dot33 {Q H : ND ℂ} (hQ : Q.shape = [d, D, D]) (hH : H.shape = [d, D, D]) : ∃ P, Q.tensordot H [2] [1] = .ok P ∧ P.shape = [d, D, d, D] ∧
    ∀ s a t b, P.val [s, a, t, b] = ∑ c ∈ range D, Q.val [s, a, c] * H.val [t, c, b] := by
  refine ⟨Q.tensordotR H [2] [1], by simp [ND.tensordot, ND.rank, ND.dim, hQ, hH], ?_, fun s a t b => ?_⟩ <;>
  simp [ND.tensordotR, ND.transposeR, ND.rank, ND.others, ND.dim, hQ, hH, List.range_succ]

theorem dot4 {R L : ND ℂ} (hR : R.shape = [d, D, d, D]) (hL : L.shape = [D, D]) : ∃ P, R.tensordot L [3] [0] = .ok P ∧ P.shape = [d, D, d, D] ∧
    ∀ s a t b, P.val [s, a, t, b] = ∑ c ∈ range D, R.val [s, a, t, c] * L.val [c, b] := by
  refine ⟨R.tensordotR L [3] [0], by simp [ND.tensordot, ND.rank, ND.dim, hR, hL], ?_, fun s a t b => ?_⟩ <;>
  simp [ND.tensordotR, ND.transposeR, ND.rank, ND.others, ND.dim, hR, hL, List.range_succ]

theorem trace13 {W : ND ℂ} (hW : W.shape = [d, D, d, D]) : ∃ P, W.trace 1 3 = .ok P ∧ P.shape = [d, d] ∧
    ∀ s t, P.val [s, t] = ∑ a ∈ range D, W.val [s, a, t, a] := by
  refine ⟨W.traceR 1 3, by simp [ND.trace, ND.rank, hW], ?_, fun s t => ?_⟩ <;>
  simp [ND.traceR, ND.transposeR, ND.rank, ND.others, ND.dim, hW, List.range_succ]

/-- **C61**: `E(op)` is the expectation value of `op`. -/
theorem E_vidal (hchol : CholLaw chol) (hsvd : SVDLaw svd) (hinv : InvLaw inv) (hD : 0 < D) {x : IMPS} (he : eigs x.A = .ok (eta, l, r))
    (hf : FixedPoints d D x.A l r eta) {op : ND ℂ} (ho : op.shape = [d, d]) :
    expVidal eigs chol svd inv x op = .ok (infExpect d D x.A l r eta fun t s => op.val [t, s]) := by
  obtain ⟨G, L, S, lam, ll, g, gi, k, ki, h1, h2, h3, h4, h5, h6, h7, h8, h9, h10, h11, h12, h13⟩ := vidalPair_spec hchol hsvd hinv hD he hf
  have hL := h2.shapeL
  have hG := h2.shape
  obtain ⟨H, hH⟩ : ∃ H, H = G.hc := ⟨_, rfl⟩
  have hHs : H.shape = [d, D, D] := by rw [hH, ND.hc, hG]
  have hHv : ∀ s a b, H.val [s, a, b] = star (G.val [s, b, a]) := by
    intro s a b
    rw [hH, ND.hc, hG]
  obtain ⟨P, t1, s1, v1⟩ := dot3 hG hL
  obtain ⟨Q, t2, s2, v2⟩ := dot3 s1 hL
  obtain ⟨R, t3, s3, v3⟩ := dot33 s2 hHs
  obtain ⟨V, t4, s4, v4⟩ := dot4 s3 hL
  obtain ⟨W, t5, s5, v5⟩ := dot4 s4 hL
  obtain ⟨Z, t6, s6, v6⟩ := trace13 s5
  obtain ⟨M, m1, m2, m3⟩ := matmul22M s6 ho
  unfold expVidal
  rw [h1, ok_bind]
  simp only [t1, t2, ← hH, t3, t4, t5, t6, m1, ok_bind]
  rw [tr2_ok m2, m3, ← pair_expect hf.eta_pos h4 h7 h10 h11]
  congr 1
  have key : ∀ s t, Z.val [s, t] =
      (toM D D L * toM D D L * (toM3 D D G s * toM D D L) * (toM3 D D G t * toM D D L)ᴴ).trace := by
    intro s t
    have : toM D D L * toM D D L * (toM3 D D G s * toM D D L) * (toM3 D D G t * toM D D L)ᴴ =
        (toM D D L * toM D D L) * (toM3 D D G s * toM D D L * toM D D L * toM3 D D H t) := by
      have hHt : toM3 D D H t = (toM3 D D G t)ᴴ := by
        ext i j
        simp only [toM3_apply, conjTranspose_apply, hHv]
      rw [hHt, conjTranspose_mul, h2.herm]
      simp only [Matrix.mul_assoc]
    rw [this, Matrix.trace_mul_comm, ← Matrix.mul_assoc, v6]
    simp only [v5, v4, v3, v2, v1, Matrix.trace, Matrix.diag, Matrix.mul_apply, toM_apply, toM3_apply, Finset.sum_range]
  simp only [Matrix.trace, Matrix.diag, Matrix.mul_apply, toM_apply, key]
  rw [Finset.sum_range]
  refine sum_congr rfl fun s _ => ?_
  rw [Finset.sum_range]
  exact sum_congr rfl fun t _ => mul_comm _ _

end

end IMPS

end Xmps
