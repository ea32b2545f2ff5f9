import Verif.Props.ImpsWitness
import Verif.Model.ImpsEnergy
import Verif.Props.Envs

/-!
# Energy of an infinite MPS
-/

namespace Xmps

open Finset Matrix Spec ImpsCore ComplexOrder Xmps.Ncon

namespace IMPS

variable {eigs : ND ℂ → Py (ℝ × ND ℂ × ND ℂ)} {d D : ℕ} {l r : ND ℂ} {eta : ℝ}

/-- What `energy` computes: the ket index of the left part is joined to the bra index of `r`. -/
theorem energy_eq (O : SetOrder) {x : IMPS} {h : ND ℂ} (hA : x.A.shape = [d, D, D]) (hl : l.shape = [D, D]) (hr : r.shape = [D, D])
    (he : eigs x.A = .ok (eta, l, r)) (hh : h.shape = [d * d, d * d]) :
    energy O eigs x h = .ok (∑ s1 ∈ range d, ∑ s2 ∈ range d, ∑ t1 ∈ range d, ∑ t2 ∈ range d, h.val [s1 * d + s2, t1 * d + t2] *
      ((toM D D l)ᵀ * (toM3 D D x.A t1 * toM3 D D x.A t2) * (toM D D r)ᵀ * (toM3 D D x.A s1 * toM3 D D x.A s2)ᴴ).trace).re := by
  obtain ⟨A, hx⟩ : ∃ A, A = x.A := ⟨_, rfl⟩
  rw [← hx] at hA he ⊢
  obtain ⟨h4, hh4⟩ : ∃ h4, h4 = h.reshapeR [d, d, d, d] := ⟨_, rfl⟩
  have s4 : h4.shape = [d, d, d, d] := by rw [hh4]; rfl
  have v4 : ∀ s1 < d, ∀ s2 < d, ∀ t1 < d, ∀ t2 < d, h4.val [s1, s2, t1, t2] = h.val [s1 * d + s2, t1 * d + t2] := by
    intro s1 h1 s2 h2 t1 g1 t2 g2
    rw [hh4]
    refine ND.reshapeR_val_any ?_ ?_
    · rw [hh]
      exact ⟨mul_add_lt h1 h2, mul_add_lt g1 g2, trivial⟩
    · rw [hh]
      simp only [ravel_cons, ravel_nil, List.prod_cons, List.prod_nil]
      ring
  have hd : A.dim 0 = d := by simp [ND.dim, hA]
  obtain ⟨C, e1, hC, hCv⟩ := nc_eval O (AA := [h4, A, A]) (v := [[-1, -2, 1, 2], [1, -3, 3], [2, 3, -4]])
    (dimOf [(1, d), (2, d), (3, D), (-1, d), (-2, d), (-3, D), (-4, D)]) [1, 2, 3] [-1, -2, -3, -4]
    ⟨by simp, by simp [s4, hA, dimOf, List.lookup], by simp, by simp, by decide, by decide, by decide, by decide, by decide⟩
    (by decide) (by decide)
  have hC' : C.shape = [d, d, D, D] := by rw [hC]; simp [dimOf, List.lookup]
  have hCv' : ∀ s1 s2 c e, C.val [s1, s2, c, e] = ∑ t1 ∈ range d, ∑ t2 ∈ range d, ∑ u ∈ range D,
      h4.val [s1, s2, t1, t2] * (A.val [t1, c, u] * A.val [t2, u, e]) := by
    intro s1 s2 c e
    rw [hCv _ rfl]
    simp [labelSum, netTerm, assign, dimOf, List.lookup, Function.update]
  obtain ⟨Ac, hAc⟩ : ∃ Ac, Ac = A.conj := ⟨_, rfl⟩
  have hAs : Ac.shape = [d, D, D] := by rw [hAc]; exact hA
  have hAv : ∀ s a b, Ac.val [s, a, b] = star (A.val [s, a, b]) := by intros; rw [hAc]; rfl
  obtain ⟨a, e2, ha, hav⟩ := ND.matmul23 (A := l) (B := Ac) (m := D) (k := D) (b := d) (n := D) hl hAs
  obtain ⟨K, e3, hK, hKv⟩ := nc_eval O (AA := [a, Ac, C]) (v := [[1, 3, 4], [2, 4, -2], [1, 2, 3, -1]])
    (dimOf [(1, d), (2, d), (3, D), (4, D), (-1, D), (-2, D)]) [1, 2, 3, 4] [-1, -2]
    ⟨by simp, by simp [ha, hAs, hC', dimOf, List.lookup], by simp, by simp, by decide, by decide, by decide, by decide, by decide⟩
    (by decide) (by decide)
  have hK' : K.shape = [D, D] := by rw [hK]; simp [dimOf, List.lookup]
  have hKv' : ∀ p q, K.val [p, q] = ∑ s1 ∈ range d, ∑ s2 ∈ range d, ∑ u ∈ range D, ∑ v ∈ range D,
      a.val [s1, u, v] * (Ac.val [s2, v, q] * C.val [s1, s2, u, p]) := by
    intro p q
    rw [hKv _ rfl]
    simp [labelSum, netTerm, assign, dimOf, List.lookup, Function.update]
  obtain ⟨M, m1, m2, m3⟩ := matmul22M hK' hr
  unfold energy
  simp only [← hx, hd]
  rw [ND.reshape_ok_any (by rw [hh]; simp [mul_assoc]), ok_bind, ← hh4, he, ok_bind]
  simp only [e1, ok_bind, ← hAc, e2, e3, m1, tr2_ok m2]
  let c : ℕ → ℕ → Matrix (Fin D) (Fin D) ℂ := fun s1 s2 => Matrix.of fun u p => C.val [s1, s2, u, p]
  have hc : ∀ s1 < d, ∀ s2 < d, c s1 s2 = ∑ t1 ∈ range d, ∑ t2 ∈ range d, h.val [s1 * d + s2, t1 * d + t2] • (toM3 D D A t1 * toM3 D D A t2) := by
    intro s1 h1 s2 h2
    ext u p
    simp only [c, Matrix.of_apply, hCv', Matrix.sum_apply, Matrix.smul_apply, Matrix.mul_apply, toM3_apply, smul_eq_mul]
    refine sum_congr rfl fun t1 g1 => sum_congr rfl fun t2 g2 => ?_
    rw [v4 s1 h1 s2 h2 t1 (mem_range.1 g1) t2 (mem_range.1 g2), Finset.sum_range, Finset.mul_sum]
  have ham : ∀ s, toM3 D D a s = toM D D l * (toM3 D D A s).map star := by
    intro s
    ext i j
    simp only [toM3_apply, Matrix.mul_apply, toM_apply, Matrix.map_apply]
    rw [hav, Finset.sum_range]
    simp only [hAv]
  have hKm : toM D D K = ∑ s1 ∈ range d, ∑ s2 ∈ range d, (c s1 s2)ᵀ * toM3 D D a s1 * (toM3 D D A s2).map star := by
    ext p q
    simp only [Matrix.sum_apply, toM_apply, hKv']
    refine sum_congr rfl fun s1 _ => sum_congr rfl fun s2 _ => ?_
    rw [Finset.sum_comm]
    simp only [Matrix.mul_apply, transpose_apply, toM3_apply, Matrix.map_apply, c, Matrix.of_apply, Finset.sum_range, Finset.sum_mul]
    refine sum_congr rfl fun v _ => sum_congr rfl fun u _ => ?_
    rw [hAv]
    ring
  congr 2
  rw [m3, hKm]
  simp only [Finset.sum_mul, Matrix.trace_sum]
  refine sum_congr rfl fun s1 h1 => sum_congr rfl fun s2 h2 => ?_
  rw [hc s1 (mem_range.1 h1) s2 (mem_range.1 h2)]
  simp only [transpose_sum, transpose_smul, Finset.sum_mul, Matrix.smul_mul, Matrix.trace_sum, trace_smul, smul_eq_mul]
  refine sum_congr rfl fun t1 _ => sum_congr rfl fun t2 _ => ?_
  congr 1
  rw [ham, ← Matrix.trace_transpose]
  simp only [transpose_mul, transpose_transpose, map_star_transpose, conjTranspose_mul, Matrix.mul_assoc]
  rw [Matrix.trace_mul_comm]
  simp only [Matrix.mul_assoc]
  rw [Matrix.trace_mul_comm]
  simp only [Matrix.mul_assoc]
  rw [Matrix.trace_mul_comm]
  simp only [Matrix.mul_assoc]

/-- **C62, partial**: the energy is right for tensors with leading eigenvalue one when the right fixed point is symmetric, as it is for
right canonical tensors.  Without symmetry it is not, see `energy_wrong`. -/
theorem energy_ok_partial (O : SetOrder) (x : IMPS) {h : ND ℂ} (hf : FixedPoints d D x.A l r 1) (hs : (toM D D r)ᵀ = toM D D r)
    (hn : (toM D D l * toM D D r).trace = 1) (he : eigs x.A = .ok (1, l, r)) (hh : h.shape = [d * d, d * d]) :
    energy O eigs x h = .ok (infExpect2 d D x.A l r 1 fun s1 s2 t1 t2 => h.val [s1 * d + s2, t1 * d + t2]).re := by
  rw [energy_eq O hf.shape hf.shape_l hf.shape_r he hh, hs]
  unfold infExpect2
  have : ((toM D D l)ᵀ * toM D D r).trace = 1 := by
    rw [← Matrix.trace_transpose, transpose_mul, transpose_transpose, hs, Matrix.trace_mul_comm, hn]
  rw [this]
  norm_num

/-- a tensor of bond dimension two and leading eigenvalue one -/
noncomputable def exEn : ND ℂ := ⟨[2, 2, 2], fun
  | [0, 0, 0] => -Complex.I
  | [0, 0, 1] => 1
  | [0, 1, 0] => 1
  | [0, 1, 1] => Complex.I
  | [1, 0, 0] => Complex.I / 4
  | [1, 0, 1] => 1 / 4
  | [1, 1, 0] => 1 / 4
  | _ => -Complex.I / 4⟩

noncomputable def exRe : ND ℂ := ⟨[2, 2], fun
  | [0, 0] => 5 / 2
  | [0, 1] => -(3 * Complex.I / 2)
  | [1, 0] => 3 * Complex.I / 2
  | _ => 5 / 2⟩

noncomputable def exLe : ND ℂ := exRe.smul (1 / 17)

/-- the projector on the configuration `01` of two neighbours -/
noncomputable def exProj : ND ℂ := ⟨[2 * 2, 2 * 2], fun
  | [1, 1] => 1
  | _ => 0⟩

theorem exRe_eq : toM 2 2 exRe = !![5 / 2, -(3 * Complex.I / 2); 3 * Complex.I / 2, 5 / 2] := by
  ext i j
  match i, j with
  | 0, 0 => rfl
  | 0, 1 => rfl
  | 1, 0 => rfl
  | 1, 1 => rfl

theorem exRe_pos : (toM 2 2 exRe).PosDef := by
  have : toM 2 2 exRe = 1 + (3 / 2 : ℂ) • (!![1, 0; Complex.I, 0] * (!![1, 0; Complex.I, 0])ᴴ) := by
    rw [exRe_eq, ct2, Matrix.mul_fin_two, Matrix.smul_of, one_fin_two]
    simp only [Matrix.smul_cons, Matrix.smul_empty, smul_eq_mul, Matrix.of_add_of, Matrix.add_cons, Matrix.head_cons, Matrix.tail_cons,
      Matrix.empty_add_empty]
    refine eq2 ?_ ?_ ?_ ?_ <;> apply Complex.ext <;> simp <;> norm_num
  rw [this]
  refine PosDef.one.add_posSemidef ?_
  refine (Matrix.posSemidef_self_mul_conjTranspose _).smul ?_
  rw [Complex.nonneg_iff]
  norm_num

theorem exEn0 : toM3 2 2 exEn 0 = !![-Complex.I, 1; 1, Complex.I] := by
  ext i j
  match i, j with
  | 0, 0 => rfl
  | 0, 1 => rfl
  | 1, 0 => rfl
  | 1, 1 => rfl

theorem exEn1 : toM3 2 2 exEn 1 = !![Complex.I / 4, 1 / 4; 1 / 4, -Complex.I / 4] := by
  ext i j
  match i, j with
  | 0, 0 => rfl
  | 0, 1 => rfl
  | 1, 0 => rfl
  | 1, 1 => rfl

theorem exLe_eq : toM 2 2 exLe = (1 / 17 : ℂ) • toM 2 2 exRe := toM_smul _ _

theorem exEn_fixed : FixedPoints 2 2 exEn exLe exRe 1 := by
  have hR : FixedPoints 2 2 exEn exRe exRe 1 := by
    refine ⟨rfl, rfl, rfl, by norm_num, ?_, ?_, exRe_pos, exRe_pos⟩
    · rw [Finset.sum_range_succ, Finset.sum_range_one, exEn0, exEn1, exRe_eq]
      simp only [tr2, map2, ct2, Matrix.mul_fin_two, Matrix.smul_of, Matrix.smul_cons, Matrix.smul_empty, smul_eq_mul, Matrix.of_add_of, Matrix.add_cons,
        Matrix.head_cons, Matrix.tail_cons, Matrix.empty_add_empty]
      refine eq2 ?_ ?_ ?_ ?_ <;> apply Complex.ext <;> simp <;> norm_num
    · rw [Finset.sum_range_succ, Finset.sum_range_one, exEn0, exEn1, exRe_eq]
      simp only [tr2, map2, ct2, Matrix.mul_fin_two, Matrix.smul_of, Matrix.smul_cons, Matrix.smul_empty, smul_eq_mul, Matrix.of_add_of, Matrix.add_cons,
        Matrix.head_cons, Matrix.tail_cons, Matrix.empty_add_empty]
      refine eq2 ?_ ?_ ?_ ?_ <;> apply Complex.ext <;> simp <;> norm_num
  refine hR.scale (c := 1 / 17) (c' := 1) (by norm_num) one_pos rfl rfl ?_ ?_
  · rw [exLe_eq]
    norm_num
  · simp

theorem exEn_norm : (toM 2 2 exLe * toM 2 2 exRe).trace = 1 := by
  rw [exLe_eq, exRe_eq, Matrix.smul_mul, trace_smul, Matrix.mul_fin_two, Matrix.trace_fin_two_of, smul_eq_mul]
  linear_combination (-(9 / 34) : ℂ) * Complex.I_mul_I

theorem exEn_ll : ((toM 2 2 exLe)ᵀ * toM 2 2 exRe).trace = 8 / 17 := by
  rw [exLe_eq, exRe_eq, transpose_smul, tr2, Matrix.smul_mul, trace_smul, Matrix.mul_fin_two, Matrix.trace_fin_two_of, smul_eq_mul]
  linear_combination ((9 / 34) : ℂ) * Complex.I_mul_I

/-- **C62 fails**: for a normalised tensor and the fixed points with the normalisation `eigs` gives, the projector on `01` has the
expectation value 1/2 but `energy` returns 1/17. -/
theorem energy_wrong (O : SetOrder) (he : eigs exEn = .ok (1, exLe, exRe)) :
    FixedPoints 2 2 exEn exLe exRe 1 ∧ (toM 2 2 exLe * toM 2 2 exRe).trace = 1 ∧
    infExpect2 2 2 exEn exLe exRe 1 (fun s1 s2 t1 t2 => exProj.val [s1 * 2 + s2, t1 * 2 + t2]) = 1 / 2 ∧
    energy O eigs ⟨exEn, none, none, none⟩ exProj = .ok (1 / 17) := by
  refine ⟨exEn_fixed, exEn_norm, ?_, ?_⟩
  · unfold infExpect2
    rw [exEn_ll, div_eq_iff (by norm_num)]
    simp only [Finset.sum_range_succ, Finset.sum_range_zero, exProj]
    norm_num
    rw [exEn0, exEn1, exLe_eq, exRe_eq, transpose_smul]
    simp only [Matrix.smul_mul, trace_smul]
    simp only [tr2, ct2, Matrix.mul_fin_two, Matrix.trace_fin_two_of]
    apply Complex.ext <;> simp <;> norm_num
  · rw [energy_eq O (l := exLe) (r := exRe) (d := 2) (D := 2) rfl rfl rfl he rfl]
    congr 1
    simp only [Finset.sum_range_succ, Finset.sum_range_zero, exProj]
    norm_num
    rw [exEn0, exEn1, exLe_eq, exRe_eq, transpose_smul]
    simp only [Matrix.smul_mul, trace_smul]
    simp only [tr2, ct2, Matrix.mul_fin_two, Matrix.trace_fin_two_of]
    simp
    norm_num

/-- a normalised product state -/
noncomputable def exUnit : ND ℂ := ⟨[2, 1, 1], fun
  | [0, _, _] => ⟨3 / 5, 0⟩
  | _ => ⟨0, 4 / 5⟩⟩

theorem exUnit_fixed : FixedPoints 2 1 exUnit exOne exOne 1 := by
  have h1 : toM 1 1 exOne = 1 := by
    ext i j
    rw [Subsingleton.elim i 0, Subsingleton.elim j 0]
    rfl
  refine ⟨rfl, rfl, rfl, by norm_num, ?_, ?_, ?_, ?_⟩
  · ext i j
    rw [Subsingleton.elim i 0, Subsingleton.elim j 0, h1]
    apply Complex.ext <;> simp [Finset.sum_range_succ, Matrix.mul_apply, toM3_apply, exUnit] <;> norm_num
  · ext i j
    rw [Subsingleton.elim i 0, Subsingleton.elim j 0, h1]
    apply Complex.ext <;> simp [Finset.sum_range_succ, Matrix.mul_apply, toM3_apply, exUnit] <;> norm_num
  · rw [h1]
    exact PosDef.one
  · rw [h1]
    exact PosDef.one

example (O : SetOrder) : energy O (fun _ => .ok (1, exOne, exOne)) ⟨exUnit, none, none, none⟩ exProj =
    .ok (infExpect2 2 1 exUnit exOne exOne 1 fun s1 s2 t1 t2 => exProj.val [s1 * 2 + s2, t1 * 2 + t2]).re :=
  energy_ok_partial O ⟨exUnit, none, none, none⟩ exUnit_fixed (by ext i j; rw [Subsingleton.elim i j]; rfl)
    (by simp [Matrix.trace, Matrix.mul_apply, toM_apply, exOne]) rfl rfl

end IMPS

end Xmps
