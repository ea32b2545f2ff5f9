import Verif.Model.ImpsTdvp
import Verif.Spec.ImpsTdvp
import Verif.Props.ImpsOverlap
import Verif.Props.ImpsEnergy
import Verif.Lemmas.DAdtTerm

/-!
# `Lh` sums the Hamiltonian terms on the left (C79)
-/

namespace Xmps

open Finset Matrix Spec ImpsCore ComplexOrder Xmps.Ncon

theorem rootLaw_exists : ∃ root, RootLaw root := by
  classical
  refine ⟨fun f D => if h : ∃ K F, K.shape = [D, D] ∧ f K = .ok F ∧ toM D D F = 0 then .ok h.choose else .error .exception, ?_⟩
  intro f D h
  obtain ⟨F, h1, h2, h3⟩ := h.choose_spec
  exact ⟨h.choose, F, dif_pos h, h1, h2, h3⟩

namespace IMPS

variable {eigs : ND ℂ → Py (ℝ × ND ℂ × ND ℂ)} {d D : ℕ} {A l r h : ND ℂ} {eta : ℝ}

/-- the arrays `C` and `K` -/
theorem leftK_ok (O : SetOrder) (hA : A.shape = [d, D, D]) (hl : l.shape = [D, D]) {h4 : ND ℂ} (s4 : h4.shape = [d, d, d, d])
    (v4 : ∀ s1 < d, ∀ s2 < d, ∀ t1 < d, ∀ t2 < d, h4.val [s1, s2, t1, t2] = h.val [s1 * d + s2, t1 * d + t2]) :
    ∃ C K, hAA O A h4 = .ok C ∧ leftK O A l C = .ok K ∧ C.shape = [d, d, D, D] ∧ K.shape = [D, D] ∧
      (∀ s1 s2 c e, C.val [s1, s2, c, e] = ∑ t1 ∈ range d, ∑ t2 ∈ range d, ∑ u ∈ range D,
        h4.val [s1, s2, t1, t2] * (A.val [t1, c, u] * A.val [t2, u, e])) ∧ toM D D K = hamLeft d D A l h := by
  obtain ⟨C, e1, hC, hCv⟩ := nc_eval O (AA := [h4, A, A]) (v := [[-1, -2, 1, 2], [1, -3, 3], [2, 3, -4]])
    (dimOf [(1, d), (2, d), (3, D), (-1, d), (-2, d), (-3, D), (-4, D)]) [1, 2, 3] [-1, -2, -3, -4]
    ⟨by simp, by simp [s4, hA, dimOf, List.lookup], by simp, by simp, by decide, by decide, by decide, by decide, by decide⟩
    (by decide) (by decide)
  have hC' : C.shape = [d, d, D, D] := by rw [hC]; simp [dimOf, List.lookup]
  have hCv' : ∀ s1 s2 c e, C.val [s1, s2, c, e] = ∑ t1 ∈ range d, ∑ t2 ∈ range d, ∑ u ∈ range D,
      h4.val [s1, s2, t1, t2] * (A.val [t1, c, u] * A.val [t2, u, e]) := by
    intro s1 s2 c e
    rw [hCv _ rfl]
    simp [labelSum, netTerm, assign, dimOf, List.lookup, Function.update]
  obtain ⟨Ac, hAc⟩ : ∃ Ac, Ac = A.conj := ⟨_, rfl⟩
  have hAs : Ac.shape = [d, D, D] := by rw [hAc]; exact hA
  have hAv : ∀ s a b, Ac.val [s, a, b] = star (A.val [s, a, b]) := by intros; rw [hAc]; rfl
  obtain ⟨a, e2, ha, hav⟩ := ND.matmul23 (A := l) (B := Ac) (m := D) (k := D) (b := d) (n := D) hl hAs
  obtain ⟨K, e3, hK, hKv⟩ := nc_eval O (AA := [a, Ac, C]) (v := [[1, 3, 4], [2, 4, -2], [1, 2, 3, -1]])
    (dimOf [(1, d), (2, d), (3, D), (4, D), (-1, D), (-2, D)]) [1, 2, 3, 4] [-1, -2]
    ⟨by simp, by simp [ha, hAs, hC', dimOf, List.lookup], by simp, by simp, by decide, by decide, by decide, by decide, by decide⟩
    (by decide) (by decide)
  have hK' : K.shape = [D, D] := by rw [hK]; simp [dimOf, List.lookup]
  have hKv' : ∀ p q, K.val [p, q] = ∑ s1 ∈ range d, ∑ s2 ∈ range d, ∑ u ∈ range D, ∑ v ∈ range D,
      a.val [s1, u, v] * (Ac.val [s2, v, q] * C.val [s1, s2, u, p]) := by
    intro p q
    rw [hKv _ rfl]
    simp [labelSum, netTerm, assign, dimOf, List.lookup, Function.update]
  refine ⟨C, K, e1, ?_, hC', hK', hCv', ?_⟩
  · unfold leftK
    rw [← hAc, e2, ok_bind, e3]
  let c : ℕ → ℕ → Matrix (Fin D) (Fin D) ℂ := fun s1 s2 => Matrix.of fun u p => C.val [s1, s2, u, p]
  have hc : ∀ s1 < d, ∀ s2 < d, c s1 s2 = ∑ t1 ∈ range d, ∑ t2 ∈ range d, h.val [s1 * d + s2, t1 * d + t2] • (toM3 D D A t1 * toM3 D D A t2) := by
    intro s1 h1 s2 h2
    ext u p
    simp only [c, Matrix.of_apply, hCv', Matrix.sum_apply, Matrix.smul_apply, Matrix.mul_apply, toM3_apply, smul_eq_mul]
    refine sum_congr rfl fun t1 g1 => sum_congr rfl fun t2 g2 => ?_
    rw [v4 s1 h1 s2 h2 t1 (mem_range.1 g1) t2 (mem_range.1 g2), Finset.sum_range, Finset.mul_sum]
  have ham : ∀ s, toM3 D D a s = toM D D l * (toM3 D D A s).map star := by
    intro s
    ext i j
    simp only [toM3_apply, Matrix.mul_apply, toM_apply, Matrix.map_apply]
    rw [hav, Finset.sum_range]
    simp only [hAv]
  have hKm : toM D D K = ∑ s1 ∈ range d, ∑ s2 ∈ range d, (c s1 s2)ᵀ * toM3 D D a s1 * (toM3 D D A s2).map star := by
    ext p q
    simp only [Matrix.sum_apply, toM_apply, hKv']
    refine sum_congr rfl fun s1 _ => sum_congr rfl fun s2 _ => ?_
    rw [Finset.sum_comm]
    simp only [Matrix.mul_apply, transpose_apply, toM3_apply, Matrix.map_apply, c, Matrix.of_apply, Finset.sum_range, Finset.sum_mul]
    refine sum_congr rfl fun v _ => sum_congr rfl fun u _ => ?_
    rw [hAv]
    ring
  rw [hKm]
  unfold hamLeft
  refine sum_congr rfl fun s1 h1 => sum_congr rfl fun s2 h2 => ?_
  rw [hc s1 (mem_range.1 h1) s2 (mem_range.1 h2), ham]
  simp only [transpose_sum, transpose_smul, Finset.sum_mul, Matrix.smul_mul]
  refine sum_congr rfl fun t1 _ => sum_congr rfl fun t2 _ => ?_
  congr 1
  have : (toM3 D D A s1 * toM3 D D A s2).map star = (toM3 D D A s1).map star * (toM3 D D A s2).map star := by
    ext i j
    simp [Matrix.mul_apply]
  rw [this]
  simp only [Matrix.mul_assoc]

/-- the sum over the slices of a stack of matrices -/
theorem sum0_ok {T : ND ℂ} (hT : T.shape = [d, D, D]) : ∃ W, T.sum0 = .ok W ∧ W.shape = [D, D] ∧ toM D D W = ∑ s ∈ range d, toM3 D D T s := by
  refine ⟨⟨[D, D], fun idx => ∑ i ∈ range d, T.val (i :: idx)⟩, ?_, rfl, ?_⟩
  · unfold ND.sum0
    rw [hT]
  · ext i j
    simp [Matrix.sum_apply]

theorem zip2 {X Y : ND ℂ} (f : ℂ → ℂ → ℂ) (hX : X.shape = [D, D]) (hY : Y.shape = [D, D]) :
    ∃ W, X.zipNd f Y = .ok W ∧ W.shape = [D, D] ∧ ∀ i j, W.val [i, j] = f (X.val [i, j]) (Y.val [i, j]) := by
  refine ⟨⟨[D, D], fun idx => f (X.val idx) (Y.val idx)⟩, ?_, rfl, fun _ _ => rfl⟩
  unfold ND.zipNd
  rw [hX, hY, if_pos rfl]

/-- the right-hand side of the equation -/
theorem lhRhs_ok (O : SetOrder) (hA : A.shape = [d, D, D]) (hl : l.shape = [D, D]) (hr : r.shape = [D, D]) {h4 : ND ℂ} (s4 : h4.shape = [d, d, d, d])
    (v4 : ∀ s1 < d, ∀ s2 < d, ∀ t1 < d, ∀ t2 < d, h4.val [s1, s2, t1, t2] = h.val [s1 * d + s2, t1 * d + t2]) :
    ∃ R, lhRhs O A l r h4 = .ok R ∧ R.shape = [D, D] ∧
      toM D D R = hamLeft d D A l h - (hamLeft d D A l h * toM D D r).trace • toM D D l := by
  obtain ⟨C, K, e1, e2, -, hK, -, hKm⟩ := leftK_ok O hA hl s4 v4
  obtain ⟨M, m1, m2, m3⟩ := matmul22M hK hr
  obtain ⟨W, w1, w2, w3⟩ := zip2 (D := D) (· - ·) hK (show (l.smul (toM D D M).trace).shape = [D, D] from hl)
  refine ⟨W, ?_, w2, ?_⟩
  · unfold lhRhs
    rw [e1, ok_bind, e2, ok_bind, m1, ok_bind, tr2_ok m2, ok_bind, w1]
  · rw [← hKm, ← m3]
    ext i j
    simp only [toM_apply, w3, Matrix.sub_apply, Matrix.smul_apply, smul_eq_mul]
    rfl

/-- the function of which the root is sought -/
theorem lhEq_ok {R K : ND ℂ} (hA : A.shape = [d, D, D]) (hl : l.shape = [D, D]) (hr : r.shape = [D, D]) (hR : R.shape = [D, D]) (hK : K.shape = [D, D]) :
    ∃ F, lhEq A l r R K = .ok F ∧ toM D D F = toM D D K - ∑ s ∈ range d, (toM3 D D A s)ᴴ * toM D D K * toM3 D D A s +
      (toM D D K * toM D D r).trace • toM D D l - toM D D R := by
  obtain ⟨hs, hv⟩ := hc3 hA
  obtain ⟨T, e1, hT, hTv⟩ := ND.matmul32 hs hK
  obtain ⟨U, e2, hU, hUv⟩ := ND.matmul33 hT hA
  obtain ⟨S, e3, hS, hSm⟩ := sum0_ok hU
  obtain ⟨M, m1, m2, m3⟩ := matmul22M hK hr
  obtain ⟨u, w1, w2, w3⟩ := zip2 (D := D) (· - ·) hK hS
  obtain ⟨u', x1, x2, x3⟩ := zip2 (D := D) (· + ·) w2 (show (l.smul (toM D D M).trace).shape = [D, D] from hl)
  obtain ⟨F, y1, -, y3⟩ := zip2 (D := D) (· - ·) x2 hR
  refine ⟨F, ?_, ?_⟩
  · unfold lhEq
    rw [e1, ok_bind, e2, ok_bind, e3, ok_bind, m1, ok_bind, tr2_ok m2, ok_bind, w1, ok_bind, x1, ok_bind, y1]
  · have hU' : ∀ s < d, toM3 D D U s = (toM3 D D A s)ᴴ * toM D D K * toM3 D D A s := by
      intro s hsd
      ext i j
      simp only [toM3_apply, Matrix.mul_apply, conjTranspose_apply, toM_apply]
      simp only [hUv s hsd, hTv, hv, Finset.sum_range]
    have hSm' : toM D D S = ∑ s ∈ range d, (toM3 D D A s)ᴴ * toM D D K * toM3 D D A s := by
      rw [hSm]
      exact sum_congr rfl fun s hs => hU' s (mem_range.1 hs)
    rw [← hSm', ← m3]
    ext i j
    simp only [toM_apply, y3, x3, w3, Matrix.sub_apply, Matrix.add_apply, Matrix.smul_apply, smul_eq_mul]
    rfl

/-- `Σ_s A_s† K A_s`, the map in the equation of `Lh` -/
def codePush (d D : ℕ) (A : ND ℂ) (K : Matrix (Fin D) (Fin D) ℂ) : Matrix (Fin D) (Fin D) ℂ :=
  ∑ s ∈ range d, (toM3 D D A s)ᴴ * K * toM3 D D A s

theorem codePush_trace (hf : FixedPoints d D A l r 1) (K : Matrix (Fin D) (Fin D) ℂ) :
    (codePush d D A K * toM D D r).trace = (K * toM D D r).trace := by
  have h := hf.right
  rw [Complex.ofReal_one, one_smul] at h
  unfold codePush
  conv_rhs => rw [← h]
  rw [Finset.sum_mul, Finset.mul_sum, trace_sum, trace_sum]
  refine sum_congr rfl fun s _ => ?_
  rw [Matrix.mul_assoc, Matrix.mul_assoc, Matrix.trace_mul_comm]
  simp only [Matrix.mul_assoc]

/-- the map of the equation, `K - Σ_s A_s† K A_s + tr(K r) l` -/
noncomputable def lhMap (d D : ℕ) (A l r : ND ℂ) : Matrix (Fin D) (Fin D) ℂ →ₗ[ℂ] Matrix (Fin D) (Fin D) ℂ where
  toFun K := K - codePush d D A K + (K * toM D D r).trace • toM D D l
  map_add' K K' := by
    simp only [codePush, Matrix.mul_add, Matrix.add_mul, Finset.sum_add_distrib, trace_add, add_smul]
    abel
  map_smul' c K := by
    simp only [codePush, Matrix.mul_smul, Matrix.smul_mul, ← Finset.smul_sum, trace_smul, smul_add, smul_sub, smul_smul, RingHom.id_apply, smul_eq_mul]

theorem lhMap_trace (hf : FixedPoints d D A l r 1) (hn : (toM D D l * toM D D r).trace = 1) (K : Matrix (Fin D) (Fin D) ℂ) :
    (lhMap d D A l r K * toM D D r).trace = (K * toM D D r).trace := by
  show ((K - codePush d D A K + (K * toM D D r).trace • toM D D l) * toM D D r).trace = _
  rw [Matrix.add_mul, Matrix.sub_mul, trace_add, trace_sub, codePush_trace hf, Matrix.smul_mul, trace_smul, hn, smul_eq_mul]
  ring

/-- the transposed left fixed point is fixed by the map of the code -/
theorem codePush_fixed (hf : FixedPoints d D A l r 1) : codePush d D A (toM D D l)ᵀ = (toM D D l)ᵀ := by
  have h := congrArg Matrix.transpose hf.left
  rw [Complex.ofReal_one, one_smul] at h
  conv_rhs => rw [← h]
  unfold codePush
  rw [transpose_sum]
  refine sum_congr rfl fun s _ => ?_
  rw [transpose_mul, transpose_mul, map_star_transpose, transpose_transpose, Matrix.mul_assoc]

theorem lhMap_injective (hD : 0 < D) (hf : FixedPoints d D A l r 1) (hn : (toM D D l * toM D D r).trace = 1) (hs : SimpleLeft d D A 1) :
    Function.Injective (lhMap d D A l r) := by
  rw [← LinearMap.ker_eq_bot, LinearMap.ker_eq_bot']
  intro K hK
  have ht : (K * toM D D r).trace = 0 := by
    rw [← lhMap_trace hf hn, hK, Matrix.zero_mul, trace_zero]
  have hK' : K - codePush d D A K + (K * toM D D r).trace • toM D D l = 0 := hK
  rw [ht, zero_smul, add_zero, sub_eq_zero] at hK'
  obtain ⟨t, ht0, htr⟩ := trace_pos hD hf.pos_l.transpose hf.pos_r
  obtain ⟨c, hc⟩ := hs K (toM D D l)ᵀ (by rw [Complex.ofReal_one, one_smul]; exact hK'.symm)
    (by rw [Complex.ofReal_one, one_smul]; exact codePush_fixed hf) (by
      intro h0
      rw [h0, Matrix.zero_mul, trace_zero] at htr
      exact ht0.ne (by exact_mod_cast htr))
  rw [hc, Matrix.smul_mul, trace_smul, smul_eq_mul] at ht
  rcases mul_eq_zero.1 ht with h | h
  · rw [hc, h, zero_smul]
  · rw [htr] at h
    exact absurd (by exact_mod_cast h) ht0.ne'

/-- **What `Lh` returns**: the unique matrix with `K = Σ_s A_s† K A_s + k - tr(k r) l`, where `k` is `h` on two sites closed on the left, and
`tr(K r) = 0`. -/
theorem Lh_ok (O : SetOrder) {root : (ND ℂ → Py (ND ℂ)) → ℕ → Py (ND ℂ)} (hroot : RootLaw root) (x : IMPS) (hD : 0 < D)
    (hf : FixedPoints d D x.A l r 1) (hn : (toM D D l * toM D D r).trace = 1) (hs : SimpleLeft d D x.A 1) (he : eigs x.A = .ok (1, l, r))
    (hh : h.shape = [d * d, d * d]) :
    ∃ K, Lh O eigs root x h = .ok K ∧ K.shape = [D, D] ∧ (toM D D K * toM D D r).trace = 0 ∧
      toM D D K = codePush d D x.A (toM D D K) + (hamLeft d D x.A l h - (hamLeft d D x.A l h * toM D D r).trace • toM D D l) := by
  have hdim0 : x.A.dim 0 = d := by simp [ND.dim, hf.shape]
  have hdim1 : x.A.dim 1 = D := by simp [ND.dim, hf.shape]
  obtain ⟨R, e1, hR, hRm⟩ := lhRhs_ok (h := h) O hf.shape hf.shape_l hf.shape_r (four_reshape hh).1 (four_reshape hh).2
  obtain ⟨M, hM⟩ := (LinearMap.injective_iff_surjective.1 (lhMap_injective hD hf hn hs)) (toM D D R)
  obtain ⟨F, f1, f2⟩ := lhEq_ok (K := ofM M) hf.shape hf.shape_l hf.shape_r hR rfl
  obtain ⟨K, F', g1, g2, g3, g4⟩ := hroot (lhEq x.A l r R) D ⟨ofM M, F, rfl, f1, by
    rw [f2, toM_ofM, sub_eq_zero]
    exact hM⟩
  obtain ⟨F'', f3, f4⟩ := lhEq_ok hf.shape hf.shape_l hf.shape_r hR g2
  obtain rfl : F' = F'' := by
    rw [g3] at f3
    injection f3
  have hK : lhMap d D x.A l r (toM D D K) = toM D D R := by
    rw [g4] at f4
    exact (sub_eq_zero.1 f4.symm)
  have hRt : (toM D D R * toM D D r).trace = 0 := by
    rw [hRm, Matrix.sub_mul, trace_sub, Matrix.smul_mul, trace_smul, hn, smul_eq_mul, mul_one, sub_self]
  have ht : (toM D D K * toM D D r).trace = 0 := by rw [← lhMap_trace hf hn, hK, hRt]
  refine ⟨K, ?_, g2, ht, ?_⟩
  · unfold Lh
    rw [he, ok_bind]
    simp only [hdim0, hdim1]
    rw [ND.reshape_ok (by rw [hh]; simp [mul_assoc]), ok_bind, e1, ok_bind, g1]
  · rw [← hRm, ← hK]
    show _ = _ + (toM D D K - codePush d D x.A (toM D D K) + (toM D D K * toM D D r).trace • toM D D l)
    rw [ht, zero_smul]
    abel

/-! ### real transfer matrices -/

theorem pushLeft_real (hr : RealTransfer d D A) (K : Matrix (Fin D) (Fin D) ℂ) : pushLeft d D A K = codePush d D A K := by
  have hc : ∀ k < D, ∀ a < D, ∀ k' < D, ∀ b < D, ∑ s ∈ range d, A.val [s, k, a] * star (A.val [s, k', b]) =
      ∑ s ∈ range d, star (A.val [s, k, a]) * A.val [s, k', b] := by
    intro k hk a ha k' hk' b hb
    have h := Complex.conj_eq_iff_im.2 (hr k hk a ha k' hk' b hb)
    rw [← h, map_sum]
    refine sum_congr rfl fun s _ => ?_
    rw [map_mul, Complex.star_def, Complex.conj_conj]
  ext a b
  have e1 : pushLeft d D A K a b = ∑ k' : Fin D, ∑ k : Fin D, K k k' * ∑ s ∈ range d, A.val [s, k, a] * star (A.val [s, k', b]) := by
    simp only [pushLeft, Matrix.sum_apply, Matrix.mul_apply, transpose_apply, toM3_apply, Matrix.map_apply, Finset.sum_mul, Finset.mul_sum]
    rw [Finset.sum_comm]
    refine sum_congr rfl fun k' _ => ?_
    rw [Finset.sum_comm]
    refine sum_congr rfl fun k _ => sum_congr rfl fun s _ => ?_
    ring
  have e2 : codePush d D A K a b = ∑ k' : Fin D, ∑ k : Fin D, K k k' * ∑ s ∈ range d, star (A.val [s, k, a]) * A.val [s, k', b] := by
    simp only [codePush, Matrix.sum_apply, Matrix.mul_apply, conjTranspose_apply, toM3_apply, Finset.sum_mul, Finset.mul_sum]
    rw [Finset.sum_comm]
    refine sum_congr rfl fun k' _ => ?_
    rw [Finset.sum_comm]
    refine sum_congr rfl fun k _ => sum_congr rfl fun s _ => ?_
    ring
  rw [e1, e2]
  refine sum_congr rfl fun k' _ => sum_congr rfl fun k _ => ?_
  rw [hc k k.2 a a.2 k' k'.2 b b.2]

theorem pushLeft_sub (K K' : Matrix (Fin D) (Fin D) ℂ) : pushLeft d D A (K - K') = pushLeft d D A K - pushLeft d D A K' := by
  simp only [pushLeft, Matrix.mul_sub, Matrix.sub_mul, Finset.sum_sub_distrib]

theorem pushLeft_add (K K' : Matrix (Fin D) (Fin D) ℂ) : pushLeft d D A (K + K') = pushLeft d D A K + pushLeft d D A K' := by
  simp only [pushLeft, Matrix.mul_add, Matrix.add_mul, Finset.sum_add_distrib]

theorem pushLeft_smul (c : ℂ) (K : Matrix (Fin D) (Fin D) ℂ) : pushLeft d D A (c • K) = c • pushLeft d D A K := by
  simp only [pushLeft, Matrix.mul_smul, Matrix.smul_mul, ← Finset.smul_sum]

theorem pushLeft_fixed (hf : FixedPoints d D A l r 1) : pushLeft d D A (toM D D l) = toM D D l := by
  have := hf.left
  rwa [Complex.ofReal_one, one_smul] at this

theorem pushLeft_iter (hf : FixedPoints d D A l r 1) (K : Matrix (Fin D) (Fin D) ℂ) (c : ℂ) :
    ∀ n, (pushLeft d D A)^[n] (K - c • toM D D l) = (pushLeft d D A)^[n] K - c • toM D D l
  | 0 => rfl
  | n + 1 => by
    rw [Function.iterate_succ_apply', Function.iterate_succ_apply', pushLeft_iter hf K c n, pushLeft_sub, pushLeft_smul, pushLeft_fixed hf]

theorem pushLeft_series {K R : Matrix (Fin D) (Fin D) ℂ} (h : K = pushLeft d D A K + R) :
    ∀ n, K = (pushLeft d D A)^[n] K + ∑ m ∈ range n, (pushLeft d D A)^[m] R
  | 0 => by simp
  | n + 1 => by
    have hadd : ∀ n (X Y : Matrix (Fin D) (Fin D) ℂ), (pushLeft d D A)^[n] (X + Y) = (pushLeft d D A)^[n] X + (pushLeft d D A)^[n] Y := by
      intro n
      induction n with
      | zero => intros; rfl
      | succ n ih => intro X Y; rw [Function.iterate_succ_apply, pushLeft_add, ih]; rfl
    have h1 : (pushLeft d D A)^[n] K = (pushLeft d D A)^[n + 1] K + (pushLeft d D A)^[n] R := by
      rw [Function.iterate_succ_apply, ← hadd, ← h]
    rw [Finset.sum_range_succ, add_comm (∑ m ∈ range n, _) _, ← add_assoc, ← h1]
    exact pushLeft_series h n

/-- **C79**: for a tensor with real transfer matrix and symmetric `r`, `Lh` is the sum of the terms of the Hamiltonian on the left, each with its
expectation value subtracted: up to what the `N`-th power of the transfer matrix leaves of it, it is the sum of the `N` nearest terms. -/
theorem Lh_series_partial (O : SetOrder) {root : (ND ℂ → Py (ND ℂ)) → ℕ → Py (ND ℂ)} (hroot : RootLaw root) (x : IMPS) (hD : 0 < D)
    (hf : FixedPoints d D x.A l r 1) (hn : (toM D D l * toM D D r).trace = 1) (hs : SimpleLeft d D x.A 1) (he : eigs x.A = .ok (1, l, r))
    (hh : h.shape = [d * d, d * d]) (hre : RealTransfer d D x.A) (hsym : (toM D D r)ᵀ = toM D D r) :
    ∃ K, Lh O eigs root x h = .ok K ∧ K.shape = [D, D] ∧ ((toM D D K)ᵀ * toM D D r).trace = 0 ∧
      (∀ N, toM D D K = (pushLeft d D x.A)^[N] (toM D D K) + ∑ n ∈ range N, ((pushLeft d D x.A)^[n] (hamLeft d D x.A l h) -
        infExpect2 d D x.A l r 1 (fun s1 s2 t1 t2 => h.val [s1 * d + s2, t1 * d + t2]) • toM D D l)) ∧
      (Mixing d D x.A l r → Filter.Tendsto (fun N => ∑ n ∈ range N, ((pushLeft d D x.A)^[n] (hamLeft d D x.A l h) -
        infExpect2 d D x.A l r 1 (fun s1 s2 t1 t2 => h.val [s1 * d + s2, t1 * d + t2]) • toM D D l)) Filter.atTop (nhds (toM D D K))) := by
  obtain ⟨K, e1, hK, ht, hKe⟩ := Lh_ok O hroot x hD hf hn hs he hh
  have ht' : ((toM D D K)ᵀ * toM D D r).trace = 0 := by
    rw [← Matrix.trace_transpose, transpose_mul, transpose_transpose, hsym, Matrix.trace_mul_comm, ht]
  have hen : (hamLeft d D x.A l h * toM D D r).trace = infExpect2 d D x.A l r 1 (fun s1 s2 t1 t2 => h.val [s1 * d + s2, t1 * d + t2]) := by
    have h1 : ((toM D D l)ᵀ * toM D D r).trace = 1 := by
      rw [← Matrix.trace_transpose, transpose_mul, transpose_transpose, hsym, Matrix.trace_mul_comm, hn]
    unfold infExpect2 hamLeft
    rw [h1]
    simp only [Finset.sum_mul, Matrix.smul_mul, Matrix.trace_sum, trace_smul, smul_eq_mul, Complex.ofReal_one, one_pow, mul_one, div_one]
    refine sum_congr rfl fun s1 _ => sum_congr rfl fun s2 _ => sum_congr rfl fun t1 _ => sum_congr rfl fun t2 _ => ?_
    congr 1
    rw [← Matrix.trace_transpose]
    rw [transpose_mul, transpose_mul, transpose_mul, transpose_transpose, map_star_transpose, hsym]
    rw [Matrix.trace_mul_comm]
    simp only [Matrix.mul_assoc]
    rw [Matrix.trace_mul_comm]
    simp only [Matrix.mul_assoc]
  rw [← pushLeft_real hre, hen] at hKe
  have hser := pushLeft_series hKe
  simp only [pushLeft_iter hf] at hser
  refine ⟨K, e1, hK, ht', hser, ?_⟩
  intro hmix
  have h0 := hmix (toM D D K)
  rw [ht', zero_smul] at h0
  have h1 : Filter.Tendsto (fun N => toM D D K - (pushLeft d D x.A)^[N] (toM D D K)) Filter.atTop (nhds (toM D D K - 0)) := tendsto_const_nhds.sub h0
  rw [sub_zero] at h1
  refine h1.congr fun N => ?_
  rw [sub_eq_iff_eq_add, add_comm]
  exact hser N

end IMPS

end Xmps
