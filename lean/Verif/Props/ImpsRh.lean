import Verif.Props.ImpsTdvpWitness
import Verif.Props.TransferMatrix

/-!
# `Rh` (C81)

`Rh` closes its window with `r` twice.  What it returns is the sum of the terms of the Hamiltonian on the right, closed with `r rᵀ`
in place of `r`; the first index of the result is that of the bra.
-/

namespace Xmps

open Finset Matrix Spec ImpsCore ComplexOrder Xmps.Ncon

namespace IMPS

variable {eigs : ND ℂ → Py (ℝ × ND ℂ × ND ℂ)} {d D : ℕ} {A l r h : ND ℂ}

/-- the right-hand side of the equation -/
theorem rhRhs_ok (O : SetOrder) (hA : A.shape = [d, D, D]) (hl : l.shape = [D, D]) (hr : r.shape = [D, D]) {h4 : ND ℂ} (s4 : h4.shape = [d, d, d, d])
    (v4 : ∀ s1 < d, ∀ s2 < d, ∀ t1 < d, ∀ t2 < d, h4.val [s1, s2, t1, t2] = h.val [s1 * d + s2, t1 * d + t2]) :
    ∃ R, rhRhs O A l r h4 = .ok R ∧ R.shape = [D, D] ∧
      (toM D D R)ᵀ = hamRight d D A (toM D D r * (toM D D r)ᵀ) h -
        ((toM D D l)ᵀ * hamRight d D A (toM D D r * (toM D D r)ᵀ) h).trace • (toM D D r)ᵀ := by
  obtain ⟨C, -, e1, -, hC, -, hCv, -⟩ := leftK_ok (h := h) O hA hl s4 v4
  obtain ⟨Ac, hAc⟩ : ∃ Ac, Ac = A.conj := ⟨_, rfl⟩
  have hAs : Ac.shape = [d, D, D] := by rw [hAc]; exact hA
  have hAv : ∀ s a b, Ac.val [s, a, b] = star (A.val [s, a, b]) := by intros; rw [hAc]; rfl
  obtain ⟨a, e2, ha, hav⟩ := ND.matmul32 hAs hr
  obtain ⟨Cr, e3, hCr, hCrv⟩ : ∃ R, C.matmul42 r = .ok R ∧ R.shape = [d, d, D, D] ∧
      ∀ s t i j, R.val [s, t, i, j] = ∑ k ∈ range D, C.val [s, t, i, k] * r.val [k, j] :=
    ⟨_, by simp [ND.matmul42, hC, hr]; rfl, rfl, fun _ _ _ _ => rfl⟩
  obtain ⟨K, e4, hK, hKv⟩ := nc_eval O (AA := [Ac, a, Cr]) (v := [[1, -1, 4], [2, 4, 3], [1, 2, -2, 3]])
    (dimOf [(1, d), (2, d), (3, D), (4, D), (-1, D), (-2, D)]) [1, 2, 3, 4] [-1, -2]
    ⟨by simp, by simp [ha, hAs, hCr, dimOf, List.lookup], by simp, by simp, by decide, by decide, by decide, by decide, by decide⟩
    (by decide) (by decide)
  have hK' : K.shape = [D, D] := by rw [hK]; simp [dimOf, List.lookup]
  have hKv' : ∀ p q, K.val [p, q] = ∑ s1 ∈ range d, ∑ s2 ∈ range d, ∑ u ∈ range D, ∑ v ∈ range D,
      Ac.val [s1, p, v] * (a.val [s2, v, u] * Cr.val [s1, s2, q, u]) := by
    intro p q
    rw [hKv _ rfl]
    simp [labelSum, netTerm, assign, dimOf, List.lookup, Function.update]
  obtain ⟨M, m1, m2, m3⟩ := matmul22M hl hK'
  obtain ⟨W, w1, w2, w3⟩ := zip2 (D := D) (· - ·) hK' (show (r.smul (toM D D M).trace).shape = [D, D] from hr)
  let c : ℕ → ℕ → Matrix (Fin D) (Fin D) ℂ := fun s1 s2 => Matrix.of fun u p => C.val [s1, s2, u, p]
  have hc : ∀ s1 < d, ∀ s2 < d, c s1 s2 = ∑ t1 ∈ range d, ∑ t2 ∈ range d, h.val [s1 * d + s2, t1 * d + t2] • (toM3 D D A t1 * toM3 D D A t2) := by
    intro s1 h1 s2 h2
    ext u p
    simp only [c, Matrix.of_apply, hCv, Matrix.sum_apply, Matrix.smul_apply, Matrix.mul_apply, toM3_apply, smul_eq_mul]
    refine sum_congr rfl fun t1 g1 => sum_congr rfl fun t2 g2 => ?_
    rw [v4 s1 h1 s2 h2 t1 (mem_range.1 g1) t2 (mem_range.1 g2), Finset.sum_range, Finset.mul_sum]
  have hKm : (toM D D K)ᵀ = hamRight d D A (toM D D r * (toM D D r)ᵀ) h := by
    have h1 : (toM D D K)ᵀ = ∑ s1 ∈ range d, ∑ s2 ∈ range d, c s1 s2 * (toM D D r * (toM D D r)ᵀ) * ((toM3 D D A s2)ᴴ * (toM3 D D A s1)ᴴ) := by
      have h2 : ∀ s1 s2, c s1 s2 * (toM D D r * (toM D D r)ᵀ) * ((toM3 D D A s2)ᴴ * (toM3 D D A s1)ᴴ) =
          (c s1 s2 * toM D D r) * ((toM3 D D A s2).map star * toM D D r)ᵀ * (toM3 D D A s1)ᴴ := by
        intro s1 s2
        rw [transpose_mul, map_star_transpose]
        simp only [Matrix.mul_assoc]
      ext q p
      simp only [h2, Matrix.sum_apply, transpose_apply, toM_apply, hKv']
      refine sum_congr rfl fun s1 _ => sum_congr rfl fun s2 _ => ?_
      rw [Finset.sum_comm, Finset.sum_range, Matrix.mul_apply]
      refine sum_congr rfl fun v _ => ?_
      rw [Matrix.mul_apply, Finset.sum_mul, Finset.sum_range]
      refine sum_congr rfl fun u _ => ?_
      have e5 : (c s1 s2 * toM D D r) q u = Cr.val [s1, s2, q, u] := by
        rw [hCrv, Finset.sum_range, Matrix.mul_apply]
        rfl
      have e6 : ((toM3 D D A s2).map star * toM D D r) v u = a.val [s2, v, u] := by
        rw [hav, Finset.sum_range, Matrix.mul_apply]
        simp only [hAv]
        rfl
      rw [e5, transpose_apply, e6, hAv, conjTranspose_apply, toM3_apply]
      ring
    rw [h1]
    unfold hamRight
    refine sum_congr rfl fun s1 h1 => sum_congr rfl fun s2 h2 => ?_
    rw [hc s1 (mem_range.1 h1) s2 (mem_range.1 h2)]
    simp only [Finset.sum_mul, Matrix.smul_mul, conjTranspose_mul]
  refine ⟨W, ?_, w2, ?_⟩
  · unfold rhRhs
    rw [e1, ok_bind, ← hAc, e2, ok_bind, e3, ok_bind, e4, ok_bind, m1, ok_bind, tr2_ok m2, ok_bind, w1]
  · have ht : (toM D D M).trace = ((toM D D l)ᵀ * hamRight d D A (toM D D r * (toM D D r)ᵀ) h).trace := by
      rw [m3, ← hKm, ← Matrix.trace_transpose, transpose_mul, Matrix.trace_mul_comm]
    rw [← ht, ← hKm]
    ext i j
    simp only [toM_apply, w3, Matrix.sub_apply, Matrix.smul_apply, smul_eq_mul, transpose_apply]
    rfl

/-- the function of which the root is sought -/
theorem rhEq_ok {R K : ND ℂ} (hA : A.shape = [d, D, D]) (hl : l.shape = [D, D]) (hr : r.shape = [D, D]) (hR : R.shape = [D, D]) (hK : K.shape = [D, D]) :
    ∃ F, rhEq A l r R K = .ok F ∧ (toM D D F)ᵀ = (toM D D K)ᵀ - pushRight d D A (toM D D K)ᵀ +
      ((toM D D l)ᵀ * (toM D D K)ᵀ).trace • (toM D D r)ᵀ - (toM D D R)ᵀ := by
  obtain ⟨hs, hv⟩ := tr3 hA
  obtain ⟨T, e1, hT, hTv⟩ := ND.matmul32 (A := A.conj) hA hK
  obtain ⟨U, e2, hU, hUv⟩ := ND.matmul33 hT hs
  obtain ⟨S, e3, hS, hSm⟩ := sum0_ok hU
  obtain ⟨M, m1, m2, m3⟩ := matmul22M hl hK
  obtain ⟨u, w1, w2, w3⟩ := zip2 (D := D) (· - ·) hK hS
  obtain ⟨u', x1, x2, x3⟩ := zip2 (D := D) (· + ·) w2 (show (r.smul (toM D D M).trace).shape = [D, D] from hr)
  obtain ⟨F, y1, -, y3⟩ := zip2 (D := D) (· - ·) x2 hR
  refine ⟨F, ?_, ?_⟩
  · unfold rhEq
    rw [e1, ok_bind, e2, ok_bind, e3, ok_bind, m1, ok_bind, tr2_ok m2, ok_bind, w1, ok_bind, x1, ok_bind, y1]
  · have hU' : ∀ s < d, (toM3 D D U s)ᵀ = toM3 D D A s * (toM D D K)ᵀ * (toM3 D D A s)ᴴ := by
      intro s hsd
      have : toM3 D D U s = (toM3 D D A s).map star * toM D D K * (toM3 D D A s)ᵀ := by
        ext i j
        simp only [toM3_apply, Matrix.mul_apply, transpose_apply, toM_apply, Matrix.map_apply]
        simp only [hUv s hsd, hTv, hv, Finset.sum_range]
        rfl
      rw [this, transpose_mul, transpose_mul, transpose_transpose, map_star_transpose, Matrix.mul_assoc]
    have hSm' : (toM D D S)ᵀ = pushRight d D A (toM D D K)ᵀ := by
      rw [hSm, transpose_sum]
      exact sum_congr rfl fun s hs => hU' s (mem_range.1 hs)
    have ht : (toM D D M).trace = ((toM D D l)ᵀ * (toM D D K)ᵀ).trace := by
      rw [m3, ← Matrix.trace_transpose, transpose_mul, Matrix.trace_mul_comm]
    rw [← hSm', ← ht]
    ext i j
    simp only [toM_apply, y3, x3, w3, Matrix.sub_apply, Matrix.add_apply, Matrix.smul_apply, smul_eq_mul, transpose_apply]
    rfl

/-- the two maps are adjoint to each other -/
theorem push_adjoint (K X : Matrix (Fin D) (Fin D) ℂ) : (codePush d D A K * X).trace = (K * pushRight d D A X).trace := by
  unfold codePush pushRight
  rw [Finset.sum_mul, Finset.mul_sum, trace_sum, trace_sum]
  refine sum_congr rfl fun s _ => ?_
  rw [Matrix.mul_assoc, Matrix.mul_assoc, Matrix.trace_mul_comm]
  simp only [Matrix.mul_assoc]

theorem pushRight_add (X Y : Matrix (Fin D) (Fin D) ℂ) : pushRight d D A (X + Y) = pushRight d D A X + pushRight d D A Y := by
  simp only [pushRight, Matrix.mul_add, Matrix.add_mul, Finset.sum_add_distrib]

theorem pushRight_sub (X Y : Matrix (Fin D) (Fin D) ℂ) : pushRight d D A (X - Y) = pushRight d D A X - pushRight d D A Y := by
  simp only [pushRight, Matrix.mul_sub, Matrix.sub_mul, Finset.sum_sub_distrib]

theorem pushRight_smul (c : ℂ) (X : Matrix (Fin D) (Fin D) ℂ) : pushRight d D A (c • X) = c • pushRight d D A X := by
  simp only [pushRight, Matrix.mul_smul, Matrix.smul_mul, ← Finset.smul_sum]

theorem pushRight_fixed (hf : FixedPoints d D A l r 1) : pushRight d D A (toM D D r) = toM D D r := by
  have := hf.right
  rwa [Complex.ofReal_one, one_smul] at this

/-- a fixed point of the transfer matrix is determined by its trace with `l` -/
theorem pushRight_zero (hD : 0 < D) (hf : FixedPoints d D A l r 1) (hs : SimpleLeft d D A 1) {X : Matrix (Fin D) (Fin D) ℂ}
    (hX : pushRight d D A X = X) (ht : ((toM D D l)ᵀ * X).trace = 0) : X = 0 := by
  obtain ⟨t, ht0, htr⟩ := trace_pos hD hf.pos_l.transpose hf.pos_r
  have htr0 : ((toM D D l)ᵀ * toM D D r).trace ≠ 0 := by
    rw [htr]
    exact_mod_cast ht0.ne'
  let f : Matrix (Fin D) (Fin D) ℂ →ₗ[ℂ] Matrix (Fin D) (Fin D) ℂ :=
    { toFun := fun K => K - codePush d D A K + (K * toM D D r).trace • (toM D D l)ᵀ
      map_add' := fun K K' => by
        simp only [codePush, Matrix.mul_add, Matrix.add_mul, Finset.sum_add_distrib, trace_add, add_smul]
        abel
      map_smul' := fun c K => by
        simp only [codePush, Matrix.mul_smul, Matrix.smul_mul, ← Finset.smul_sum, trace_smul, smul_add, smul_sub, smul_smul, RingHom.id_apply, smul_eq_mul] }
  have hfi : Function.Injective f := by
    rw [← LinearMap.ker_eq_bot, LinearMap.ker_eq_bot']
    intro K hK
    have hK' : K - codePush d D A K + (K * toM D D r).trace • (toM D D l)ᵀ = 0 := hK
    have h1 := congrArg (fun M => (M * toM D D r).trace) hK'
    simp only [Matrix.add_mul, Matrix.sub_mul, trace_add, trace_sub, codePush_trace hf, Matrix.smul_mul, trace_smul, Matrix.zero_mul, trace_zero,
      sub_self, zero_add, smul_eq_mul] at h1
    have ht := (mul_eq_zero.1 h1).resolve_right htr0
    rw [ht, zero_smul, add_zero, sub_eq_zero] at hK'
    obtain ⟨c, hc⟩ := hs K (toM D D l)ᵀ (by rw [Complex.ofReal_one, one_smul]; exact hK'.symm)
      (by rw [Complex.ofReal_one, one_smul]; exact codePush_fixed hf) (by
        intro h0
        rw [h0, Matrix.zero_mul, trace_zero] at htr0
        exact htr0 rfl)
    rw [hc, Matrix.smul_mul, trace_smul, smul_eq_mul] at ht
    rw [hc, (mul_eq_zero.1 ht).resolve_right htr0, zero_smul]
  have hall : ∀ Y, (Y * X).trace = 0 := by
    intro Y
    obtain ⟨K, rfl⟩ := LinearMap.injective_iff_surjective.1 hfi Y
    show ((K - codePush d D A K + (K * toM D D r).trace • (toM D D l)ᵀ) * X).trace = 0
    rw [Matrix.add_mul, Matrix.sub_mul, trace_add, trace_sub, push_adjoint, hX, Matrix.smul_mul, trace_smul, ht]
    simp
  have := hall Xᴴ
  exact Matrix.trace_conjTranspose_mul_self_eq_zero_iff.1 this

/-- the map of the equation, for the transposed matrix -/
noncomputable def rhMap (d D : ℕ) (A l r : ND ℂ) : Matrix (Fin D) (Fin D) ℂ →ₗ[ℂ] Matrix (Fin D) (Fin D) ℂ where
  toFun X := X - pushRight d D A X + ((toM D D l)ᵀ * X).trace • (toM D D r)ᵀ
  map_add' X Y := by
    simp only [pushRight_add, Matrix.mul_add, trace_add, add_smul]
    abel
  map_smul' c X := by
    simp only [pushRight_smul, Matrix.mul_smul, trace_smul, smul_add, smul_sub, smul_smul, RingHom.id_apply, smul_eq_mul]

theorem rhMap_trace (hf : FixedPoints d D A l r 1) (hn : (toM D D l * toM D D r).trace = 1) (X : Matrix (Fin D) (Fin D) ℂ) :
    ((toM D D l)ᵀ * rhMap d D A l r X).trace = ((toM D D l)ᵀ * X).trace := by
  show ((toM D D l)ᵀ * (X - pushRight d D A X + ((toM D D l)ᵀ * X).trace • (toM D D r)ᵀ)).trace = _
  rw [Matrix.mul_add, Matrix.mul_sub, trace_add, trace_sub, ← push_adjoint, codePush_fixed hf, Matrix.mul_smul, trace_smul, ← transpose_mul,
    Matrix.trace_transpose, Matrix.trace_mul_comm (toM D D r), hn, smul_eq_mul]
  ring

theorem rhMap_injective (hD : 0 < D) (hf : FixedPoints d D A l r 1) (hn : (toM D D l * toM D D r).trace = 1) (hs : SimpleLeft d D A 1) :
    Function.Injective (rhMap d D A l r) := by
  rw [← LinearMap.ker_eq_bot, LinearMap.ker_eq_bot']
  intro X hX
  have ht : ((toM D D l)ᵀ * X).trace = 0 := by
    rw [← rhMap_trace hf hn, hX, Matrix.mul_zero, trace_zero]
  have hX' : X - pushRight d D A X + ((toM D D l)ᵀ * X).trace • (toM D D r)ᵀ = 0 := hX
  rw [ht, zero_smul, add_zero, sub_eq_zero] at hX'
  exact pushRight_zero hD hf hs hX'.symm ht

/-- **What `Rh` returns**, transposed: the unique matrix with `X = Σ_s A_s X A_s† + k - tr(lᵀ k) rᵀ` and `tr(lᵀ X) = 0`, where `k` is `h` on
two sites closed on the right with `r rᵀ`. -/
theorem Rh_ok (O : SetOrder) {root : (ND ℂ → Py (ND ℂ)) → ℕ → Py (ND ℂ)} (hroot : RootLaw root) (x : IMPS) (hD : 0 < D)
    (hf : FixedPoints d D x.A l r 1) (hn : (toM D D l * toM D D r).trace = 1) (hs : SimpleLeft d D x.A 1) (he : eigs x.A = .ok (1, l, r))
    (hh : h.shape = [d * d, d * d]) :
    ∃ K, Rh O eigs root x h = .ok K ∧ K.shape = [D, D] ∧ ((toM D D l)ᵀ * (toM D D K)ᵀ).trace = 0 ∧
      (toM D D K)ᵀ = pushRight d D x.A (toM D D K)ᵀ + (hamRight d D x.A (toM D D r * (toM D D r)ᵀ) h -
        ((toM D D l)ᵀ * hamRight d D x.A (toM D D r * (toM D D r)ᵀ) h).trace • (toM D D r)ᵀ) := by
  have hdim0 : x.A.dim 0 = d := by simp [ND.dim, hf.shape]
  have hdim1 : x.A.dim 1 = D := by simp [ND.dim, hf.shape]
  obtain ⟨R, e1, hR, hRm⟩ := rhRhs_ok (h := h) O hf.shape hf.shape_l hf.shape_r (four_reshape hh).1 (four_reshape hh).2
  obtain ⟨M, hM⟩ := (LinearMap.injective_iff_surjective.1 (rhMap_injective hD hf hn hs)) (toM D D R)ᵀ
  obtain ⟨F, f1, f2⟩ := rhEq_ok (K := ofM Mᵀ) hf.shape hf.shape_l hf.shape_r hR rfl
  obtain ⟨K, F', g1, g2, g3, g4⟩ := hroot (rhEq x.A l r R) D ⟨ofM Mᵀ, F, rfl, f1, by
    rw [toM_ofM, transpose_transpose] at f2
    have : (toM D D F)ᵀ = 0 := by
      rw [f2, sub_eq_zero]
      exact hM
    rw [← transpose_transpose (toM D D F), this, transpose_zero]⟩
  obtain ⟨F'', f3, f4⟩ := rhEq_ok hf.shape hf.shape_l hf.shape_r hR g2
  obtain rfl : F' = F'' := by
    rw [g3] at f3
    injection f3
  have hK : rhMap d D x.A l r (toM D D K)ᵀ = (toM D D R)ᵀ := by
    rw [g4, transpose_zero] at f4
    exact (sub_eq_zero.1 f4.symm)
  have hRt : ((toM D D l)ᵀ * (toM D D R)ᵀ).trace = 0 := by
    rw [hRm, Matrix.mul_sub, trace_sub, Matrix.mul_smul, trace_smul, ← transpose_mul, Matrix.trace_transpose, Matrix.trace_mul_comm (toM D D r), hn,
      smul_eq_mul, mul_one, sub_self]
  have ht : ((toM D D l)ᵀ * (toM D D K)ᵀ).trace = 0 := by rw [← rhMap_trace hf hn, hK, hRt]
  refine ⟨K, ?_, g2, ht, ?_⟩
  · unfold Rh
    rw [he, ok_bind]
    simp only [hdim0, hdim1]
    rw [ND.reshape_ok (by rw [hh]; simp [mul_assoc]), ok_bind, e1, ok_bind, g1]
  · rw [← hRm, ← hK]
    show _ = _ + ((toM D D K)ᵀ - pushRight d D x.A (toM D D K)ᵀ + ((toM D D l)ᵀ * (toM D D K)ᵀ).trace • (toM D D r)ᵀ)
    rw [ht, zero_smul]
    abel

theorem pushRight_series {X R : Matrix (Fin D) (Fin D) ℂ} (h : X = pushRight d D A X + R) :
    ∀ n, X = (pushRight d D A)^[n] X + ∑ m ∈ range n, (pushRight d D A)^[m] R
  | 0 => by simp
  | n + 1 => by
    have hadd : ∀ n (X Y : Matrix (Fin D) (Fin D) ℂ), (pushRight d D A)^[n] (X + Y) = (pushRight d D A)^[n] X + (pushRight d D A)^[n] Y := by
      intro n
      induction n with
      | zero => intros; rfl
      | succ n ih => intro X Y; rw [Function.iterate_succ_apply, pushRight_add, ih]; rfl
    have h1 : (pushRight d D A)^[n] X = (pushRight d D A)^[n + 1] X + (pushRight d D A)^[n] R := by
      rw [Function.iterate_succ_apply, ← hadd, ← h]
    rw [Finset.sum_range_succ, add_comm (∑ m ∈ range n, _) _, ← add_assoc, ← h1]
    exact pushRight_series h n

theorem pushRight_iter (hf : FixedPoints d D A l r 1) (X : Matrix (Fin D) (Fin D) ℂ) (c e : ℂ) :
    ∀ n, (pushRight d D A)^[n] (c • (X - e • toM D D r)) = c • ((pushRight d D A)^[n] X - e • toM D D r)
  | 0 => rfl
  | n + 1 => by
    rw [Function.iterate_succ_apply', Function.iterate_succ_apply', pushRight_iter hf X c e n, pushRight_smul, pushRight_sub, pushRight_smul,
      pushRight_fixed hf]

theorem hamRight_smul (c : ℂ) (R : Matrix (Fin D) (Fin D) ℂ) : hamRight d D A (c • R) h = c • hamRight d D A R h := by
  unfold hamRight
  simp only [Finset.smul_sum, Matrix.mul_smul, Matrix.smul_mul, smul_comm c]

/-- **C81, for a right canonical tensor** (`r = c·1`): `Rh` is `c` times the sum of the terms of the Hamiltonian on the right, each with its
expectation value subtracted: up to what the `N`-th power of the transfer matrix leaves of it, it is `c` times the sum of the `N` nearest terms.  It
is the sum itself only if `c = 1`. -/
theorem Rh_series_partial (O : SetOrder) {root : (ND ℂ → Py (ND ℂ)) → ℕ → Py (ND ℂ)} (hroot : RootLaw root) (x : IMPS) (hD : 0 < D)
    (hf : FixedPoints d D x.A l r 1) (hn : (toM D D l * toM D D r).trace = 1) (hs : SimpleLeft d D x.A 1) (he : eigs x.A = .ok (1, l, r))
    (hh : h.shape = [d * d, d * d]) {c : ℂ} (hr : toM D D r = c • 1) :
    ∃ K, Rh O eigs root x h = .ok K ∧ K.shape = [D, D] ∧ ((toM D D l)ᵀ * (toM D D K)ᵀ).trace = 0 ∧
      ∀ N, (toM D D K)ᵀ = (pushRight d D x.A)^[N] (toM D D K)ᵀ + c • ∑ n ∈ range N, ((pushRight d D x.A)^[n] (hamRight d D x.A (toM D D r) h) -
        infExpect2 d D x.A l r 1 (fun s1 s2 t1 t2 => h.val [s1 * d + s2, t1 * d + t2]) • toM D D r) := by
  obtain ⟨K, e1, hK, ht, hKe⟩ := Rh_ok O hroot x hD hf hn hs he hh
  have hrt : (toM D D r)ᵀ = toM D D r := by rw [hr, transpose_smul, transpose_one]
  have hrr : toM D D r * (toM D D r)ᵀ = c • toM D D r := by
    rw [hrt]
    conv_lhs => rw [hr]
    rw [Matrix.smul_mul, Matrix.one_mul, hr]
  have hlr : ((toM D D l)ᵀ * toM D D r).trace = 1 := by
    rw [← hrt, ← transpose_mul, Matrix.trace_transpose, Matrix.trace_mul_comm, hn]
  have hen : ((toM D D l)ᵀ * hamRight d D x.A (toM D D r) h).trace =
      infExpect2 d D x.A l r 1 (fun s1 s2 t1 t2 => h.val [s1 * d + s2, t1 * d + t2]) := by
    unfold infExpect2 hamRight
    rw [hlr]
    simp only [Finset.mul_sum, Matrix.mul_smul, Matrix.trace_sum, trace_smul, smul_eq_mul, Complex.ofReal_one, one_pow, mul_one, div_one]
    simp only [Matrix.mul_assoc]
  rw [hrr, hamRight_smul, Matrix.mul_smul, trace_smul, hen, hrt, smul_eq_mul, mul_smul, ← smul_sub] at hKe
  refine ⟨K, e1, hK, ht, ?_⟩
  intro N
  have := pushRight_series hKe N
  simp only [pushRight_iter hf] at this
  rw [← Finset.smul_sum] at this
  exact this

/-- `Z ⊗ 1` -/
noncomputable def exZ1 : ND ℂ := ⟨[4, 4], fun
  | [0, 0] => 1
  | [1, 1] => 1
  | [2, 2] => -1
  | [3, 3] => -1
  | _ => 0⟩

theorem clu_ham_right (R : Matrix (Fin 2) (Fin 2) ℂ) : R = (1 / 2 : ℂ) • 1 → hamRight 2 2 (exClu 1) R exZ1 = (1 / 2 : ℂ) • !![1, 0; 0, -1] := by
  rintro rfl
  unfold hamRight
  simp only [Finset.sum_range_succ, Finset.sum_range_zero, zero_add, exZ1, clu0, clu1, zero_smul, add_zero, one_smul, Nat.zero_mul, Nat.mul_zero,
    Nat.one_mul, Nat.reduceAdd]
  simp only [conjTranspose_mul, conjTranspose_smul, Matrix.smul_mul, Matrix.mul_smul, smul_smul, Matrix.mul_one, ct2, Matrix.mul_fin_two]
  have hn := half_norm
  have hI := Complex.I_mul_I
  refine Matrix.ext fun i j => ?_
  fin_cases i <;> fin_cases j <;> apply Complex.ext <;> simp <;> norm_num

/-- **C81 fails**: for the cluster state, which is right canonical with `r = 1/2`, and `h = Z ⊗ 1`, the matrix that `Rh` returns does not satisfy the
equation of the sum of the terms on the right. -/
theorem Rh_not_sum (O : SetOrder) {root : (ND ℂ → Py (ND ℂ)) → ℕ → Py (ND ℂ)} (hroot : RootLaw root)
    (he : eigs (exClu 1) = .ok (1, exId, exTwo)) :
    FixedPoints 2 2 (exClu 1) exId exTwo 1 ∧
    ∃ K, Rh O eigs root ⟨exClu 1, none, none, none⟩ exZ1 = .ok K ∧
      (toM 2 2 K)ᵀ ≠ pushRight 2 2 (exClu 1) (toM 2 2 K)ᵀ + (hamRight 2 2 (exClu 1) (toM 2 2 exTwo) exZ1 -
        infExpect2 2 2 (exClu 1) exId exTwo 1 (fun s1 s2 t1 t2 => exZ1.val [s1 * 2 + s2, t1 * 2 + t2]) • toM 2 2 exTwo) := by
  have hz : (1 : ℂ) * star 1 = 1 := by simp
  refine ⟨clu_fixed hz, ?_⟩
  obtain ⟨K, e1, hK, ht, hKe⟩ := Rh_series_partial O (d := 2) (h := exZ1) hroot ⟨exClu 1, none, none, none⟩ Nat.two_pos (clu_fixed hz) clu_norm
    (clu_simple hz) he rfl exTwo_eq
  refine ⟨K, e1, fun hP => ?_⟩
  have h1 := hKe 1
  simp only [Function.iterate_one, Finset.sum_range_one, Function.iterate_zero, id_eq] at h1
  have h2 := hP.symm.trans h1
  rw [add_right_inj, clu_ham_right _ exTwo_eq] at h2
  have a00 := congrFun (congrFun h2 0) 0
  have a11 := congrFun (congrFun h2 1) 1
  rw [exTwo_eq] at a00 a11
  simp at a00 a11
  have : (1 : ℂ) = 0 := by linear_combination 2 * (a00 - a11)
  exact one_ne_zero this

end IMPS

end Xmps
