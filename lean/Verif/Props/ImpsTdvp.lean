import Verif.Props.ImpsLh
import Verif.Lemmas.ImpsWindow
import Verif.Props.LeftNull
import Verif.Spec.Tangent

/-!
# `dA_dt` of an infinite MPS is the tangent vector of the time-dependent variational principle (C80)
-/

namespace Xmps

open Finset Matrix Spec ImpsCore ComplexOrder Xmps.Ncon

namespace IMPS

variable {eigs : ND ℂ → Py (ℝ × ND ℂ × ND ℂ)} {chol inv null : ND ℂ → Py (ND ℂ)} {d D : ℕ} {A l r h : ND ℂ} {lam rho : ℕ → ℝ}

theorem diag_pos (hl : DiagND D l lam) (hp : (toM D D l).PosDef) : ∀ i < D, 0 < lam i := by
  intro i hi
  have h := hp.diag_pos (i := ⟨i, hi⟩)
  rw [toM_apply, hl i hi i hi, if_pos rfl] at h
  exact_mod_cast h

/-- the bracket in the formula of `dA_dt` to which the projector is applied -/
noncomputable def bracket (d D : ℕ) (A C K : ND ℂ) (lam rho : ℕ → ℝ) (t b c : ℕ) : ℂ :=
  (∑ u ∈ range d, ∑ e ∈ range D, lam b * C.val [t, u, b, e] * rho e * ((rho c : ℂ)⁻¹ * star (A.val [u, c, e]))) +
  (∑ u ∈ range d, ∑ a ∈ range D, lam a * star (A.val [u, a, b]) * C.val [u, t, a, c]) + ∑ k ∈ range D, K.val [k, b] * A.val [t, k, c]

theorem sum_diag_l (hl : DiagND D l lam) {a : ℕ} (ha : a < D) (f : ℕ → ℂ) : ∑ b ∈ range D, l.val [a, b] * f b = lam a * f a := by
  rw [Finset.sum_eq_single a]
  · rw [hl a ha a ha, if_pos rfl]
  · intro b hb hba
    rw [hl a ha b (mem_range.1 hb), if_neg (Ne.symm hba), zero_mul]
  · intro hn
    exact absurd (mem_range.2 ha) hn

theorem sum_diag_r (hl : DiagND D l lam) {a : ℕ} (ha : a < D) (f : ℕ → ℂ) : ∑ b ∈ range D, f b * l.val [b, a] = f a * lam a := by
  rw [Finset.sum_eq_single a]
  · rw [hl a ha a ha, if_pos rfl]
  · intro b hb hba
    rw [hl b (mem_range.1 hb) a ha, if_neg hba, mul_zero]
  · intro hn
    exact absurd (mem_range.2 ha) hn

theorem zip3 {X Y : ND ℂ} (f : ℂ → ℂ → ℂ) (hX : X.shape = [d, D, D]) (hY : Y.shape = [d, D, D]) :
    ∃ W, X.zipNd f Y = .ok W ∧ W.shape = [d, D, D] ∧ ∀ s i j, W.val [s, i, j] = f (X.val [s, i, j]) (Y.val [s, i, j]) := by
  refine ⟨⟨[d, D, D], fun idx => f (X.val idx) (Y.val idx)⟩, ?_, rfl, fun _ _ _ => rfl⟩
  unfold ND.zipNd
  rw [hX, hY, if_pos rfl]

/-- what the code computes -/
theorem dAdt_ok (hchol : CholTriLaw chol) (hinv : InvLaw inv) (hnull : NullLaw null) (O : SetOrder) {root : (ND ℂ → Py (ND ℂ)) → ℕ → Py (ND ℂ)}
    (x : IMPS) (hd : 0 < d) (hD : 0 < D) (hA : x.A.shape = [d, D, D]) (sl : l.shape = [D, D]) (sr : r.shape = [D, D]) (he : eigs x.A = .ok (1, l, r))
    (hh : h.shape = [d * d, d * d]) (hl : DiagND D l lam) (hr : DiagND D r rho) (pl : ∀ i < D, 0 < lam i) (pr : ∀ i < D, 0 < rho i)
    {K : ND ℂ} (eK : Lh O eigs root x h = .ok K) (sK : K.shape = [D, D]) :
    ∃ B C U p k, dAdt chol inv null O eigs root x h = .ok B ∧ B.shape = [d, D, D] ∧ NullProj d D D k x.A lam U p ∧
      (∀ s1 < d, ∀ s2 < d, ∀ a e : Fin D, C.val [s1, s2, a, e] = hMat d D h x.A x.A s1 s2 a e) ∧
      ∀ s < d, ∀ a < D, ∀ c < D, B.val [s, a, c] = -Complex.I * ∑ t ∈ range d, ∑ b ∈ range D, p.val [s, a, t, b] * bracket d D x.A C K lam rho t b c := by
  have hdim0 : x.A.dim 0 = d := by simp [ND.dim, hA]
  obtain ⟨s4, v4⟩ := four_reshape hh
  obtain ⟨C, K0, e1, e2, hC, hK0, hCv, -⟩ := leftK_ok (A := x.A) (l := l) O hA sl s4 v4
  obtain ⟨M, m1, m2, -⟩ := matmul22M hK0 sr
  obtain ⟨vL, k, n1, hb⟩ := nullVecs_ok (A := x.A) hchol hnull hd hD hD hA sl hl pl
  obtain ⟨p, n2, hp⟩ := projector_ok (A := x.A) hchol hinv O sl hl pl hb
  have en : leftNull chol inv null O eigs x = .ok (p, vL) := by
    unfold leftNull
    rw [he, ok_bind, hdim0]
    simp only
    rw [n1, ok_bind, n2, ok_bind]
  obtain ⟨R, r1, hR, hRv⟩ := nc_eval O (AA := [p, x.A]) (v := [[-3, -4, 1, -2], [1, -1, -5]])
    (dimOf [(1, d), (-1, D), (-2, D), (-3, d), (-4, D), (-5, D)]) [1] [-1, -2, -3, -4, -5]
    ⟨by simp, by simp [hp.shape, hA, dimOf, List.lookup], by simp, by simp, by decide, by decide, by decide, by decide, by decide⟩
    (by decide) (by decide)
  have hR' : R.shape = [D, D, d, D, D] := by rw [hR]; simp [dimOf, List.lookup]
  have hRv' : ∀ k1 b s a c, R.val [k1, b, s, a, c] = ∑ t ∈ range d, p.val [s, a, t, b] * x.A.val [t, k1, c] := by
    intro k1 b s a c
    rw [hRv _ rfl]
    simp [labelSum, netTerm, assign, dimOf, List.lookup, Function.update]
  obtain ⟨lC, f1, hlC, hlCv⟩ : ∃ R, l.matmul24 C = .ok R ∧ R.shape = [d, d, D, D] ∧
      ∀ t u a e, R.val [t, u, a, e] = ∑ a' ∈ range D, l.val [a, a'] * C.val [t, u, a', e] :=
    ⟨_, by simp [ND.matmul24, sl, hC]; rfl, rfl, fun _ _ _ _ => rfl⟩
  obtain ⟨lCr, f2, hlCr, hlCrv⟩ : ∃ R, lC.matmul42 r = .ok R ∧ R.shape = [d, d, D, D] ∧
      ∀ t u a e, R.val [t, u, a, e] = ∑ e' ∈ range D, lC.val [t, u, a, e'] * r.val [e', e] :=
    ⟨_, by simp [ND.matmul42, hlC, sr]; rfl, rfl, fun _ _ _ _ => rfl⟩
  obtain ⟨ri, f3, hri, hriv⟩ := hinv r ⟨[D, D], fun
      | [a, b] => if a = b then ((rho a : ℂ))⁻¹ else 0
      | _ => 0⟩ D sr rfl (by
    intro a ha b hb
    rw [sum_diag_l hr ha]
    simp only
    split_ifs
    · rw [mul_inv_cancel₀]
      exact_mod_cast (pr a ha).ne'
    · rw [mul_zero])
  obtain ⟨Ac, hAc⟩ : ∃ Ac, Ac = x.A.conj := ⟨_, rfl⟩
  have hAs : Ac.shape = [d, D, D] := by rw [hAc]; exact hA
  have hAv : ∀ s a b, Ac.val [s, a, b] = star (x.A.val [s, a, b]) := by intros; rw [hAc]; rfl
  obtain ⟨b, f4, hb4, hbv⟩ := diag_mul_left (Y := ri) (V := Ac) (mu := fun a => (rho a : ℂ)⁻¹) hri hAs hriv
  obtain ⟨T1, g1, hT1, hT1v⟩ := nc_eval O (AA := [lCr, p, b]) (v := [[3, 4, 1, 2], [-1, -2, 3, 1], [4, -3, 2]])
    (dimOf [(1, D), (2, D), (3, d), (4, d), (-1, d), (-2, D), (-3, D)]) [1, 2, 3, 4] [-1, -2, -3]
    ⟨by simp, by simp [hlCr, hp.shape, hb4, dimOf, List.lookup], by simp, by simp, by decide, by decide, by decide, by decide, by decide⟩
    (by decide) (by decide)
  have hT1s : (T1.smul (-Complex.I)).shape = [d, D, D] := by
    show T1.shape = _
    rw [hT1]; simp [dimOf, List.lookup]
  have hT1v' : ∀ s a c, T1.val [s, a, c] = ∑ b' ∈ range D, ∑ e ∈ range D, ∑ t ∈ range d, ∑ u ∈ range d,
      lCr.val [t, u, b', e] * (p.val [s, a, t, b'] * b.val [u, c, e]) := by
    intro s a c
    rw [hT1v _ rfl]
    simp [labelSum, netTerm, assign, dimOf, List.lookup, Function.update]
  obtain ⟨lA, f6, hlA, hlAv⟩ := ND.matmul23 (A := l) (B := Ac) sl hAs
  obtain ⟨T2, g2, hT2, hT2v⟩ := nc_eval O (AA := [lA, p, C]) (v := [[1, 3, 4], [-1, -2, 2, 4], [1, 2, 3, -3]])
    (dimOf [(1, d), (2, d), (3, D), (4, D), (-1, d), (-2, D), (-3, D)]) [1, 2, 3, 4] [-1, -2, -3]
    ⟨by simp, by simp [hlA, hp.shape, hC, dimOf, List.lookup], by simp, by simp, by decide, by decide, by decide, by decide, by decide⟩
    (by decide) (by decide)
  have hT2s : (T2.smul (-Complex.I)).shape = [d, D, D] := by
    show T2.shape = _
    rw [hT2]; simp [dimOf, List.lookup]
  have hT2v' : ∀ s a c, T2.val [s, a, c] = ∑ u ∈ range d, ∑ t ∈ range d, ∑ a' ∈ range D, ∑ b ∈ range D,
      lA.val [u, a', b] * (p.val [s, a, t, b] * C.val [u, t, a', c]) := by
    intro s a c
    rw [hT2v _ rfl]
    simp [labelSum, netTerm, assign, dimOf, List.lookup, Function.update]
  obtain ⟨T3, g3, hT3, hT3v⟩ := nc_eval O (AA := [K, R]) (v := [[1, 2], [1, 2, -1, -2, -3]])
    (dimOf [(1, D), (2, D), (-1, d), (-2, D), (-3, D)]) [1, 2] [-1, -2, -3]
    ⟨by simp, by simp [sK, hR', dimOf, List.lookup], by simp, by simp, by decide, by decide, by decide, by decide, by decide⟩
    (by decide) (by decide)
  have hT3s : (T3.smul (-Complex.I)).shape = [d, D, D] := by
    show T3.shape = _
    rw [hT3]; simp [dimOf, List.lookup]
  have hT3v' : ∀ s a c, T3.val [s, a, c] = ∑ k1 ∈ range D, ∑ b ∈ range D, K.val [k1, b] * R.val [k1, b, s, a, c] := by
    intro s a c
    rw [hT3v _ rfl]
    simp [labelSum, netTerm, assign, dimOf, List.lookup, Function.update]
  obtain ⟨Z1, z1, sZ1, vZ1⟩ := zip3 (X := (zerosND x.A.shape).smul (-Complex.I)) (· + ·) (show (zerosND x.A.shape).shape = [d, D, D] from hA) hT1s
  obtain ⟨Z2, z2, sZ2, vZ2⟩ := zip3 (· + ·) sZ1 hT2s
  obtain ⟨Z3, z3, sZ3, vZ3⟩ := zip3 (· + ·) sZ2 hT3s
  refine ⟨Z3, C, _, p, k, ?_, sZ3, hp, ?_, ?_⟩
  · unfold dAdt
    simp only [hdim0]
    rw [ND.reshape_ok (by rw [hh]; simp [mul_assoc]), ok_bind, he, ok_bind]
    simp only
    rw [e1, ok_bind, e2, ok_bind, m1, ok_bind, tr2_ok m2, ok_bind, en, ok_bind]
    simp only
    rw [r1, ok_bind, eK, ok_bind, f1, ok_bind, f2, ok_bind, f3, ok_bind, ← hAc, f4, ok_bind, g1, ok_bind, z1, ok_bind, f6, ok_bind, g2, ok_bind,
      z2, ok_bind, g3, ok_bind, z3]
  · intro s1 h1 s2 h2 a e
    rw [hCv]
    simp only [hMat, Matrix.sum_apply, Matrix.smul_apply, Matrix.mul_apply, toM3_apply, smul_eq_mul]
    refine sum_congr rfl fun t1 g1 => sum_congr rfl fun t2 g2 => ?_
    rw [v4 s1 h1 s2 h2 t1 (mem_range.1 g1) t2 (mem_range.1 g2), Finset.sum_range, Finset.mul_sum]
  · intro s hs a ha c hc
    rw [vZ3, vZ2, vZ1]
    show -Complex.I * 0 + -Complex.I * T1.val [s, a, c] + -Complex.I * T2.val [s, a, c] + -Complex.I * T3.val [s, a, c] = _
    rw [mul_zero, zero_add, ← mul_add, ← mul_add]
    congr 1
    simp only [bracket, mul_add, Finset.sum_add_distrib]
    refine congrArg₂ (· + ·) (congrArg₂ (· + ·) ?_ ?_) ?_
    · rw [hT1v', Finset.sum_congr rfl fun b' _ => Finset.sum_comm, Finset.sum_comm]
      refine sum_congr rfl fun t ht => sum_congr rfl fun b' hb' => ?_
      simp only [mem_range] at ht hb'
      rw [Finset.sum_comm, Finset.mul_sum]
      refine sum_congr rfl fun u _ => ?_
      rw [Finset.mul_sum]
      refine sum_congr rfl fun e he => ?_
      rw [hlCrv, sum_diag_r hr (mem_range.1 he), hlCv, sum_diag_l hl hb', hbv u c hc, hAv]
      ring
    · rw [hT2v', Finset.sum_comm]
      refine sum_congr rfl fun t ht => ?_
      rw [sum_swap2]
      refine sum_congr rfl fun b' hb' => ?_
      rw [Finset.mul_sum]
      refine sum_congr rfl fun u _ => ?_
      rw [Finset.mul_sum]
      refine sum_congr rfl fun a' ha' => ?_
      rw [hlAv, sum_diag_l hl (mem_range.1 ha'), hAv]
      ring
    · rw [hT3v']
      simp only [hRv', Finset.mul_sum]
      rw [sum_swap2]
      refine sum_congr rfl fun t _ => ?_
      rw [Finset.sum_comm]
      exact sum_congr rfl fun b' _ => sum_congr rfl fun k1 _ => by ring

/-! ### the pairing with a variation -/

theorem trace_diag (hr : DiagND D r rho) (M : Matrix (Fin D) (Fin D) ℂ) : (Mᵀ * toM D D r).trace = ∑ e : Fin D, M e e * rho e := by
  simp only [Matrix.trace, Matrix.diag_apply, Matrix.mul_apply, transpose_apply, toM_apply]
  refine sum_congr rfl fun e _ => ?_
  rw [Finset.sum_eq_single e]
  · rw [hr e e.2 e e.2, if_pos rfl]
  · intro b _ hb
    rw [hr b b.2 e e.2, if_neg (fun h => hb (Fin.ext h)), mul_zero]
  · simp

theorem diag_mid (hl : DiagND D l lam) (P Q : Matrix (Fin D) (Fin D) ℂ) (c c' : Fin D) :
    (Pᵀ * toM D D l * Q) c c' = ∑ a : Fin D, P a c * lam a * Q a c' := by
  rw [Matrix.mul_apply]
  refine sum_congr rfl fun a _ => ?_
  rw [Matrix.mul_apply, Finset.sum_eq_single a]
  · rw [toM_apply, hl a a.2 a a.2, if_pos rfl, transpose_apply]
  · intro b _ hb
    rw [toM_apply, hl b b.2 a a.2, if_neg (fun h => hb (Fin.ext h)), mul_zero]
  · simp

/-- the term on the site of the variation and the next one -/
theorem pair_right (hl : DiagND D l lam) (hr : DiagND D r rho) (A B C : ND ℂ)
    (hC : ∀ s1 < d, ∀ s2 < d, ∀ a e : Fin D, C.val [s1, s2, a, e] = hMat d D h A A s1 s2 a e) :
    ((hPush d D h A A B A (toM D D l))ᵀ * toM D D r).trace = ∑ t ∈ range d, ∑ b ∈ range D, ∑ c ∈ range D, star (B.val [t, b, c]) *
      ∑ u ∈ range d, ∑ e ∈ range D, lam b * C.val [t, u, b, e] * rho e * star (A.val [u, c, e]) := by
  have h1 : ∀ e : Fin D, hPush d D h A A B A (toM D D l) e e * rho e = ∑ t ∈ range d, ∑ u ∈ range d, ∑ b : Fin D, ∑ c : Fin D,
      star (B.val [t, b, c]) * (lam b * C.val [t, u, b, e] * rho e * star (A.val [u, c, e])) := by
    intro e
    simp only [hPush, Matrix.sum_apply, Finset.sum_mul]
    refine sum_congr rfl fun t ht => sum_congr rfl fun u hu => ?_
    rw [diag_mid hl, Finset.sum_mul]
    refine sum_congr rfl fun b _ => ?_
    rw [← hC t (mem_range.1 ht) u (mem_range.1 hu), Matrix.map_apply, Matrix.mul_apply, star_sum, Finset.mul_sum, Finset.sum_mul]
    refine sum_congr rfl fun c _ => ?_
    rw [toM3_apply, toM3_apply, star_mul']
    ring
  rw [trace_diag hr, Finset.sum_congr rfl fun e _ => h1 e]
  simp only [Finset.sum_range (n := D), Finset.mul_sum]
  rw [Finset.sum_comm]
  refine sum_congr rfl fun t _ => ?_
  calc _ = ∑ u ∈ range d, ∑ e : Fin D, ∑ b : Fin D, ∑ c : Fin D, star (B.val [t, b, c]) * (lam b * C.val [t, u, b, e] * rho e * star (A.val [u, c, e])) :=
        Finset.sum_comm
    _ = ∑ u ∈ range d, ∑ b : Fin D, ∑ c : Fin D, ∑ e : Fin D, star (B.val [t, b, c]) * (lam b * C.val [t, u, b, e] * rho e * star (A.val [u, c, e])) := by
        refine sum_congr rfl fun u _ => ?_
        rw [Finset.sum_comm]
        exact sum_congr rfl fun b _ => Finset.sum_comm
    _ = _ := by
        rw [Finset.sum_comm]
        exact sum_congr rfl fun b _ => Finset.sum_comm

/-- the term on the site before the variation and its own -/
theorem pair_here (hl : DiagND D l lam) (hr : DiagND D r rho) (A B C : ND ℂ)
    (hC : ∀ s1 < d, ∀ s2 < d, ∀ a e : Fin D, C.val [s1, s2, a, e] = hMat d D h A A s1 s2 a e) :
    ((hPush d D h A A A B (toM D D l))ᵀ * toM D D r).trace = ∑ t ∈ range d, ∑ b ∈ range D, ∑ c ∈ range D, star (B.val [t, b, c]) *
      (rho c * ∑ u ∈ range d, ∑ a ∈ range D, lam a * star (A.val [u, a, b]) * C.val [u, t, a, c]) := by
  have h1 : ∀ c : Fin D, hPush d D h A A A B (toM D D l) c c * rho c = ∑ u ∈ range d, ∑ t ∈ range d, ∑ a : Fin D, ∑ b : Fin D,
      star (B.val [t, b, c]) * (rho c * (lam a * star (A.val [u, a, b]) * C.val [u, t, a, c])) := by
    intro c
    simp only [hPush, Matrix.sum_apply, Finset.sum_mul]
    refine sum_congr rfl fun u hu => sum_congr rfl fun t ht => ?_
    rw [diag_mid hl, Finset.sum_mul]
    refine sum_congr rfl fun a _ => ?_
    rw [← hC u (mem_range.1 hu) t (mem_range.1 ht), Matrix.map_apply, Matrix.mul_apply, star_sum, Finset.mul_sum, Finset.sum_mul]
    refine sum_congr rfl fun b _ => ?_
    rw [toM3_apply, toM3_apply, star_mul']
    ring
  rw [trace_diag hr, Finset.sum_congr rfl fun e _ => h1 e]
  simp only [Finset.sum_range (n := D), Finset.mul_sum]
  calc _ = ∑ c : Fin D, ∑ t ∈ range d, ∑ u ∈ range d, ∑ b : Fin D, ∑ a : Fin D,
          star (B.val [t, b, c]) * (rho c * (lam a * star (A.val [u, a, b]) * C.val [u, t, a, c])) := by
        refine sum_congr rfl fun c _ => ?_
        rw [Finset.sum_comm]
        exact sum_congr rfl fun t _ => sum_congr rfl fun u _ => Finset.sum_comm
    _ = ∑ t ∈ range d, ∑ c : Fin D, ∑ b : Fin D, ∑ u ∈ range d, ∑ a : Fin D,
          star (B.val [t, b, c]) * (rho c * (lam a * star (A.val [u, a, b]) * C.val [u, t, a, c])) := by
        rw [Finset.sum_comm]
        exact sum_congr rfl fun t _ => sum_congr rfl fun c _ => Finset.sum_comm
    _ = _ := sum_congr rfl fun t _ => Finset.sum_comm

/-- the terms farther on the left -/
theorem pair_left (hr : DiagND D r rho) (A B : ND ℂ) (Y : Matrix (Fin D) (Fin D) ℂ) :
    ((push2 d D A B Y)ᵀ * toM D D r).trace = ∑ t ∈ range d, ∑ b : Fin D, ∑ c : Fin D, star (B.val [t, b, c]) *
      (rho c * ∑ k : Fin D, Y k b * A.val [t, k, c]) := by
  have h1 : ∀ c : Fin D, push2 d D A B Y c c * rho c = ∑ t ∈ range d, ∑ b : Fin D, star (B.val [t, b, c]) * (rho c * ∑ k : Fin D, Y k b * A.val [t, k, c]) := by
    intro c
    simp only [push2, Matrix.sum_apply, Finset.sum_mul]
    refine sum_congr rfl fun t _ => ?_
    rw [Matrix.mul_apply, Finset.sum_mul]
    refine sum_congr rfl fun b _ => ?_
    simp only [Matrix.mul_apply, transpose_apply, toM3_apply, Matrix.map_apply, Finset.sum_mul, Finset.mul_sum]
    exact sum_congr rfl fun k _ => by ring
  rw [trace_diag hr, Finset.sum_congr rfl fun e _ => h1 e, Finset.sum_comm]
  exact sum_congr rfl fun t _ => Finset.sum_comm

/-- the scalar product for diagonal fixed points -/
theorem siteForm_diag (hl : DiagND D l lam) (hr : DiagND D r rho) (B B' : ND ℂ) :
    siteForm d D l r B B' = ∑ s ∈ range d, ∑ a ∈ range D, ∑ c ∈ range D, star (B.val [s, a, c]) * lam a * rho c * B'.val [s, a, c] := by
  unfold siteForm
  refine sum_congr rfl fun s _ => sum_congr rfl fun a ha => ?_
  rw [Finset.sum_eq_single a]
  · refine sum_congr rfl fun c hc => ?_
    rw [Finset.sum_eq_single c]
    · rw [hl a (mem_range.1 ha) a (mem_range.1 ha), hr c (mem_range.1 hc) c (mem_range.1 hc), if_pos rfl, if_pos rfl]
    · intro c' hc' hne
      rw [hr c (mem_range.1 hc) c' (mem_range.1 hc'), if_neg (Ne.symm hne)]
      ring
    · intro hn
      exact absurd hc hn
  · intro a' ha' hne
    refine sum_eq_zero fun c _ => sum_eq_zero fun c' _ => ?_
    rw [hl a (mem_range.1 ha) a' (mem_range.1 ha'), if_neg (Ne.symm hne)]
    ring
  · intro hn
    exact absurd ha hn

/-- the left gauge for diagonal fixed points -/
theorem gauge_diag (hl : DiagND D l lam) (A B : ND ℂ) : LeftGauge d D D (fun a b => l.val [a, b]) A B ↔
    ∀ c < D, ∀ c' < D, ∑ s ∈ range d, ∑ a ∈ range D, star (A.val [s, a, c]) * lam a * B.val [s, a, c'] = 0 := by
  unfold LeftGauge
  refine forall_congr' fun c => imp_congr_right fun _ => forall_congr' fun c' => imp_congr_right fun _ => ?_
  have : ∀ s ∈ range d, ∀ a ∈ range D, ∑ a' ∈ range D, star (A.val [s, a, c]) * l.val [a, a'] * B.val [s, a', c'] =
      star (A.val [s, a, c]) * lam a * B.val [s, a, c'] := by
    intro s _ a ha
    have := sum_diag_l hl (mem_range.1 ha) (fun a' => B.val [s, a', c'])
    simp only [mul_assoc, ← Finset.mul_sum, this]
  rw [Finset.sum_congr rfl fun s hs => Finset.sum_congr rfl fun a ha => this s hs a ha]

theorem gauge_push (hl : DiagND D l lam) {A B : ND ℂ} (hg : LeftGauge d D D (fun a b => l.val [a, b]) A B) : push2 d D A B (toM D D l) = 0 := by
  rw [gauge_diag hl] at hg
  ext c c'
  have h := congrArg star (hg c c.2 c' c'.2)
  simp only [star_sum, star_mul', star_star, star_zero, show ∀ a : ℕ, star ((lam a : ℂ)) = lam a from fun a => Complex.conj_ofReal _] at h
  simp only [push2, Matrix.sum_apply, Matrix.zero_apply]
  rw [← h]
  refine sum_congr rfl fun s _ => ?_
  rw [diag_mid hl, Finset.sum_range]
  refine sum_congr rfl fun a _ => ?_
  simp [toM3_apply, Matrix.map_apply]

/-- the projector drops out of the scalar product with a variation in the left gauge -/
theorem pair_proj {p B : ND ℂ} {k : ℕ} {U : ℕ → ℕ → ℕ → ℂ} (hp : NullProj d D D k A lam U p)
    (hg : ∀ c < D, ∀ c' < D, ∑ s ∈ range d, ∑ a ∈ range D, star (A.val [s, a, c]) * lam a * B.val [s, a, c'] = 0) (W : ℕ → ℕ → ℂ) {c : ℕ} (hc : c < D) :
    ∑ s ∈ range d, ∑ a ∈ range D, star (B.val [s, a, c]) * lam a * ∑ t ∈ range d, ∑ b ∈ range D, p.val [s, a, t, b] * W t b =
      ∑ t ∈ range d, ∑ b ∈ range D, star (B.val [t, b, c]) * W t b := by
  have hcomp := hp.complete (fun s a => B.val [s, a, c]) (fun c' hc' => hg c' hc' c hc)
  have h1 : ∀ t < d, ∀ b < D, star (B.val [t, b, c]) = ∑ s ∈ range d, ∑ a ∈ range D, star (B.val [s, a, c]) * lam a * p.val [s, a, t, b] := by
    intro t ht b hb
    have h := congrArg star (hcomp t ht b hb)
    simp only [star_sum, star_mul', star_star, show ∀ a : ℕ, star ((lam a : ℂ)) = lam a from fun a => Complex.conj_ofReal _] at h
    rw [h]
    simp only [Finset.mul_sum]
    rw [Finset.sum_comm]
    refine sum_congr rfl fun s hs => ?_
    rw [Finset.sum_comm]
    refine sum_congr rfl fun a ha => ?_
    rw [hp.val s a (mem_range.1 ha) t b hb, Finset.mul_sum]
    exact sum_congr rfl fun k1 _ => by ring
  have h2 : ∑ t ∈ range d, ∑ b ∈ range D, star (B.val [t, b, c]) * W t b = ∑ t ∈ range d, ∑ b ∈ range D,
      (∑ s ∈ range d, ∑ a ∈ range D, star (B.val [s, a, c]) * lam a * p.val [s, a, t, b]) * W t b :=
    sum_congr rfl fun t ht => sum_congr rfl fun b hb => by rw [h1 t (mem_range.1 ht) b (mem_range.1 hb)]
  rw [h2]
  simp only [Finset.mul_sum, Finset.sum_mul]
  rw [sum_swap2]
  refine sum_congr rfl fun t _ => ?_
  rw [sum_swap2]
  exact sum_congr rfl fun b _ => sum_congr rfl fun s _ => sum_congr rfl fun a _ => by ring

theorem push2_lin (A B : ND ℂ) (R Y Y' : Matrix (Fin D) (Fin D) ℂ) (c : ℂ) :
    ((push2 d D A B (Y + c • Y'))ᵀ * R).trace = ((push2 d D A B Y)ᵀ * R).trace + c * ((push2 d D A B Y')ᵀ * R).trace := by
  have : push2 d D A B (Y + c • Y') = push2 d D A B Y + c • push2 d D A B Y' := by
    simp only [push2, Matrix.mul_add, Matrix.add_mul, Matrix.mul_smul, Matrix.smul_mul, Finset.sum_add_distrib, ← Finset.smul_sum]
  rw [this, transpose_add, transpose_smul, Matrix.add_mul, Matrix.smul_mul, trace_add, trace_smul, smul_eq_mul]

theorem push2_sum (A B : ND ℂ) (R : Matrix (Fin D) (Fin D) ℂ) (Y : ℕ → Matrix (Fin D) (Fin D) ℂ) : ∀ n,
    ((push2 d D A B (∑ m ∈ range n, Y m))ᵀ * R).trace = ∑ m ∈ range n, ((push2 d D A B (Y m))ᵀ * R).trace
  | 0 => by simp [push2]
  | n + 1 => by
    have := push2_lin (d := d) A B R (∑ m ∈ range n, Y m) (Y n) 1
    rw [one_smul, one_mul] at this
    rw [Finset.sum_range_succ, Finset.sum_range_succ, this, push2_sum A B R Y n]

theorem push2_cont (A B : ND ℂ) (R : Matrix (Fin D) (Fin D) ℂ) : Continuous fun Y => ((push2 d D A B Y)ᵀ * R).trace := by
  unfold push2
  refine Continuous.matrix_trace (Continuous.matrix_mul (Continuous.matrix_transpose ?_) continuous_const)
  exact continuous_finset_sum _ fun s _ => Continuous.matrix_mul (Continuous.matrix_mul continuous_const continuous_id) continuous_const

set_option maxHeartbeats 800000 in
/-- the result of `dA_dt` against a variation in the left gauge, in terms of the matrix that `Lh` returns -/
theorem dAdt_pair (hchol : CholTriLaw chol) (hinv : InvLaw inv) (hnull : NullLaw null) (O : SetOrder)
    {root : (ND ℂ → Py (ND ℂ)) → ℕ → Py (ND ℂ)} (x : IMPS) (hd : 0 < d) (hD : 0 < D)
    (hf : FixedPoints d D x.A l r 1) (he : eigs x.A = .ok (1, l, r)) (hh : h.shape = [d * d, d * d]) (hl : DiagND D l lam) (hr : DiagND D r rho)
    {K : ND ℂ} (eK : Lh O eigs root x h = .ok K) (sK : K.shape = [D, D]) :
    ∃ B, dAdt chol inv null O eigs root x h = .ok B ∧ B.shape = [d, D, D] ∧ LeftGauge d D D (fun a b => l.val [a, b]) x.A B ∧
      ∀ B' : ND ℂ, B'.shape = [d, D, D] → LeftGauge d D D (fun a b => l.val [a, b]) x.A B' →
        Complex.I * siteForm d D l r B' B = ((hPush d D h x.A x.A B' x.A (toM D D l))ᵀ * toM D D r).trace +
          ((hPush d D h x.A x.A x.A B' (toM D D l))ᵀ * toM D D r).trace + ((push2 d D x.A B' (toM D D K))ᵀ * toM D D r).trace := by
  have pl := diag_pos hl hf.pos_l
  have pr := diag_pos hr hf.pos_r
  obtain ⟨B, C, U, p, k, eB, sB, hp, hC, hB⟩ := dAdt_ok hchol hinv hnull O x hd hD hf.shape hf.shape_l hf.shape_r he hh hl hr pl pr eK sK
  refine ⟨B, eB, sB, ?_, ?_⟩
  · rw [gauge_diag hl]
    intro c hc c' hc'
    have h1 : ∀ s ∈ range d, ∀ a ∈ range D, star (x.A.val [s, a, c]) * lam a * B.val [s, a, c'] =
        ∑ k1 ∈ range k, (-Complex.I * ∑ t ∈ range d, ∑ b ∈ range D, star (U t b k1) * bracket d D x.A C K lam rho t b c') *
          (star (x.A.val [s, a, c]) * lam a * U s a k1) := by
      intro s hs' a ha
      have ha' := mem_range.1 ha
      rw [hB s (mem_range.1 hs') a ha' c' hc']
      rw [Finset.sum_congr rfl fun t _ => Finset.sum_congr rfl fun b hb => by rw [hp.val s a ha' t b (mem_range.1 hb)]]
      simp only [Finset.mul_sum, Finset.sum_mul]
      rw [sum_swap2]
      exact sum_congr rfl fun k1 _ => sum_congr rfl fun t _ => sum_congr rfl fun b _ => by ring
    rw [Finset.sum_congr rfl fun s hs' => Finset.sum_congr rfl fun a ha => h1 s hs' a ha, sum_swap2]
    refine sum_eq_zero fun k1 hk1 => ?_
    simp only [← Finset.mul_sum]
    rw [hp.null c hc k1 (mem_range.1 hk1), mul_zero]
  · intro B' sB' gB'
    rw [pair_right hl hr x.A B' C hC, pair_here hl hr x.A B' C hC]
    rw [gauge_diag hl] at gB'
    have e1 : Complex.I * siteForm d D l r B' B = ∑ c ∈ range D, rho c * ∑ t ∈ range d, ∑ b ∈ range D, star (B'.val [t, b, c]) *
        bracket d D x.A C K lam rho t b c := by
      rw [siteForm_diag hl hr]
      rw [Finset.sum_congr rfl fun s _ => Finset.sum_comm, Finset.sum_comm, Finset.mul_sum]
      refine sum_congr rfl fun c hc => ?_
      have hc := mem_range.1 hc
      rw [← pair_proj hp gB' (fun t b => bracket d D x.A C K lam rho t b c) hc]
      simp only [Finset.mul_sum]
      refine sum_congr rfl fun s hs' => sum_congr rfl fun a ha => ?_
      rw [hB s (mem_range.1 hs') a (mem_range.1 ha) c hc]
      simp only [← Finset.mul_sum]
      linear_combination (-(star (B'.val [s, a, c]) * lam a * rho c * ∑ t ∈ range d, ∑ b ∈ range D, p.val [s, a, t, b] * bracket d D x.A C K lam rho t b c)) *
        Complex.I_mul_I
    rw [e1, pair_left hr]
    have e4 : ∀ c ∈ range D, (rho c : ℂ) * ∑ t ∈ range d, ∑ b ∈ range D, star (B'.val [t, b, c]) * bracket d D x.A C K lam rho t b c =
        (∑ t ∈ range d, ∑ b ∈ range D, star (B'.val [t, b, c]) * ∑ u ∈ range d, ∑ e ∈ range D, lam b * C.val [t, u, b, e] * rho e * star (x.A.val [u, c, e])) +
        (∑ t ∈ range d, ∑ b ∈ range D, star (B'.val [t, b, c]) * (rho c * ∑ u ∈ range d, ∑ a ∈ range D, lam a * star (x.A.val [u, a, b]) * C.val [u, t, a, c])) +
        ∑ t ∈ range d, ∑ b ∈ range D, star (B'.val [t, b, c]) * (rho c * ∑ k ∈ range D, K.val [k, b] * x.A.val [t, k, c]) := by
      intro c hc
      have hne : (rho c : ℂ) ≠ 0 := by exact_mod_cast (pr c (mem_range.1 hc)).ne'
      rw [← Finset.sum_add_distrib, ← Finset.sum_add_distrib, Finset.mul_sum]
      refine sum_congr rfl fun t _ => ?_
      rw [← Finset.sum_add_distrib, ← Finset.sum_add_distrib, Finset.mul_sum]
      refine sum_congr rfl fun b _ => ?_
      have h5 : (rho c : ℂ) * ∑ u ∈ range d, ∑ e ∈ range D, lam b * C.val [t, u, b, e] * rho e * ((rho c : ℂ)⁻¹ * star (x.A.val [u, c, e])) =
          ∑ u ∈ range d, ∑ e ∈ range D, lam b * C.val [t, u, b, e] * rho e * star (x.A.val [u, c, e]) := by
        simp only [Finset.mul_sum]
        refine sum_congr rfl fun u _ => sum_congr rfl fun e _ => ?_
        linear_combination (lam b * C.val [t, u, b, e] * rho e * star (x.A.val [u, c, e])) * mul_inv_cancel₀ hne
      rw [← h5, bracket]
      ring
    rw [Finset.sum_congr rfl e4]
    simp only [Finset.sum_add_distrib]
    have e5 : ∀ f : ℕ → ℕ → ℕ → ℂ, ∑ c ∈ range D, ∑ t ∈ range d, ∑ b ∈ range D, f t b c = ∑ t ∈ range d, ∑ b ∈ range D, ∑ c ∈ range D, f t b c := by
      intro f
      rw [Finset.sum_comm]
      exact sum_congr rfl fun t _ => Finset.sum_comm
    rw [e5, e5, e5]
    refine congrArg₂ (· + ·) rfl ?_
    simp only [Finset.sum_range (n := D)]
    rfl


theorem hPush_ham : hPush d D h A A A A (toM D D l) = hamLeft d D A l h := by
  unfold hPush hamLeft hMat
  refine sum_congr rfl fun s1 _ => sum_congr rfl fun s2 _ => ?_
  simp only [transpose_sum, transpose_smul, Finset.sum_mul, Matrix.smul_mul]

theorem diag_sym (hr : DiagND D r rho) : (toM D D r)ᵀ = toM D D r := by
  ext i j
  rw [transpose_apply, toM_apply, toM_apply, hr j j.2 i i.2, hr i i.2 j j.2]
  by_cases hij : i = j
  · rw [hij]
  · rw [if_neg (fun h => hij (Fin.ext h).symm), if_neg (fun h => hij (Fin.ext h))]

/-- **C80, for a window of any length**: the result of `dA_dt` against a variation `B'` is `-i` times the Hamiltonian of the window, up to what the
transfer matrix leaves of the terms beyond its left end. -/
theorem dAdt_window_partial (hchol : CholTriLaw chol) (hinv : InvLaw inv) (hnull : NullLaw null) (O : SetOrder)
    {root : (ND ℂ → Py (ND ℂ)) → ℕ → Py (ND ℂ)} (hroot : RootLaw root) (x : IMPS) (hd : 0 < d) (hD : 0 < D)
    (hf : FixedPoints d D x.A l r 1) (hn : (toM D D l * toM D D r).trace = 1) (hs : SimpleLeft d D x.A 1) (he : eigs x.A = .ok (1, l, r))
    (hh : h.shape = [d * d, d * d]) (hre : RealTransfer d D x.A) (hl : DiagND D l lam) (hr : DiagND D r rho) :
    ∃ B K, dAdt chol inv null O eigs root x h = .ok B ∧ B.shape = [d, D, D] ∧ LeftGauge d D D (fun a b => l.val [a, b]) x.A B ∧
      (Kᵀ * toM D D r).trace = 0 ∧
      ∀ B' : ND ℂ, B'.shape = [d, D, D] → LeftGauge d D D (fun a b => l.val [a, b]) x.A B' → ∀ i L, 0 < i → i + 2 ≤ L →
        Complex.I * siteForm d D l r B' B = hamOverlap d D x.A l r h B' L i +
          ∑ c : Fin D, (∑ s ∈ range d, (toM3 D D x.A s)ᵀ * (pushLeft d D x.A)^[i - 1] K * (toM3 D D B' s).map star) c c * rho c := by
  obtain ⟨K, eK, sK, tK, hK, -⟩ := Lh_series_partial O hroot x hD hf hn hs he hh hre (diag_sym hr)
  obtain ⟨B, eB, sB, gB, hB⟩ := dAdt_pair hchol hinv hnull O x hd hD hf he hh hl hr eK sK
  refine ⟨B, toM D D K, eB, sB, gB, tK, ?_⟩
  intro B' sB' gB' i L hi hL
  obtain ⟨j, rfl⟩ : ∃ j, i = j + 1 := ⟨i - 1, by omega⟩
  obtain ⟨n, rfl⟩ : ∃ n, L = j + 1 + 1 + (n + 1) := ⟨L - (j + 3), by omega⟩
  have g0 := gauge_push hl gB'
  have hR := hf.right
  rw [Complex.ofReal_one, one_smul] at hR
  rw [hB B' sB' gB', hamOverlap_eq hf.shape sB' hR (pushLeft_fixed hf) g0, Nat.add_sub_cancel]
  rw [hPush_ham]
  have e2 : ((push2 d D x.A B' (toM D D K))ᵀ * toM D D r).trace = ∑ n ∈ range j,
      ((push2 d D x.A B' ((pushLeft d D x.A)^[n] (hamLeft d D x.A l h)))ᵀ * toM D D r).trace +
        ((push2 d D x.A B' ((pushLeft d D x.A)^[j] (toM D D K)))ᵀ * toM D D r).trace := by
    conv_lhs => rw [hK j]
    have := push2_lin (d := d) x.A B' (toM D D r) ((pushLeft d D x.A)^[j] (toM D D K)) (∑ n ∈ range j, ((pushLeft d D x.A)^[n] (hamLeft d D x.A l h) -
      infExpect2 d D x.A l r 1 (fun s1 s2 t1 t2 => h.val [s1 * d + s2, t1 * d + t2]) • toM D D l)) 1
    rw [one_smul, one_mul] at this
    rw [this, push2_sum, add_comm]
    refine congrArg (· + _) (sum_congr rfl fun n _ => ?_)
    rw [sub_eq_add_neg, ← neg_smul, push2_lin, g0]
    simp
  rw [e2, ← add_assoc, trace_diag hr (push2 d D x.A B' ((pushLeft d D x.A)^[j] (toM D D K)))]
  rfl

/-- **C80**: for a tensor with real transfer matrix and diagonal fixed points, `dA_dt` returns the tangent vector of the time-dependent variational
principle: it is in the left gauge, and its scalar product with every variation in the left gauge is `-i` times that of `H|ψ⟩`, for a window that
grows to the left.  There is no other tensor like this. -/
theorem dAdt_tdvp_partial (hchol : CholTriLaw chol) (hinv : InvLaw inv) (hnull : NullLaw null) (O : SetOrder)
    {root : (ND ℂ → Py (ND ℂ)) → ℕ → Py (ND ℂ)} (hroot : RootLaw root) (x : IMPS) (hd : 0 < d) (hD : 0 < D)
    (hf : FixedPoints d D x.A l r 1) (hn : (toM D D l * toM D D r).trace = 1) (hs : SimpleLeft d D x.A 1) (hm : Mixing d D x.A l r)
    (he : eigs x.A = .ok (1, l, r)) (hh : h.shape = [d * d, d * d]) (hre : RealTransfer d D x.A) (hl : DiagND D l lam) (hr : DiagND D r rho) :
    ∃ B, dAdt chol inv null O eigs root x h = .ok B ∧ InfTangent d D x.A l r h B ∧
      ∀ B2, InfTangent d D x.A l r h B2 → ∀ s < d, ∀ a < D, ∀ c < D, B2.val [s, a, c] = B.val [s, a, c] := by
  obtain ⟨B, K, eB, sB, gB, tK, hB⟩ := dAdt_window_partial hchol hinv hnull O hroot x hd hD hf hn hs he hh hre hl hr
  have hlim : ∀ B' : ND ℂ, B'.shape = [d, D, D] → LeftGauge d D D (fun a b => l.val [a, b]) x.A B' → ∀ L : ℕ → ℕ, (∀ i, i + 2 ≤ L i) →
      Filter.Tendsto (fun i => hamOverlap d D x.A l r h B' (L i) i) Filter.atTop (nhds (Complex.I * siteForm d D l r B' B)) := by
    intro B' sB' gB' L hL
    have h0 : Filter.Tendsto (fun i => ((push2 d D x.A B' ((pushLeft d D x.A)^[i - 1] K))ᵀ * toM D D r).trace) Filter.atTop (nhds 0) := by
      have h1 := hm K
      rw [tK, zero_smul] at h1
      have h2 := ((push2_cont (d := d) x.A B' (toM D D r)).tendsto 0).comp (h1.comp (Filter.tendsto_sub_atTop_nat 1))
      have h3 : ((push2 d D x.A B' 0)ᵀ * toM D D r).trace = 0 := by simp [push2]
      rw [h3] at h2
      exact h2
    have h4 : Filter.Tendsto (fun i => Complex.I * siteForm d D l r B' B - ((push2 d D x.A B' ((pushLeft d D x.A)^[i - 1] K))ᵀ * toM D D r).trace)
        Filter.atTop (nhds (Complex.I * siteForm d D l r B' B - 0)) := tendsto_const_nhds.sub h0
    rw [sub_zero] at h4
    refine h4.congr' ?_
    filter_upwards [Filter.eventually_gt_atTop 0] with i hi
    rw [hB B' sB' gB' i (L i) hi (hL i), trace_diag hr]
    exact add_sub_cancel_right _ _
  refine ⟨B, eB, ⟨sB, gB, hlim⟩, ?_⟩
  rintro B2 ⟨sB2, gB2, hlim2⟩ s hs' a ha c hc
  let V : ND ℂ := ⟨[d, D, D], fun idx => B2.val idx - B.val idx⟩
  have gV : LeftGauge d D D (fun a b => l.val [a, b]) x.A V := by
    intro c hc c' hc'
    have h1 := gB c hc c' hc'
    have h2 := gB2 c hc c' hc'
    simp only [V, mul_sub, Finset.sum_sub_distrib, h1, h2, sub_zero]
  have h1 := tendsto_nhds_unique (hlim V rfl gV (fun i => i + 2) fun _ => le_rfl) (hlim2 V rfl gV (fun i => i + 2) fun _ => le_rfl)
  have h2 : siteForm d D l r V V = 0 := by
    have h3 := mul_left_cancel₀ Complex.I_ne_zero h1
    rw [siteForm_diag hl hr, siteForm_diag hl hr] at h3
    rw [siteForm_diag hl hr]
    simp only [show ∀ s a c, V.val [s, a, c] = B2.val [s, a, c] - B.val [s, a, c] from fun _ _ _ => rfl] at h3 ⊢
    simp only [mul_sub, Finset.sum_sub_distrib, h3, sub_self]
  have pl := diag_pos hl hf.pos_l
  have pr := diag_pos hr hf.pos_r
  rw [siteForm_diag hl hr] at h2
  have h4 : ∑ s ∈ range d, ∑ a ∈ range D, ∑ c ∈ range D, lam a * rho c * Complex.normSq (V.val [s, a, c]) = 0 := by
    have : ((∑ s ∈ range d, ∑ a ∈ range D, ∑ c ∈ range D, lam a * rho c * Complex.normSq (V.val [s, a, c]) : ℝ) : ℂ) = 0 := by
      rw [← h2]
      push_cast
      refine sum_congr rfl fun s _ => sum_congr rfl fun a _ => sum_congr rfl fun c _ => ?_
      rw [← Complex.mul_conj, Complex.star_def]
      ring
    exact_mod_cast this
  have nn : ∀ s, ∀ a ∈ range D, ∀ c ∈ range D, 0 ≤ lam a * rho c * Complex.normSq (V.val [s, a, c]) := fun s a ha c hc =>
    mul_nonneg (mul_nonneg (pl a (mem_range.1 ha)).le (pr c (mem_range.1 hc)).le) (Complex.normSq_nonneg _)
  have h5 := (sum_eq_zero_iff_of_nonneg fun s _ => sum_nonneg fun a ha => sum_nonneg fun c hc => nn s a ha c hc).1 h4 s (mem_range.2 hs')
  have h6 := (sum_eq_zero_iff_of_nonneg fun a ha => sum_nonneg fun c hc => nn s a ha c hc).1 h5 a (mem_range.2 ha)
  have h7 := (sum_eq_zero_iff_of_nonneg fun c hc => nn s a (mem_range.2 ha) c hc).1 h6 c (mem_range.2 hc)
  have h8 := (mul_eq_zero.1 h7).resolve_left (mul_pos (pl a ha) (pr c hc)).ne'
  exact sub_eq_zero.1 (Complex.normSq_eq_zero.1 h8)

/-- **C80**: the energy does not change to first order along the result of `dA_dt`: the limit of `⟨∂ψ|H|ψ⟩` is imaginary. -/
theorem tangent_energy {B : ND ℂ} (hl : DiagND D l lam) (hr : DiagND D r rho) (hB : InfTangent d D A l r h B)
    (L : ℕ → ℕ) (hL : ∀ i, i + 2 ≤ L i) : Filter.Tendsto (fun i => (hamOverlap d D A l r h B (L i) i).re) Filter.atTop (nhds 0) := by
  have h1 := (Complex.continuous_re.tendsto _).comp (hB.limit B hB.shape hB.gauge L hL)
  have h2 : (Complex.I * siteForm d D l r B B).re = 0 := by
    rw [siteForm_diag hl hr, Complex.I_mul_re]
    have : (∑ s ∈ range d, ∑ a ∈ range D, ∑ c ∈ range D, star (B.val [s, a, c]) * lam a * rho c * B.val [s, a, c]) =
        ((∑ s ∈ range d, ∑ a ∈ range D, ∑ c ∈ range D, lam a * rho c * Complex.normSq (B.val [s, a, c]) : ℝ) : ℂ) := by
      push_cast
      refine sum_congr rfl fun s _ => sum_congr rfl fun a _ => sum_congr rfl fun c _ => ?_
      rw [← Complex.mul_conj, Complex.star_def]
      ring
    rw [this, Complex.ofReal_im, neg_zero]
  rw [h2] at h1
  exact h1

end IMPS

end Xmps
