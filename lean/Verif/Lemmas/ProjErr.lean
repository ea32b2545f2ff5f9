import Verif.Lemmas.HamTangent
import Verif.Model.DynExpand
import Verif.Props.TransferMatrix

/-!
# The steps of `projection_error`
-/

namespace Xmps

open Finset Spec Xmps.Ncon

section
variable {d p q n kL kR χ : ℕ} {A B h h4 l r vL vR U V : ND ℂ} {rho : ℕ → ℝ}

/-- `G(m)` is the component of the gate along the null vectors -/
theorem projG_ok (O : SetOrder) (h4v : Four d h h4) (hA : A.shape = [d, p, q]) (hB : B.shape = [d, q, n]) (hl : l.shape = [p, p])
    (hlv : ∀ i < p, ∀ j < p, l.val [i, j] = if i = j then 1 else 0) (hr : r.shape = [n, n])
    (hrv : ∀ i < n, ∀ j < n, r.val [i, j] = if i = j then (rho i : ℂ) else 0) (hvL : vL.shape = [d, p, kL]) (hvR : vR.shape = [d, kR, n]) :
    ∃ G, FMPS.projG O A B h4 l r vL vR = .ok G ∧ G.shape = [kL, kR] ∧ ∀ k1 k2, G.val [k1, k2] = gSum d p n vL vR rho (hAA d q h A B) k1 k2 := by
  obtain ⟨lA, e1, slA, vlA⟩ := diag_mul_left (mu := fun _ => 1) hl hA hlv
  obtain ⟨Br, e2, sBr, vBr⟩ := diag_mul_right hB hr hrv
  obtain ⟨C, e3, sC, vC⟩ := nc_C O h4v slA sBr
  obtain ⟨G, e4, sG, vG⟩ := nc_eval O (AA := [vL.conj, vR.conj, C]) (v := [[1, 3, -1], [2, -2, 4], [1, 2, 3, 4]])
    (dimOf [(1, d), (2, d), (3, p), (4, n), (-1, kL), (-2, kR)]) [1, 2, 3, 4] [-1, -2]
    ⟨by simp, by simp [hvL, hvR, sC, dimOf, List.lookup], by simp, by simp, by decide, by decide, by decide, by decide, by decide⟩
    (by decide) (by decide)
  refine ⟨G, ?_, by rw [sG]; simp [dimOf, List.lookup], ?_⟩
  · unfold FMPS.projG
    rw [e1, ok_bind, e2, ok_bind, e3, ok_bind, e4]
  intro k1 k2
  have e : G.val [k1, k2] = ∑ t ∈ range d, ∑ u ∈ range d, ∑ a ∈ range p, ∑ b ∈ range n,
      star (vL.val [t, a, k1]) * (star (vR.val [u, k2, b]) * C.val [t, u, a, b]) := by
    rw [vG _ rfl]
    simp [labelSum, netTerm, assign, dimOf, List.lookup, Function.update, ND.conj]
  rw [e]
  unfold gSum
  refine Finset.sum_congr rfl fun t ht => Finset.sum_congr rfl fun u hu => Finset.sum_congr rfl fun a ha => Finset.sum_congr rfl fun b hb => ?_
  rw [vC t (Finset.mem_range.1 ht) u (Finset.mem_range.1 hu), mul_assoc]
  congr 2
  unfold hAA
  simp only [Finset.sum_mul, Finset.mul_sum]
  refine Finset.sum_congr rfl fun p1 _ => Finset.sum_congr rfl fun p2 _ => Finset.sum_congr rfl fun k _ => ?_
  rw [vlA _ _ (Finset.mem_range.1 ha), vBr _ _ _ (Finset.mem_range.1 hb)]
  ring

/-- the new legs -/
theorem newLegs_ok (dt : ℝ) (hl : l.shape = [p, p]) (hlv : ∀ i < p, ∀ j < p, l.val [i, j] = if i = j then 1 else 0) (hr : r.shape = [n, n])
    (hrv : ∀ i < n, ∀ j < n, r.val [i, j] = if i = j then (rho i : ℂ) else 0) (hvL : vL.shape = [d, p, kL]) (hvR : vR.shape = [d, kR, n])
    (hU : U.shape = [kL, χ]) (hV : V.shape = [χ, kR]) {s : List ℝ} (hs : s.length = χ) :
    ∃ X Y, FMPS.newLegs dt l r vL vR U s V = .ok (X, Y) ∧ X.shape = [d, p, χ] ∧ Y.shape = [d, χ, n] ∧
      (∀ t, ∀ a < p, ∀ j < χ, X.val [t, a, j] = ((Real.sqrt dt : ℝ) : ℂ) * ((Real.sqrt (s.getD j 0) : ℝ) : ℂ) * ∑ k ∈ range kL, vL.val [t, a, k] * U.val [k, j]) ∧
      ∀ u, ∀ j < χ, ∀ b < n, Y.val [u, j, b] =
        ((Real.sqrt dt : ℝ) : ℂ) * ((Real.sqrt (s.getD j 0) : ℝ) : ℂ) * (∑ k ∈ range kR, V.val [j, k] * vR.val [u, k, b]) * (rho b : ℂ) := by
  have sD : (diagC (s.map Real.sqrt)).shape = [χ, χ] := by rw [diagC_shape, List.length_map, hs]
  have vD : ∀ i < χ, ∀ j < χ, (diagC (s.map Real.sqrt)).val [i, j] = if i = j then ((Real.sqrt (s.getD i 0) : ℝ) : ℂ) else 0 := by
    intro i hi j hj
    rw [diagC_val, List.getD_eq_getElem _ _ (by rw [List.length_map]; omega), List.getD_eq_getElem _ _ (by omega), List.getElem_map]
  obtain ⟨x, e1, sx, vx⟩ := ND.matmul22 hU sD
  obtain ⟨y, e2, sy, vy⟩ := ND.matmul22 sD hV
  have vx' : ∀ k, ∀ j < χ, x.val [k, j] = U.val [k, j] * ((Real.sqrt (s.getD j 0) : ℝ) : ℂ) := by
    intro k j hj
    rw [vx, Finset.sum_eq_single j]
    · rw [vD j hj j hj, if_pos rfl]
    · intro c hc hne
      rw [vD c (Finset.mem_range.1 hc) j hj, if_neg hne, mul_zero]
    · intro hn
      exact absurd (Finset.mem_range.2 hj) hn
  have vy' : ∀ j < χ, ∀ k, y.val [j, k] = ((Real.sqrt (s.getD j 0) : ℝ) : ℂ) * V.val [j, k] := by
    intro j hj k
    rw [vy, Finset.sum_eq_single j]
    · rw [vD j hj j hj, if_pos rfl]
    · intro c hc hne
      rw [vD j hj c (Finset.mem_range.1 hc), if_neg (Ne.symm hne), zero_mul]
    · intro hn
      exact absurd (Finset.mem_range.2 hj) hn
  obtain ⟨a, e3, sa, va⟩ := diag_mul_left (Y := l.smul ((Real.sqrt dt : ℝ) : ℂ)) (mu := fun _ => ((Real.sqrt dt : ℝ) : ℂ)) hl hvL (by
    intro i hi j hj
    show _ * l.val [i, j] = _
    rw [hlv i hi j hj]
    split_ifs <;> simp)
  obtain ⟨X, e4, sX, vX⟩ := ND.matmul32 sa sx
  obtain ⟨b, e5, sb, vb⟩ := ND.matmul23 (A := y.smul ((Real.sqrt dt : ℝ) : ℂ)) sy hvR
  obtain ⟨Y, e6, sY, vY⟩ := diag_mul_right sb hr hrv
  refine ⟨X, Y, ?_, sX, sY, ?_, ?_⟩
  · unfold FMPS.newLegs
    rw [e1, ok_bind, e2, ok_bind, e3, ok_bind, e4, ok_bind, e5, ok_bind, e6, ok_bind]
  · intro t i hi j hj
    rw [vX, Finset.mul_sum]
    refine Finset.sum_congr rfl fun k _ => ?_
    rw [va _ _ hi, vx' _ _ hj]
    ring
  · intro u j hj c hc
    rw [vY _ _ _ hc, vb, Finset.mul_sum]
    congr 1
    refine Finset.sum_congr rfl fun k _ => ?_
    show _ * y.val [j, k] * _ = _
    rw [vy' j hj]
    ring

/-- the weight of a singular vector -/
noncomputable def legWeight (d n kR : ℕ) (rho : ℕ → ℝ) (vR V : ND ℂ) (j : ℕ) : ℝ :=
  ∑ u ∈ range d, ∑ b ∈ range n, Complex.normSq (∑ k ∈ range kR, V.val [j, k] * vR.val [u, k, b]) * rho b ^ 3

theorem legsNorm_ok {dt : ℝ} (hdt : 0 ≤ dt) (hl : l.shape = [p, p]) (hlv : ∀ i < p, ∀ j < p, l.val [i, j] = if i = j then 1 else 0)
    (hr : r.shape = [n, n]) (hrv : ∀ i < n, ∀ j < n, r.val [i, j] = if i = j then (rho i : ℂ) else 0)
    (hvL : ∀ k1 < kL, ∀ k2 < kL, ∑ s ∈ range d, ∑ a ∈ range p, star (vL.val [s, a, k1]) * vL.val [s, a, k2] = if k1 = k2 then 1 else 0)
    (hU : ∀ i < χ, ∀ j < χ, ∑ k ∈ range kL, star (U.val [k, i]) * U.val [k, j] = if i = j then 1 else 0)
    {s : List ℝ} (hs0 : ∀ j, 0 ≤ s.getD j 0) {X Y : ND ℂ} (sX : X.shape = [d, p, χ]) (sY : Y.shape = [d, χ, n])
    (vX : ∀ t, ∀ a < p, ∀ j < χ, X.val [t, a, j] = ((Real.sqrt dt : ℝ) : ℂ) * ((Real.sqrt (s.getD j 0) : ℝ) : ℂ) * ∑ k ∈ range kL, vL.val [t, a, k] * U.val [k, j])
    (vY : ∀ u, ∀ j < χ, ∀ b < n, Y.val [u, j, b] =
        ((Real.sqrt dt : ℝ) : ℂ) * ((Real.sqrt (s.getD j 0) : ℝ) : ℂ) * (∑ k ∈ range kR, V.val [j, k] * vR.val [u, k, b]) * (rho b : ℂ)) :
    FMPS.legsNorm l r X Y = .ok (dt ^ 2 * ∑ j ∈ range χ, s.getD j 0 ^ 2 * legWeight d n kR rho vR V j) := by
  obtain ⟨sXh, vXh⟩ := hc3 sX
  obtain ⟨sYh, vYh⟩ := hc3 sY
  obtain ⟨a1, e1, sa1, va1⟩ := diag_mul_right (mu := fun _ => 1) sXh hl hlv
  obtain ⟨a2, e2, sa2, va2⟩ := ND.matmul33 sa1 sX
  obtain ⟨a, e3, sa, va⟩ := sum0_ok sa2
  obtain ⟨b1, e4, sb1, vb1⟩ := diag_mul_right sY hr hrv
  obtain ⟨b2, e5, sb2, vb2⟩ := ND.matmul33 sb1 sYh
  obtain ⟨b, e6, sb, vb⟩ := sum0_ok sb2
  obtain ⟨c, e7, sc, vc⟩ := ND.matmul22 sa sb
  have e8 : c.trace 0 1 = .ok (c.traceR 0 1) := by simp [ND.trace, ND.rank, sc]
  have sq : ∀ x : ℝ, 0 ≤ x → ((Real.sqrt x : ℝ) : ℂ) * ((Real.sqrt x : ℝ) : ℂ) = (x : ℂ) := by
    intro x hx
    rw [← Complex.ofReal_mul, Real.mul_self_sqrt hx]
  have sr : ∀ x : ℝ, star ((x : ℝ) : ℂ) = (x : ℂ) := fun x => Complex.conj_ofReal x
  have hav : ∀ i < χ, ∀ j < χ, a.val [i, j] = if i = j then ((dt * s.getD i 0 : ℝ) : ℂ) else 0 := by
    intro i hi j hj
    rw [va]
    have e : ∀ t ∈ range d, a2.val [t, i, j] = ((Real.sqrt dt : ℝ) : ℂ) * ((Real.sqrt dt : ℝ) : ℂ) * (((Real.sqrt (s.getD i 0) : ℝ) : ℂ) * ((Real.sqrt (s.getD j 0) : ℝ) : ℂ)) *
        ∑ k1 ∈ range kL, ∑ k2 ∈ range kL, (star (U.val [k1, i]) * U.val [k2, j]) * ∑ x ∈ range p, star (vL.val [t, x, k1]) * vL.val [t, x, k2] := by
      intro t ht
      rw [va2 t (Finset.mem_range.1 ht)]
      simp only [Finset.mul_sum]
      symm
      rw [sum_swap2]
      refine Finset.sum_congr rfl fun x hx => ?_
      have hx := Finset.mem_range.1 hx
      rw [va1 _ _ _ hx, vXh, vX _ _ hx _ hi, vX _ _ hx _ hj, star_mul', star_mul', star_sum, sr, sr]
      simp only [Finset.mul_sum, Finset.sum_mul]
      rw [Finset.sum_comm]
      refine Finset.sum_congr rfl fun k2 _ => Finset.sum_congr rfl fun k1 _ => ?_
      rw [star_mul']
      ring
    rw [Finset.sum_congr rfl e, ← Finset.mul_sum]
    have e' : ∑ t ∈ range d, ∑ k1 ∈ range kL, ∑ k2 ∈ range kL, (star (U.val [k1, i]) * U.val [k2, j]) * ∑ x ∈ range p, star (vL.val [t, x, k1]) * vL.val [t, x, k2] =
        if i = j then 1 else 0 := by
      rw [← hU i hi j hj, Finset.sum_comm]
      refine Finset.sum_congr rfl fun k1 hk1 => ?_
      rw [Finset.sum_comm, Finset.sum_eq_single k1]
      · rw [← Finset.mul_sum, hvL k1 (Finset.mem_range.1 hk1) k1 (Finset.mem_range.1 hk1), if_pos rfl, mul_one]
      · intro k2 hk2 hne
        rw [← Finset.mul_sum, hvL k1 (Finset.mem_range.1 hk1) k2 (Finset.mem_range.1 hk2), if_neg (Ne.symm hne), mul_zero]
      · intro hn
        exact absurd hk1 hn
    rw [e', sq dt hdt]
    by_cases hij : i = j
    · subst hij
      rw [if_pos rfl, if_pos rfl, sq _ (hs0 i), mul_one, Complex.ofReal_mul]
    · rw [if_neg hij, if_neg hij, mul_zero]
  have hbv : ∀ i < χ, b.val [i, i] = ((dt * s.getD i 0 * legWeight d n kR rho vR V i : ℝ) : ℂ) := by
    intro i hi
    rw [vb]
    unfold legWeight
    rw [Finset.mul_sum, Complex.ofReal_sum]
    refine Finset.sum_congr rfl fun u hu => ?_
    rw [vb2 u (Finset.mem_range.1 hu), Finset.mul_sum, Complex.ofReal_sum]
    refine Finset.sum_congr rfl fun x hx => ?_
    have hx := Finset.mem_range.1 hx
    rw [vb1 _ _ _ hx, vYh, vY _ _ hi _ hx, star_mul', star_mul', star_mul', sr, sr, sr]
    generalize (∑ k ∈ range kR, V.val [i, k] * vR.val [u, k, x]) = z
    have hz : z * star z = ((Complex.normSq z : ℝ) : ℂ) := Complex.mul_conj z
    push_cast
    rw [← hz, ← sq dt hdt, ← sq _ (hs0 i)]
    ring
  have htr : (c.traceR 0 1).val [] = ((dt ^ 2 * ∑ j ∈ range χ, s.getD j 0 ^ 2 * legWeight d n kR rho vR V j : ℝ) : ℂ) := by
    have e : (c.traceR 0 1).val [] = ∑ j ∈ range χ, c.val [j, j] := by
      simp [ND.traceR, ND.rank, sc, ND.dim, ND.transposeR, ND.others, List.range_succ]
    rw [e, Finset.mul_sum, Complex.ofReal_sum]
    refine Finset.sum_congr rfl fun j hj => ?_
    have hj := Finset.mem_range.1 hj
    rw [vc, Finset.sum_eq_single j]
    · rw [hav j hj j hj, if_pos rfl, hbv j hj]
      push_cast
      ring
    · intro k hk hne
      rw [hav j hj k (Finset.mem_range.1 hk), if_neg (Ne.symm hne), zero_mul]
    · intro hn
      exact absurd (Finset.mem_range.2 hj) hn
  unfold FMPS.legsNorm
  rw [e1, ok_bind, e2, ok_bind, e3, ok_bind, e4, ok_bind, e5, ok_bind, e6, ok_bind, e7, ok_bind, e8, ok_bind, htr, Complex.ofReal_re]

theorem legWeight_pos (hpos : ∀ a < n, 0 < rho a)
    (hR : ∀ k1 < kR, ∀ k2 < kR, ∑ s ∈ range d, ∑ a ∈ range n, star (vR.val [s, k1, a]) * vR.val [s, k2, a] = if k1 = k2 then 1 else 0) {j : ℕ}
    (hV : ∑ k ∈ range kR, V.val [j, k] * star (V.val [j, k]) = 1) : 0 < legWeight d n kR rho vR V j := by
  have hnn : ∀ u ∈ range d, 0 ≤ ∑ b ∈ range n, Complex.normSq (∑ k ∈ range kR, V.val [j, k] * vR.val [u, k, b]) * rho b ^ 3 := fun u _ =>
    Finset.sum_nonneg fun b hb => mul_nonneg (Complex.normSq_nonneg _) (pow_pos (hpos b (Finset.mem_range.1 hb)) 3).le
  refine lt_of_le_of_ne (Finset.sum_nonneg hnn) fun h0 => ?_
  have hz : ∀ u < d, ∀ b < n, ∑ k ∈ range kR, V.val [j, k] * vR.val [u, k, b] = 0 := by
    intro u hu b hb
    have h1 := (Finset.sum_eq_zero_iff_of_nonneg hnn).1 h0.symm u (Finset.mem_range.2 hu)
    have h2 := (Finset.sum_eq_zero_iff_of_nonneg fun b hb => mul_nonneg (Complex.normSq_nonneg _) (pow_pos (hpos b (Finset.mem_range.1 hb)) 3).le).1 h1 b (Finset.mem_range.2 hb)
    rcases mul_eq_zero.1 h2 with h | h
    · exact Complex.normSq_eq_zero.1 h
    · exact absurd h (pow_pos (hpos b hb) 3).ne'
  have hone : ∑ u ∈ range d, ∑ b ∈ range n, star (∑ k ∈ range kR, V.val [j, k] * vR.val [u, k, b]) * (∑ k ∈ range kR, V.val [j, k] * vR.val [u, k, b]) = 1 := by
    rw [← hV]
    calc _ = ∑ k1 ∈ range kR, ∑ k2 ∈ range kR, (star (V.val [j, k1]) * V.val [j, k2]) * ∑ u ∈ range d, ∑ b ∈ range n, star (vR.val [u, k1, b]) * vR.val [u, k2, b] := by
          simp only [Finset.mul_sum (s := range d), Finset.mul_sum (s := range n)]
          symm
          rw [sum_swap2]
          refine Finset.sum_congr rfl fun u _ => ?_
          rw [sum_swap2]
          refine Finset.sum_congr rfl fun b _ => ?_
          rw [star_sum, Finset.sum_mul_sum]
          refine Finset.sum_congr rfl fun k1 _ => Finset.sum_congr rfl fun k2 _ => ?_
          rw [star_mul']
          ring
      _ = _ := by
          refine Finset.sum_congr rfl fun k1 hk1 => ?_
          rw [Finset.sum_eq_single k1]
          · rw [hR k1 (Finset.mem_range.1 hk1) k1 (Finset.mem_range.1 hk1), if_pos rfl, mul_one, mul_comm]
          · intro k2 hk2 hne
            rw [hR k1 (Finset.mem_range.1 hk1) k2 (Finset.mem_range.1 hk2), if_neg (Ne.symm hne), mul_zero]
          · intro hn
            exact absurd hk1 hn
  rw [Finset.sum_eq_zero fun u hu => Finset.sum_eq_zero fun b hb => by
    rw [hz u (Finset.mem_range.1 hu) b (Finset.mem_range.1 hb), mul_zero]] at hone
  exact zero_ne_one hone

end

end Xmps
