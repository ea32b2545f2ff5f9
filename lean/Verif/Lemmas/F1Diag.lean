import Verif.Lemmas.F1Value

/-!
# `F1` of a site with itself: the call succeeds, and the result is Hermitian for Hermitian terms
-/

namespace Xmps

open Finset Spec Xmps.Ncon

/-- exchanging two pairs of summation indices -/
theorem sum_pair_swap {s t : Finset ℕ} (g : ℕ → ℕ → ℕ → ℕ → ℂ) :
    ∑ a ∈ s, ∑ b ∈ t, ∑ c ∈ s, ∑ e ∈ t, g a b c e = ∑ a ∈ s, ∑ b ∈ t, ∑ c ∈ s, ∑ e ∈ t, g c e a b := by
  calc _ = ∑ a ∈ s, ∑ c ∈ s, ∑ b ∈ t, ∑ e ∈ t, g a b c e := Finset.sum_congr rfl fun a _ => Finset.sum_comm
    _ = ∑ c ∈ s, ∑ a ∈ s, ∑ b ∈ t, ∑ e ∈ t, g a b c e := Finset.sum_comm
    _ = ∑ c ∈ s, ∑ a ∈ s, ∑ e ∈ t, ∑ b ∈ t, g a b c e := Finset.sum_congr rfl fun c _ => Finset.sum_congr rfl fun a _ => Finset.sum_comm
    _ = _ := Finset.sum_congr rfl fun c _ => Finset.sum_comm

theorem star_ofReal (y : ℝ) : star (y : ℂ) = y := Complex.conj_ofReal y

/-- a Hermitian matrix on pairs of coordinates -/
def Herm4 (T : ND ℂ) (k q : ℕ) : Prop := ∀ a < k, ∀ b < q, ∀ a' < k, ∀ b' < q, star (T.val [a', b', a, b]) = T.val [a, b, a', b']

/-- a Hermitian two-site term with four legs -/
def HermT (d : ℕ) (h : ND ℂ) : Prop := ∀ s < d, ∀ t < d, ∀ u < d, ∀ v < d, star (h.val [u, v, s, t]) = h.val [s, t, u, v]

/-- the entries of the list of `right_transfer` for a tensor with four axes -/
theorem rightTransferList_at (O : SetOrder) {As : List (ND ℂ)} {q1 q2 : ℕ} : ∀ (n m : ℕ) (R : ND ℂ) (b : ℕ → ℕ) (ds : ℕ → ℕ), R.shape = [q1, q2, b 0, b 0] →
    (∀ t < n, ∃ h : m + t < As.length, As[m + t].shape = [ds t, b t, b (t + 1)]) →
    ∃ Rs, FMPS.rightTransferList O 4 As R m n = .ok Rs ∧ ∀ t ≤ n, ∃ T, pyGet Rs t = .ok T ∧ T.shape = [q1, q2, b t, b t] ∧
      ∀ x y, (∀ c < b 0, ∀ c' < b 0, star (R.val [y, x, c', c]) = R.val [x, y, c, c']) →
        ∀ c < b t, ∀ c' < b t, star (T.val [y, x, c', c]) = T.val [x, y, c, c']
  | 0, _, R, _, _, hR, _ => by
    refine ⟨_, rfl, fun t ht => ?_⟩
    obtain rfl : t = 0 := by omega
    exact ⟨R, rfl, hR, fun _ _ => id⟩
  | n + 1, m, R, b, ds, hR, hA => by
    obtain ⟨h0, hA0⟩ := hA 0 (by omega)
    simp only [Nat.add_zero] at h0 hA0
    obtain ⟨W, e, hW, hWv⟩ := rightTransferStep_four O hA0 hR
    obtain ⟨Rs, e2, h2⟩ := rightTransferList_at O (As := As) n (m + 1) W (fun t => b (t + 1)) (fun t => ds (t + 1)) hW (fun t ht => by
      obtain ⟨g, g'⟩ := hA (t + 1) (by omega)
      refine ⟨by omega, ?_⟩
      simp only [show m + 1 + t = m + (t + 1) by omega]
      exact g')
    unfold FMPS.rightTransferList
    rw [pyGet_ok h0, ok_bind, e, ok_bind, e2, ok_bind]
    refine ⟨_, rfl, ?_⟩
    intro t ht
    cases t with
    | zero => exact ⟨R, rfl, hR, fun _ _ => id⟩
    | succ t =>
      obtain ⟨T, t1, t2, t3⟩ := h2 t (by omega)
      refine ⟨T, by rw [← t1]; simp [pyGet], t2, fun x y hH => t3 x y ?_⟩
      intro c _ c' _
      rw [hWv, hWv, star_sum]
      refine Finset.sum_congr rfl fun s _ => ?_
      rw [Finset.sum_comm, star_sum]
      refine Finset.sum_congr rfl fun u hu => ?_
      rw [star_sum]
      refine Finset.sum_congr rfl fun v hv => ?_
      rw [star_mul', star_mul', star_star, hH u (Finset.mem_range.1 hu) v (Finset.mem_range.1 hv)]
      ring

section
variable {x : FMPS ℂ} {ls rs vs Lbs Rds Rus Rbs : List (ND ℂ)} {E : FMPS.InvEnvs} {i j m d p q n k pi qi : ℕ} {A B h h4 icr icl vi vj r l : ND ℂ}

theorem f1After_ok (O : SetOrder) (h4s : h4.shape = [d, d, d, d]) (hA : A.shape = [d, p, q]) (hB : B.shape = [d, q, n])
    (eA : pyGet x.data m = .ok A) (eB : pyGet x.data (m + 1) = .ok B) (er : FMPS.envAt rs ((m : ℤ) + 1) = .ok r) {rh : ℕ → ℝ}
    (hr : DiagM r n fun a => (rh a : ℂ)) (ev : pyGet vs i = .ok vi) (hv : vi.shape = [d, pi, k]) {Lb : ND ℂ} (eL : FMPS.rightAt Lbs i (m : ℤ) = .ok Lb) (hL : Lb.shape = [qi, qi, p, p]) :
    ∃ T, FMPS.f1After O x rs vs Lbs i m h4 = .ok T ∧ T.shape = [k, qi, k, qi] ∧
      (HermT d h4 → (∀ x < qi, ∀ y < qi, ∀ c < p, ∀ c' < p, star (Lb.val [y, x, c', c]) = Lb.val [x, y, c, c']) → Herm4 T k qi) := by
  obtain ⟨Ar, e1, hAr, hArv⟩ := diag_mul_right hB hr.1 hr.2
  obtain ⟨Kr, e2, hK, hKv⟩ := nc_eval O (AA := [Ar, B.conj, A, A.conj, h4]) (v := [[2, 4, 1], [3, 5, 1], [6, -1, 4], [7, -2, 5], [7, 3, 6, 2]])
    (dimOf [(1, n), (2, d), (3, d), (4, q), (5, q), (6, d), (7, d), (-1, p), (-2, p)]) [1, 2, 3, 4, 5, 6, 7] [-1, -2]
    ⟨by simp, by simp [hAr, ND.conj, hA, hB, h4s, dimOf, List.lookup], by simp, by simp, by decide, by decide, by decide, by decide, by decide⟩
    (by decide) (by decide)
  have hK : Kr.shape = [p, p] := by rw [hK]; simp [dimOf, List.lookup]
  obtain ⟨hs, hsv⟩ := hc3 hv
  obtain ⟨vv, e3, hvv, hvvv⟩ := ND.matmul33 hs hv
  obtain ⟨one, e4, h1, h1v⟩ : ∃ one, vv.sum0 = .ok one ∧ one.shape = [k, k] ∧ ∀ a b, one.val [a, b] = ∑ s ∈ range d, vv.val [s, a, b] := by
    simp only [ND.sum0, hvv]
    exact ⟨_, rfl, rfl, fun _ _ => rfl⟩
  obtain ⟨t, e5, ht, htv⟩ : ∃ t, Lb.matmul42 Kr = .ok t ∧ t.shape = [qi, qi, p, p] ∧
      ∀ x y c e, t.val [x, y, c, e] = ∑ u ∈ range p, Lb.val [x, y, c, u] * Kr.val [u, e] := by
    simp only [ND.matmul42, hL, hK, if_true]
    exact ⟨_, rfl, rfl, fun _ _ _ _ => rfl⟩
  obtain ⟨t', e6, ht', htv'⟩ : ∃ t', t.trace 3 2 = .ok t' ∧ t'.shape = [qi, qi] ∧ ∀ x y, t'.val [x, y] = ∑ c ∈ range p, t.val [x, y, c, c] := by
    refine ⟨t.traceR 3 2, by simp [ND.trace, ND.rank, ht], ?_, fun x y => ?_⟩ <;>
    simp [ND.traceR, ND.transposeR, ND.rank, ND.others, ND.dim, ht, List.range_succ]
  obtain ⟨T, e7, hT, hTv⟩ := nc_eval O (AA := [t', one]) (v := [[-2, -4], [-1, -3]])
    (dimOf [(-1, k), (-2, qi), (-3, k), (-4, qi)]) [] [-1, -2, -3, -4]
    ⟨by simp, by simp [ht', h1, dimOf, List.lookup], by simp, by simp, by decide, by decide, by decide, by decide, by decide⟩
    (by decide) (by decide)
  refine ⟨T, ?_, by rw [hT]; simp [dimOf, List.lookup], ?_⟩
  · unfold FMPS.f1After
    rw [eA, ok_bind, eB, ok_bind, er, ok_bind, e1, ok_bind, e2, ok_bind, ev, ok_bind, e3, ok_bind, e4, ok_bind, eL, ok_bind, e5, ok_bind, e6, ok_bind, e7]
  intro hh hLb
  have vT : ∀ a b a' b', T.val [a, b, a', b'] = t'.val [b, b'] * one.val [a, a'] := by
    intro a b a' b'
    rw [hTv _ rfl]
    simp [labelSum, netTerm, assign, dimOf, List.lookup, Function.update]
  have vK : ∀ a b, Kr.val [a, b] = ∑ c ∈ range n, ∑ s2 ∈ range d, ∑ s3 ∈ range d, ∑ y4 ∈ range q, ∑ y5 ∈ range q, ∑ s6 ∈ range d, ∑ s7 ∈ range d,
      Ar.val [s2, y4, c] * (star (B.val [s3, y5, c]) * (A.val [s6, a, y4] * (star (A.val [s7, b, y5]) * h4.val [s7, s3, s6, s2]))) := by
    intro a b
    rw [hKv _ rfl]
    simp [labelSum, netTerm, assign, dimOf, List.lookup, Function.update, ND.conj]
  have hermK : ∀ a b, star (Kr.val [b, a]) = Kr.val [a, b] := by
    intro a b
    rw [vK, vK, star_sum]
    refine Finset.sum_congr rfl fun c hc => ?_
    rw [Finset.sum_comm, star_sum]
    refine Finset.sum_congr rfl fun s2 h2 => ?_
    rw [star_sum]
    refine Finset.sum_congr rfl fun s3 h3 => ?_
    rw [Finset.sum_comm, star_sum]
    refine Finset.sum_congr rfl fun y4 hy4 => ?_
    rw [star_sum]
    refine Finset.sum_congr rfl fun y5 h5 => ?_
    rw [Finset.sum_comm, star_sum]
    refine Finset.sum_congr rfl fun s6 h6 => ?_
    rw [star_sum]
    refine Finset.sum_congr rfl fun s7 h7 => ?_
    simp only [Finset.mem_range] at hc h2 h3 hy4 h5 h6 h7
    simp only [hArv _ _ _ hc, star_mul', star_star, hh _ h7 _ h3 _ h6 _ h2, star_ofReal]
    ring
  have herm1 : ∀ a b, star (one.val [b, a]) = one.val [a, b] := by
    intro a b
    rw [h1v, h1v, star_sum]
    refine Finset.sum_congr rfl fun s h => ?_
    rw [hvvv _ (Finset.mem_range.1 h), hvvv _ (Finset.mem_range.1 h), star_sum]
    refine Finset.sum_congr rfl fun y _ => ?_
    rw [hsv, hsv, star_mul', star_star]
    ring
  have hermt : ∀ b < qi, ∀ b' < qi, star (t'.val [b', b]) = t'.val [b, b'] := by
    intro b hb b' hb'
    rw [htv', htv', star_sum]
    simp only [htv, star_sum]
    rw [Finset.sum_comm]
    refine Finset.sum_congr rfl fun c hc => Finset.sum_congr rfl fun e he => ?_
    rw [star_mul', hLb b hb b' hb' c (Finset.mem_range.1 hc) e (Finset.mem_range.1 he), hermK]
  intro a ha b hb a' ha' b' hb'
  rw [vT, vT, star_mul', hermt b hb b' hb', herm1]

theorem f1Term_self (O : SetOrder) (h4s : h4.shape = [d, d, d, d]) (hB : B.shape = [d, q, n])
    (eA : pyGet x.data i = .ok A) (eB : pyGet x.data (i + 1) = .ok B) (er : FMPS.envAt rs ((i : ℤ) + 1) = .ok r) {rh : ℕ → ℝ}
    (hr : DiagM r n fun a => (rh a : ℂ)) (ev : pyGet vs i = .ok vi) (hv : vi.shape = [d, p, k]) (ei : pyGet E.icr i = .ok icr) {ka : ℕ → ℝ}
    (hi : DiagM icr q fun a => (ka a : ℂ)) :
    ∃ T, FMPS.f1Term O x ls rs vs E Rds Rus Rbs i i i h4 = .ok T ∧ T.shape = [k, q, k, q] ∧ (HermT d h4 → Herm4 T k q) := by
  obtain ⟨Bc, e1, hBc, hBcv⟩ := diag_mul_left (V := B.conj) hi.1 hB hi.2
  obtain ⟨B', e2, hB', hBv'⟩ := diag_mul_left hi.1 hB hi.2
  obtain ⟨Br, e3, hBr, hBrv⟩ := diag_mul_right hB' hr.1 hr.2
  obtain ⟨T, e4, hT, hTv⟩ := nc_eval O (AA := [vi, Br, h4, vi.conj, Bc]) (v := [[5, 1, -3], [6, -4, 2], [5, 6, 3, 4], [3, 1, -1], [4, -2, 2]])
    (dimOf [(1, p), (2, n), (3, d), (4, d), (5, d), (6, d), (-1, k), (-2, q), (-3, k), (-4, q)]) [1, 2, 3, 4, 5, 6] [-1, -2, -3, -4]
    ⟨by simp, by simp [hBr, hBc, hv, ND.conj, h4s, dimOf, List.lookup], by simp, by simp, by decide, by decide, by decide, by decide, by decide⟩
    (by decide) (by decide)
  refine ⟨T, ?_, by rw [hT]; simp [dimOf, List.lookup], ?_⟩
  · unfold FMPS.f1Term
    rw [eA, ok_bind, eB, ok_bind, if_pos rfl, ei, ok_bind, ev, ok_bind, e1, ok_bind, if_pos rfl, e2, ok_bind, er, ok_bind, e3, ok_bind, e4]
  intro hh a ha b hb a' ha' b' hb'
  have vT : ∀ a b a' b', T.val [a, b, a', b'] = ∑ y ∈ range p, ∑ c ∈ range n, ∑ s3 ∈ range d, ∑ s4 ∈ range d, ∑ s5 ∈ range d, ∑ s6 ∈ range d,
      vi.val [s5, y, a'] * (Br.val [s6, b', c] * (h4.val [s5, s6, s3, s4] * (star (vi.val [s3, y, a]) * Bc.val [s4, b, c]))) := by
    intro a b a' b'
    rw [hTv _ rfl]
    simp [labelSum, netTerm, assign, dimOf, List.lookup, Function.update, ND.conj]
  rw [vT, vT, star_sum]
  refine Finset.sum_congr rfl fun y _ => ?_
  rw [star_sum]
  refine Finset.sum_congr rfl fun c hc => ?_
  rw [sum_pair_swap]
  simp only [star_sum]
  refine Finset.sum_congr rfl fun s3 h3 => Finset.sum_congr rfl fun s4 hs4 => Finset.sum_congr rfl fun s5 h5 => Finset.sum_congr rfl fun s6 h6 => ?_
  simp only [Finset.mem_range] at hc h3 hs4 h5 h6
  simp only [hBrv _ _ _ hc, hBv' _ _ hb, hBv' _ _ hb', hBcv _ _ hb, hBcv _ _ hb', ND.conj, star_mul', star_star, hh _ h5 _ h6 _ h3 _ hs4, star_ofReal]
  ring

theorem f1Term_before (O : SetOrder) (h4s : h4.shape = [d, d, d, d]) (hA : A.shape = [d, p, q])
    (eA : pyGet x.data m = .ok A) (eB : pyGet x.data (m + 1) = .ok B) (er : FMPS.envAt rs ((m : ℤ) + 1) = .ok r) (hr : r.shape = [n, n])
    (el : FMPS.envAt ls ((m : ℤ) - 1) = .ok l) {la : ℕ → ℝ} (hl : DiagM l p fun a => (la a : ℂ))
    (ev : pyGet vs (m + 1) = .ok vi) (hv : vi.shape = [d, q, k]) (ei : pyGet E.icl m = .ok icl) {ka : ℕ → ℝ} (hi : DiagM icl q fun a => (ka a : ℂ)) :
    ∃ T, FMPS.f1Term O x ls rs vs E Rds Rus Rbs (m + 1) (m + 1) m h4 = .ok T ∧ T.shape = [k, n, k, n] ∧ (HermT d h4 → Herm4 T k n) := by
  obtain ⟨lA, e1, hlA, hlAv⟩ := diag_mul_left hl.1 hA hl.2
  obtain ⟨wc, e2, hwc, hwcv⟩ := diag_mul_left (V := vi.conj) hi.1 hv hi.2
  obtain ⟨w, e3, hw, hwv⟩ := diag_mul_left hi.1 hv hi.2
  obtain ⟨T, e4, hT, hTv⟩ := nc_eval O (AA := [lA, w, h4, A.conj, wc, eyeND (r.dim 0)]) (v := [[7, 1, 2], [8, 2, -3], [5, 6, 7, 8], [5, 1, 3], [6, 3, -1], [-2, -4]])
    (dimOf [(1, p), (2, q), (3, q), (5, d), (6, d), (7, d), (8, d), (-1, k), (-2, n), (-3, k), (-4, n)]) [1, 2, 3, 5, 6, 7, 8] [-1, -2, -3, -4]
    ⟨by simp, by simp [hlA, hw, hwc, hA, ND.conj, h4s, eyeND, ND.dim, hr, dimOf, List.lookup], by simp, by simp, by decide, by decide, by decide, by decide, by decide⟩
    (by decide) (by decide)
  refine ⟨T, ?_, by rw [hT]; simp [dimOf, List.lookup], ?_⟩
  · unfold FMPS.f1Term
    rw [eA, ok_bind, eB, ok_bind, if_neg (by omega), if_pos rfl, el, ok_bind, e1, ok_bind, ei, ok_bind, ev, ok_bind, e2, ok_bind, if_pos rfl, e3, ok_bind, er,
      ok_bind, e4]
  intro hh a ha b hb a' ha' b' hb'
  have vT : ∀ a b a' b', T.val [a, b, a', b'] = ∑ y ∈ range p, ∑ y2 ∈ range q, ∑ y3 ∈ range q, ∑ s5 ∈ range d, ∑ s6 ∈ range d, ∑ s7 ∈ range d, ∑ s8 ∈ range d,
      lA.val [s7, y, y2] * (w.val [s8, y2, a'] * (h4.val [s5, s6, s7, s8] * (star (A.val [s5, y, y3]) * (wc.val [s6, y3, a] * if b = b' then 1 else 0)))) := by
    intro a b a' b'
    rw [hTv _ rfl]
    simp [labelSum, netTerm, assign, dimOf, List.lookup, Function.update, ND.conj, eyeND]
  rw [vT, vT, star_sum]
  refine Finset.sum_congr rfl fun y hy => ?_
  rw [Finset.sum_comm, star_sum]
  refine Finset.sum_congr rfl fun y2 h2 => ?_
  rw [star_sum]
  refine Finset.sum_congr rfl fun y3 h3 => ?_
  rw [sum_pair_swap]
  simp only [star_sum]
  refine Finset.sum_congr rfl fun s5 h5 => Finset.sum_congr rfl fun s6 h6 => Finset.sum_congr rfl fun s7 h7 => Finset.sum_congr rfl fun s8 h8 => ?_
  simp only [Finset.mem_range] at hy h2 h3 h5 h6 h7 h8
  have hd : star (if b' = b then (1 : ℂ) else 0) = if b = b' then 1 else 0 := by
    by_cases hbb : b = b'
    · simp [hbb]
    · simp [hbb, Ne.symm hbb]
  simp only [hlAv _ _ hy, hwv _ _ h2, hwv _ _ h3, hwcv _ _ h2, hwcv _ _ h3, ND.conj, star_mul', star_star, hh _ h5 _ h6 _ h7 _ h8, hd, star_ofReal]
  ring

theorem f1Term_left (O : SetOrder) (h4v : Four d h h4) (hA : A.shape = [d, p, q]) (hB : B.shape = [d, q, n]) (hmi : m + 1 < i)
    (eA : pyGet x.data m = .ok A) (eB : pyGet x.data (m + 1) = .ok B) (er : FMPS.envAt rs (i : ℤ) = .ok r) (hr : r.shape = [qi, qi])
    (el : FMPS.envAt ls ((m : ℤ) - 1) = .ok l) {la : ℕ → ℝ} (hl : DiagM l p fun a => (la a : ℂ)) {Q : ND ℂ} (eQ : FMPS.leftAt Rbs 0 ((m : ℤ) + 2) = .ok Q) (hQ : Q.shape = [n, n, k, k]) :
    ∃ T, FMPS.f1Term O x ls rs vs E Rds Rus Rbs i i m h4 = .ok T ∧ T.shape = [k, qi, k, qi] ∧
      (HermT d h4 → (∀ c < n, ∀ c' < n, ∀ a < k, ∀ a' < k, star (Q.val [c', c, a', a]) = Q.val [c, c', a, a']) → Herm4 T k qi) := by
  obtain ⟨C, e1, hC, hCv⟩ := nc_C O h4v hA hB
  obtain ⟨lA, e2, hlA, hlAv⟩ := diag_mul_left (V := A.conj) hl.1 hA hl.2
  obtain ⟨Kt, e3, hK, hKv⟩ := nc_K O hlA hB hC
  obtain ⟨Lt, e4, hL, hLv⟩ : ∃ R, Kt.tensordot Q [0, 1] [0, 1] = .ok R ∧ R.shape = [k, k] ∧
      ∀ a a', R.val [a, a'] = ∑ c ∈ range n, ∑ c' ∈ range n, Kt.val [c, c'] * Q.val [c, c', a, a'] := by
    refine ⟨Kt.tensordotR Q [0, 1] [0, 1], by simp [ND.tensordot, ND.rank, ND.dim, hK, hQ], ?_, fun a a' => ?_⟩ <;>
    simp [ND.tensordotR, ND.transposeR, ND.rank, ND.others, ND.dim, hK, hQ, List.range_succ]
  obtain ⟨T, e5, hT, hTv⟩ := nc_eval O (AA := [Lt, eyeND (r.dim 0)]) (v := [[-1, -3], [-2, -4]])
    (dimOf [(-1, k), (-2, qi), (-3, k), (-4, qi)]) [] [-1, -2, -3, -4]
    ⟨by simp, by simp [hL, eyeND, ND.dim, hr, dimOf, List.lookup], by simp, by simp, by decide, by decide, by decide, by decide, by decide⟩
    (by decide) (by decide)
  refine ⟨T, ?_, by rw [hT]; simp [dimOf, List.lookup], ?_⟩
  · unfold FMPS.f1Term
    rw [eA, ok_bind, eB, ok_bind, if_neg (by omega), if_neg (by omega), e1, ok_bind, el, ok_bind, e2, ok_bind, e3, ok_bind, if_pos rfl, eQ, ok_bind, e4, ok_bind,
      er, ok_bind, e5]
  intro hh hQH
  have vT : ∀ a b a' b', T.val [a, b, a', b'] = Lt.val [a, a'] * if b = b' then 1 else 0 := by
    intro a b a' b'
    rw [hTv _ rfl]
    simp [labelSum, netTerm, assign, dimOf, List.lookup, Function.update, eyeND]
  set P := fun u v a e => ∑ y ∈ range q, A.val [u, a, y] * B.val [v, y, e] with hP
  have vK : ∀ c c', Kt.val [c, c'] = ∑ a ∈ range p, ∑ u ∈ range d, ∑ v ∈ range d, ∑ s ∈ range d, ∑ t ∈ range d,
      (la a : ℂ) * star (P u v a c') * (h4.val [u, v, s, t] * P s t a c) := by
    intro c c'
    rw [hKv, ← sum_swap2 (fun u v a => ∑ s ∈ range d, ∑ t ∈ range d, (la a : ℂ) * star (P u v a c') * (h4.val [u, v, s, t] * P s t a c))]
    refine Finset.sum_congr rfl fun u hu => Finset.sum_congr rfl fun v hv => Finset.sum_congr rfl fun a ha => ?_
    simp only [Finset.mem_range] at hu hv ha
    simp only [← Finset.mul_sum]
    rw [← Finset.sum_mul, hCv u hu v hv]
    congr 1
    · rw [hP]
      simp only
      rw [star_sum, Finset.mul_sum]
      refine Finset.sum_congr rfl fun y _ => ?_
      rw [hlAv _ _ ha, star_mul']
      simp only [ND.conj]
      ring
    · unfold Xmps.hAA
      refine Finset.sum_congr rfl fun s hs => Finset.sum_congr rfl fun t ht => ?_
      rw [h4v.2 u hu v hv s (Finset.mem_range.1 hs) t (Finset.mem_range.1 ht)]
  have hermK : ∀ c c', star (Kt.val [c', c]) = Kt.val [c, c'] := by
    intro c c'
    rw [vK, vK, star_sum]
    refine Finset.sum_congr rfl fun a _ => ?_
    rw [sum_pair_swap]
    simp only [star_sum]
    refine Finset.sum_congr rfl fun u hu => Finset.sum_congr rfl fun v hv => Finset.sum_congr rfl fun s hs => Finset.sum_congr rfl fun t ht => ?_
    simp only [Finset.mem_range] at hu hv hs ht
    simp only [star_mul', star_star, hh _ hu _ hv _ hs _ ht, star_ofReal]
    ring
  have hermL : ∀ a < k, ∀ a' < k, star (Lt.val [a', a]) = Lt.val [a, a'] := by
    intro a ha a' ha'
    rw [hLv, hLv, Finset.sum_comm]
    simp only [star_sum]
    refine Finset.sum_congr rfl fun c hc => Finset.sum_congr rfl fun c' hc' => ?_
    rw [star_mul', hermK, hQH c (Finset.mem_range.1 hc) c' (Finset.mem_range.1 hc') a ha a' ha']
  intro a ha b hb a' ha' b' hb'
  rw [vT, vT, star_mul', hermL a ha a' ha']
  congr 1
  by_cases hbb : b = b'
  · simp [hbb]
  · simp [hbb, Ne.symm hbb]

theorem f1Loop_diag {O : SetOrder} : ∀ (hs : List (ND ℂ × ℕ)) (G : ND ℂ), G.shape = [k, q, k, q] →
      (∀ hm ∈ hs, hm.2 ≤ i → ∃ T, FMPS.f1Term O x ls rs vs E Rds Rus Rbs i i hm.2 hm.1 = .ok T ∧ T.shape = [k, q, k, q] ∧ (HermT d hm.1 → Herm4 T k q)) →
      (∀ hm ∈ hs, i < hm.2 → ∃ T, FMPS.f1After O x rs vs Lbs i hm.2 hm.1 = .ok T ∧ T.shape = [k, q, k, q] ∧ (HermT d hm.1 → Herm4 T k q)) →
      ∃ G', FMPS.f1Loop O x ls rs vs E Lbs Rds Rus Rbs i i hs G = .ok G' ∧ G'.shape = [k, q, k, q] ∧
        ((∀ hm ∈ hs, HermT d hm.1) → Herm4 G k q → Herm4 G' k q)
  | [], G, hG, _, _ => ⟨G, rfl, hG, fun _ h => h⟩
  | (h, m) :: hs, G, hG, h1, h2 => by
    unfold FMPS.f1Loop
    by_cases hm : m ≤ i
    · obtain ⟨T, w1, w2, w3⟩ := h1 (h, m) (by simp) hm
      rw [if_neg (by omega), show FMPS.f1Term O x ls rs vs E Rds Rus Rbs i i m h = .ok T from w1, ok_bind]
      simp only [ND.zipNd, hG, w2, if_true, ok_bind]
      obtain ⟨G', g1, g2, g3⟩ := f1Loop_diag hs ⟨[k, q, k, q], fun idx => G.val idx + T.val idx⟩ rfl (fun hm h' => h1 hm (List.mem_cons_of_mem _ h'))
        (fun hm h' => h2 hm (List.mem_cons_of_mem _ h'))
      refine ⟨G', g1, g2, fun hh hG => g3 (fun hm h' => hh hm (List.mem_cons_of_mem _ h')) ?_⟩
      intro a ha b hb a' ha' b' hb'
      simp only [star_add]
      rw [hG a ha b hb a' ha' b' hb', w3 (hh (h, m) (by simp)) a ha b hb a' ha' b' hb']
    · obtain ⟨T, w1, w2, w3⟩ := h2 (h, m) (by simp) (by simp only; omega)
      rw [if_pos (by omega), if_pos rfl, show FMPS.f1After O x rs vs Lbs i m h = .ok T from w1, ok_bind]
      simp only [ND.zipNd, hG, w2, if_true, ok_bind]
      obtain ⟨G', g1, g2, g3⟩ := f1Loop_diag hs ⟨[k, q, k, q], fun idx => G.val idx + T.val idx⟩ rfl (fun hm h' => h1 hm (List.mem_cons_of_mem _ h'))
        (fun hm h' => h2 hm (List.mem_cons_of_mem _ h'))
      refine ⟨G', g1, g2, fun hh hG => g3 (fun hm h' => hh hm (List.mem_cons_of_mem _ h')) ?_⟩
      intro a ha b hb a' ha' b' hb'
      simp only [star_add]
      rw [hG a ha b hb a' ha' b' hb', w3 (hh (h, m) (by simp)) a ha b hb a' ha' b' hb']

end

section
variable {L d : ℕ} {x : FMPS ℂ} {ls rs : List (ND ℂ)} {E : FMPS.InvEnvs} {N : ℝ} {vL l r : ℕ → ND ℂ} {p q k : ℕ → ℕ} {lam rho : ℕ → ℕ → ℝ} {i j : ℕ}

theorem F2Ctx.f1Site_at (c : F2Ctx L d x ls rs E N vL l r p q k lam rho) (O : SetOrder) (hi : i < L) :
    ∃ Lbs Rds, FMPS.f1Site O x ((List.range L).map vL) E i = .ok (Lbs, Rds) ∧
      ∀ m, i < m → m < L → ∃ T, FMPS.rightAt Lbs i (m : ℤ) = .ok T ∧ T.shape = [q i, q i, p m, p m] ∧
        ∀ x < q i, ∀ y < q i, ∀ c < p m, ∀ c' < p m, star (T.val [y, x, c', c]) = T.val [x, y, c, c'] := by
  have hl := c.len
  have hs := c.site i (by omega)
  have hxL : x.L = L := by rw [c.hx.len]; simp
  obtain ⟨icl, u, Ri, Ris, e1, e2, e3, e4, -⟩ := c.ris_gen O hi
  obtain ⟨icr, e5, hicr⟩ := c.icr i hi
  obtain ⟨op, e6, hop, hopv⟩ := nc_eval O (AA := [icr, icr]) (v := [[-1, -3], [-2, -4]])
    (dimOf [(-1, q i), (-2, q i), (-3, q i), (-4, q i)]) [] [-1, -2, -3, -4]
    ⟨by simp, by simp [hicr.1, dimOf, List.lookup], by simp, by simp, by decide, by decide, by decide, by decide, by decide⟩
    (by decide) (by decide)
  have hop : op.shape = [q i, q i, q i, q i] := by rw [hop]; simp [dimOf, List.lookup]
  obtain ⟨Lbs, e7, h7⟩ := rightTransferList_at O (As := x.data) (q1 := q i) (q2 := q i) (L - 1 - i) (i + 1) op (fun t => q (i + t)) (fun _ => d) hop (by
    intro t ht
    refine ⟨by omega, ?_⟩
    have h1 := (c.site (i + 1 + t) (by omega)).hA
    rw [h1]
    have h2 := c.link (i := i + t) (by omega)
    rw [show i + 1 + t = i + t + 1 by omega, ← h2]
    rfl)
  refine ⟨Lbs, Ris, ?_, ?_⟩
  · unfold FMPS.f1Site FMPS.rightTransfer
    rw [e1, ok_bind, c.vs hi, ok_bind, e2, ok_bind, pyGet_ok (by omega : i < x.data.length), ok_bind, e3, ok_bind, e5, ok_bind, e6, ok_bind,
      show op.rank = 4 by simp [ND.rank, hop], hxL, e7, ok_bind, e4, ok_bind]
  · intro m hm hmL
    obtain ⟨T, t1, t2, t3⟩ := h7 (m - i - 1) (by omega)
    have hqm : q (i + (m - i - 1)) = p m := by
      have := c.link (i := i + (m - i - 1)) (by omega)
      rwa [show i + (m - i - 1) + 1 = m by omega] at this
    refine ⟨T, ?_, ?_, ?_⟩
    · unfold FMPS.rightAt pyGetI
      rw [if_pos (by omega), show ((m : ℤ) - i - 1).toNat = m - i - 1 by omega]
      exact t1
    · rw [t2, hqm]
    · intro x' hx' y' hy' e he e' he'
      refine t3 x' y' ?_ e (by rw [hqm]; exact he) e' (by rw [hqm]; exact he')
      intro e he e' he'
      have vo : ∀ x y c c', op.val [x, y, c, c'] = icr.val [x, c] * icr.val [y, c'] := by
        intro x y c c'
        rw [hopv _ rfl]
        simp [labelSum, netTerm, assign, List.lookup, Function.update]
      have hre : ∀ x < q i, ∀ e < q i, star (icr.val [x, e]) = icr.val [x, e] := by
        intro x hx e he
        rw [hicr.2 x hx e he]
        split_ifs
        · rw [star_ofReal]
        · simp
      rw [vo, vo, star_mul', hre _ hx' _ he, hre _ hy' _ he']
      ring

theorem F2Ctx.f1Far_at (c : F2Ctx L d x ls rs E N vL l r p q k lam rho) (O : SetOrder) (hj : j < L) :
    ∃ Rus Rbs, FMPS.f1Far O x ((List.range L).map vL) E j = .ok (Rus, Rbs) ∧
      ∀ n ≤ j, ∃ T, FMPS.leftAt Rbs 0 (n : ℤ) = .ok T ∧ T.shape = [p n, p n, k j, k j] ∧
        (0 < j → ∀ e < p n, ∀ e' < p n, ∀ a < k j, ∀ a' < k j, star (T.val [e', e, a', a]) = T.val [e, e', a, a']) := by
  have hl := c.len
  have hs := c.site j (by omega)
  obtain ⟨icl, nu, e1, hicl, hnu⟩ : ∃ X nu, pyGetI E.icl ((j : ℤ) - 1) = .ok X ∧ DiagM X (p j) nu ∧ (0 < j → ∀ a, star (nu a) = nu a) := by
    rcases Nat.eq_zero_or_pos j with rfl | h0
    · obtain ⟨X, nu, h1, h2⟩ := c.icl0 hj
      exact ⟨X, nu, h1, h2, fun h => absurd h (by omega)⟩
    · obtain ⟨X, h1, h2⟩ := c.icl j hj h0
      exact ⟨X, _, h1, h2, fun _ a => star_ofReal _⟩
  obtain ⟨cr, e2, hcr⟩ := c.cr j hj
  obtain ⟨u, e3, hu, huv⟩ := diag_mul_left (V := vL j) hicl.1 hs.basis.shape hicl.2
  obtain ⟨uc, e3', huc, hucv⟩ := diag_mul_left (V := (vL j).conj) hicl.1 hs.basis.shape hicl.2
  obtain ⟨w, e4, hw, hwv⟩ := diag_mul_right (V := x.data[j].conj) hs.hA hcr.1 hcr.2
  obtain ⟨Rj, e5, hR, -⟩ := nc_eval O (AA := [u, w]) (v := [[1, -1, -3], [1, -2, -4]])
    (dimOf [(1, d), (-1, p j), (-2, p j), (-3, k j), (-4, q j)]) [1] [-1, -2, -3, -4]
    ⟨by simp, by simp [hu, hw, dimOf, List.lookup], by simp, by simp, by decide, by decide, by decide, by decide, by decide⟩
    (by decide) (by decide)
  have hR : Rj.shape = p j :: p j :: [k j, q j] := by rw [hR]; simp [dimOf, List.lookup]
  obtain ⟨Rb, e5', hRb, hRbv⟩ := nc_eval O (AA := [uc, u]) (v := [[1, -1, -3], [1, -2, -4]])
    (dimOf [(1, d), (-1, p j), (-2, p j), (-3, k j), (-4, k j)]) [1] [-1, -2, -3, -4]
    ⟨by simp, by simp [hu, huc, dimOf, List.lookup], by simp, by simp, by decide, by decide, by decide, by decide, by decide⟩
    (by decide) (by decide)
  have hRb : Rb.shape = p j :: p j :: [k j, k j] := by rw [hRb]; simp [dimOf, List.lookup]
  obtain ⟨Rus, e6, -⟩ := FMPS.leftTransfer_spec c.hx (j := 0) (i := j) (by omega) (by simp; omega) hs.hp hR
  obtain ⟨Rbs, e6', hRbs⟩ := FMPS.leftTransfer_spec c.hx (j := 0) (i := j) (by omega) (by simp; omega) hs.hp hRb
  refine ⟨Rus, Rbs, ?_, ?_⟩
  · unfold FMPS.f1Far
    rw [e1, ok_bind, c.vs hj, ok_bind, e3, ok_bind, pyGet_ok (by omega : j < x.data.length), ok_bind, e2, ok_bind, e4, ok_bind, e5, ok_bind, e3', ok_bind, e5',
      ok_bind, e6, ok_bind, e6', ok_bind]
  · intro n hn
    obtain ⟨T, b, t1, t2, t3, t4⟩ := hRbs n (by omega) hn
    obtain rfl := chain_bond_unique t2 (c.site n (by omega)).hp
    refine ⟨T, by exact_mod_cast t1, t3, ?_⟩
    intro h0 e he e' he' a ha a' ha'
    have vR : ∀ e e' a a', Rb.val [e, e', a, a'] = ∑ s ∈ range d, uc.val [s, e, a] * u.val [s, e', a'] := by
      intro e e' a a'
      rw [hRbv _ rfl]
      simp [labelSum, netTerm, assign, dimOf, List.lookup, Function.update]
    have hermR : ∀ e < p j, ∀ e' < p j, star (Rb.val [e', e, a', a]) = Rb.val [e, e', a, a'] := by
      intro e he e' he'
      rw [vR, vR, star_sum]
      refine Finset.sum_congr rfl fun s _ => ?_
      rw [hucv _ _ he, hucv _ _ he', huv _ _ he, huv _ _ he']
      simp only [ND.conj, star_mul', star_star, hnu h0]
      ring
    rw [t4 e he e' he' [a, a'] (by simp [InB, ha, ha']), t4 e' he' e he [a', a] (by simp [InB, ha, ha'])]
    unfold pullBack
    rw [sumIdx_star]
    refine sumIdx_congr fun s _ => ?_
    rw [Finset.sum_comm]
    simp only [star_sum]
    refine Finset.sum_congr rfl fun c1 h1 => Finset.sum_congr rfl fun c2 h2 => ?_
    rw [star_mul', star_mul', star_star, hermR c1 (Finset.mem_range.1 h1) c2 (Finset.mem_range.1 h2)]
    ring

/-- `F1(i, i)` returns an array of the expected shape -/
theorem F2Ctx.f1diag (c : F2Ctx L 2 x ls rs E N vL l r p q k lam rho) (O : SetOrder) (hi : i < L) {H : List (ND ℂ)} (hL : H.length < L)
    (hH : ∀ h ∈ H, h.shape = [4, 4]) :
    ∃ G, FMPS.f1Sorted O x ls rs ((List.range L).map vL) E H i i = .ok G ∧ G.shape = [k i, q i, k i, q i] ∧
      ((∀ h ∈ H, ∀ a < 4, ∀ b < 4, star (h.val [b, a]) = h.val [a, b]) → Herm4 G (k i) (q i)) := by
  have hl := c.len
  have hsi := c.site i (by omega)
  have eH : (H.mapM fun h => h.reshape [2, 2, 2, 2]) = .ok (H.map fun h => h.reshapeR [2, 2, 2, 2]) := by
    refine mapM_ok ?_
    intro h hh
    rw [ND.reshape_ok (by rw [hH h hh]; simp)]
  obtain ⟨Lbs, Rds, e1, hLbs⟩ := c.f1Site_at O (i := i) hi
  obtain ⟨Rus, Rbs, e2, hRbs⟩ := c.f1Far_at O (j := i) hi
  unfold FMPS.f1Sorted
  rw [c.coord (by omega), ok_bind]
  simp only
  rw [ok_bind]
  simp only
  rw [pyGet_ok (by omega : i < x.data.length), ok_bind, dim0 hsi.hA, dim1 hsi.hA, dim2 hsi.hA]
  by_cases hq : 2 * p i = q i
  · rw [if_pos hq]
    refine ⟨_, rfl, rfl, fun _ a ha b hb a' ha' b' hb' => ?_⟩
    simp [zerosND]
  · rw [if_neg hq, eH, ok_bind, e1, ok_bind]
    simp only
    rw [e2, ok_bind]
    simp only
    have hmem : ∀ hm ∈ (H.map fun h => h.reshapeR [2, 2, 2, 2]).zipIdx.reverse, hm.2 < H.length ∧ ∃ h ∈ H, Four 2 h hm.1 := by
      rintro ⟨h4, m⟩ hm
      rw [List.mem_reverse] at hm
      obtain ⟨hm1, hm2⟩ := List.mem_zipIdx' hm
      rw [List.length_map] at hm1
      refine ⟨hm1, H[m], List.getElem_mem hm1, ?_⟩
      rw [hm2, List.getElem_map]
      exact four_reshape (hH _ (List.getElem_mem hm1))
    have fin : (∃ G, FMPS.f1Loop O x ls rs ((List.range L).map vL) E Lbs Rds Rus Rbs i i (H.map fun h => h.reshapeR [2, 2, 2, 2]).zipIdx.reverse
        (zerosND [k i, q i, k i, q i]) = .ok G ∧ G.shape = [k i, q i, k i, q i] ∧
        ((∀ hm ∈ (H.map fun h => h.reshapeR [2, 2, 2, 2]).zipIdx.reverse, HermT 2 hm.1) → Herm4 (zerosND [k i, q i, k i, q i]) (k i) (q i) →
          Herm4 G (k i) (q i))) := ?_
    · obtain ⟨G, g1, g2, g3⟩ := fin
      refine ⟨G, g1, g2, fun hh => g3 ?_ ?_⟩
      · intro hm hmm
        obtain ⟨-, h, hin, h4v⟩ := hmem hm hmm
        intro s hs t ht u hu v hv
        rw [h4v.2 u hu v hv s hs t ht, h4v.2 s hs t ht u hu v hv]
        exact hh h hin _ (by omega) _ (by omega)
      · intro a ha b hb a' ha' b' hb'
        simp [zerosND]
    refine f1Loop_diag _ _ rfl ?_ ?_
    · rintro ⟨h4, m⟩ hm hmi
      obtain ⟨hm1, h, -, h4v⟩ : m < H.length ∧ ∃ h ∈ H, Four 2 h h4 := hmem _ hm
      replace hmi : m ≤ i := hmi
      have hsm := c.site m (by omega)
      have hsm1 := c.site (m + 1) (by omega)
      have hlk := c.link (i := m) (by omega)
      have hB : x.data[m + 1].shape = [2, q m, q (m + 1)] := by rw [hlk]; exact hsm1.hA
      rcases Nat.lt_trichotomy (m + 1) i with h' | h' | h'
      · obtain ⟨Q, g1, g2, g3⟩ := hRbs (m + 2) (by omega)
        have := c.link (i := m + 1) (by omega)
        rw [← this] at g2 g3
        obtain ⟨T, t1, t2, t3⟩ := f1Term_left (vs := (List.range L).map vL) (E := E) (Rds := Rds) (Rus := Rus) (Rbs := Rbs) (k := k i) O h4v hsm.hA hB h' (pyGet_ok _) (pyGet_ok _) hsi.er hsi.hr hsm.el ⟨hsm.hl, hsm.hlv⟩ (Q := Q)
          (by exact_mod_cast g1) g2
        exact ⟨T, t1, t2, fun hh => t3 hh (g3 (by omega))⟩
      · subst h'
        obtain ⟨icl, e2', hicl⟩ := c.icl (m + 1) (by omega) (by omega)
        have e2 : pyGet E.icl m = .ok icl := by
          rw [← e2']
          unfold pyGetI
          rw [if_pos (by omega), show (((m + 1 : ℕ) : ℤ) - 1).toNat = m by omega]
        exact f1Term_before O h4v.1 hsm.hA (pyGet_ok (by omega : m < x.data.length)) (pyGet_ok (by omega : m + 1 < x.data.length)) (by exact_mod_cast hsm1.er) hsm1.hr hsm.el ⟨hsm.hl, hsm.hlv⟩ (c.vs hi)
          (by rw [hlk]; exact hsm1.basis.shape) e2 (by rw [hlk]; exact hicl)
      · obtain rfl : m = i := by omega
        obtain ⟨icr, e3, hicr⟩ := c.icr m (by omega)
        exact f1Term_self O h4v.1 hB (pyGet_ok (by omega : m < x.data.length)) (pyGet_ok (by omega : m + 1 < x.data.length)) (by exact_mod_cast hsm1.er) ⟨hsm1.hr, hsm1.hrv⟩ (c.vs hi) hsm.basis.shape e3 hicr
    · rintro ⟨h4, m⟩ hm hmi
      obtain ⟨hm1, h, -, h4v⟩ : m < H.length ∧ ∃ h ∈ H, Four 2 h h4 := hmem _ hm
      replace hmi : i < m := hmi
      have hsm := c.site m (by omega)
      have hsm1 := c.site (m + 1) (by omega)
      have hlk := c.link (i := m) (by omega)
      have hB : x.data[m + 1].shape = [2, q m, q (m + 1)] := by rw [hlk]; exact hsm1.hA
      obtain ⟨Lb, g1, g2, g3⟩ := hLbs m hmi (by omega)
      obtain ⟨T, t1, t2, t3⟩ := f1After_ok O h4v.1 hsm.hA hB (pyGet_ok _) (pyGet_ok _) (by exact_mod_cast hsm1.er) ⟨hsm1.hr, hsm1.hrv⟩ (c.vs hi) hsi.basis.shape g1 g2
      exact ⟨T, t1, t2, fun hh => t3 hh g3⟩

end

end Xmps
