import Verif.Lemmas.FmpsExamples

/-! # Properties C13 (`post_select`) and C14 (`overlap`, `full_overlap`, `norm`) -/

namespace Xmps

open Finset Xmps.Spec Xmps.Ncon

variable {K : Type}

/-! ### C13 -/

/-- **C13**, the data: after `post_select(site, which)` the tensors form a chain without that site whose
amplitudes are those of the original with `s_site = which`.  (Missing: the attribute `L` keeps its old
value, so `recombine()` and all methods that use `L` do not see this state; see
`FMPS.postSelect_recombine_wrong`.) -/
theorem FMPS.postSelect_data_partial [CommSemiring K] {x : FMPS K} {ds : List ℕ} (h : x.Holds ds) {site which : ℕ}
    (hL : 2 ≤ ds.length) (hi : site < ds.length) (hw : which < ds[site]) :
    ∃ z, x.postSelect site which = .ok z ∧ MpsChain (ds.eraseIdx site) z.data 1 1 ∧ z.L = x.L ∧ z.d = x.d ∧
      ∀ s, InB (ds.eraseIdx site) s → psi z.data s = psi x.data (s.insertIdx site which) := by
  have hne : ds.eraseIdx site ≠ [] := by
    intro e
    have := congrArg List.length e
    rw [List.length_eraseIdx_of_lt hi] at this
    simp at this; omega
  by_cases h0 : site = 0
  · subst h0
    have hc := h.chain
    obtain ⟨d0, d1, ds', rfl⟩ : ∃ d0 d1 t, ds = d0 :: d1 :: t := by
      match ds, hL with
      | d :: d' :: t, _ => exact ⟨d, d', t, rfl⟩
    obtain ⟨A, B, As, eA⟩ : ∃ A B As, x.data = A :: B :: As := by
      have := hc.length_eq
      match hx : x.data, this with
      | A :: B :: As, _ => exact ⟨A, B, As, rfl⟩
    rw [eA] at hc
    obtain ⟨m, hA, n, hB, hc⟩ := hc
    have hw' : which < d0 := by simpa using hw
    have e1 : A.slice0 which = .ok ⟨[1, m], fun idx => A.val (which :: idx)⟩ := ND.slice0_ok hA hw'
    obtain ⟨R, hR, hRs, hRv⟩ := ND.matmul23 (A := ⟨[1, m], fun idx => A.val (which :: idx)⟩) rfl hB
    have hdata : MpsChain (d1 :: ds') (R :: As) 1 1 := ⟨n, hRs, hc⟩
    refine ⟨{ x with data := R :: As }, ?_, hdata, rfl, rfl, fun s hs => ?_⟩
    · unfold FMPS.postSelect
      simp only [ne_eq, not_true, if_false, eA, pyGet_cons_zero, ok_bind, e1, zero_add, pyGet_cons_succ, hR]
      rfl
    · have hs : InB (d1 :: ds') s := hs
      show psi (R :: As) s = _
      rw [psi_eq_amp hdata (by simp) hs.length_eq, List.insertIdx_zero,
        Holds.psi_amp h (s := which :: s) ⟨hw', hs⟩, eA]
      match s, hs with
      | t :: s, hs =>
        simp only [amp_cons, dim2 hRs, dim2 hA, dim2 hB, hRv, Finset.sum_mul, Finset.mul_sum]
        rw [Finset.sum_comm]
        exact Finset.sum_congr rfl fun c _ => Finset.sum_congr rfl fun e _ => by ring
  · obtain ⟨k, rfl⟩ := Nat.exists_eq_succ_of_ne_zero h0
    obtain ⟨ds1, d, ds2, As1, A, As2, m, n, e1, e2, l1, l2, h1, hA, h2⟩ := chain_at h.chain (i := k) (by omega)
    obtain ⟨d', ds3, rfl⟩ : ∃ d' t, ds2 = d' :: t := by
      cases ds2 with
      | nil => rw [e1] at hi; simp at hi; omega
      | cons a t => exact ⟨a, t, rfl⟩
    obtain ⟨B, As3, rfl⟩ : ∃ B As3, As2 = B :: As3 := by
      cases As2 with
      | nil => simp at h2
      | cons a t => exact ⟨a, t, rfl⟩
    obtain ⟨n', hB, h3⟩ := h2
    have hdg : ds[k + 1] = d' := by
      subst e1; subst l1; simp
    have hw' : which < d' := hdg ▸ hw
    have e3 : B.slice0 which = .ok ⟨[n, n'], fun idx => B.val (which :: idx)⟩ := ND.slice0_ok hB hw'
    obtain ⟨R, hR, hRs, hRv⟩ := ND.matmul32 (B := ⟨[n, n'], fun idx => B.val (which :: idx)⟩) hA rfl
    have her : ds.eraseIdx (k + 1) = ds1 ++ d :: ds3 := by
      rw [e1, ← l1, List.eraseIdx_append_of_length_le (by omega)]
      simp
    have hdata : MpsChain (ds1 ++ d :: ds3) (As1 ++ R :: As3) 1 1 :=
      (mpsChain_append (by rw [h1.length_eq])).2 ⟨m, h1, n', hRs, h3⟩
    have hnd : ((x.data.set k R).eraseIdx (k + 1)) = As1 ++ R :: As3 := by
      rw [e2, ← l2]
      have : (As1 ++ A :: B :: As3).set As1.length R = As1 ++ R :: B :: As3 := by simp
      rw [this, List.eraseIdx_append_of_length_le (by omega)]
      simp
    refine ⟨{ x with data := As1 ++ R :: As3 }, ?_, by rw [her]; exact hdata, rfl, rfl, fun s hs => ?_⟩
    · unfold FMPS.postSelect
      have g1 : pyGet x.data k = .ok A := by rw [e2, ← l2]; simp [pyGet]
      have g2 : pyGet x.data (k + 1) = .ok B := by
        rw [e2, ← l2]
        simp [pyGet]
      simp only [ne_eq, Nat.succ_ne_zero, not_false_eq_true, if_true, Nat.succ_eq_add_one, Nat.add_sub_cancel, g1, g2,
        ok_bind, e3, hR, hnd]
    · rw [her] at hs
      show psi (As1 ++ R :: As3) s = _
      rw [psi_eq_amp hdata (by simp) hs.length_eq]
      obtain ⟨s1, t, s2, rfl, hs1, ht, hs2⟩ := hs.split
      have hins : (s1 ++ t :: s2).insertIdx (k + 1) which = s1 ++ t :: which :: s2 := by
        have := insertIdx_append (s1 ++ [t]) s2 which
        have hl : (s1 ++ [t]).length = k + 1 := by simp [hs1.length_eq, l1]
        rw [hl] at this
        simpa using this
      have hb : InB ds (s1 ++ t :: which :: s2) := by
        rw [e1]; exact InB.append hs1 (InB_cons.2 ⟨ht, InB_cons.2 ⟨hw', hs2⟩⟩)
      rw [Nat.succ_eq_add_one, hins, Holds.psi_amp h hb, e2, amp_mid h1 hs1.length_eq hRs t 0 0 Nat.one_pos,
        amp_mid h1 hs1.length_eq hA t 0 0 Nat.one_pos]
      refine Finset.sum_congr rfl fun c _ => ?_
      simp only [hRv, amp_cons, dim2 hB, Finset.sum_mul, Finset.mul_sum]
      rw [Finset.sum_comm]
      exact Finset.sum_congr rfl fun e _ => Finset.sum_congr rfl fun f _ => by ring

/-- **C13 is violated at the object level**: after `post_select` the object still has `L` sites as far
as `recombine()` is concerned: it returns an array of rank `L` (not `L-1`), the post-selected state
repeated along a spurious last axis. -/
theorem FMPS.postSelect_recombine_wrong [CommSemiring K] {x : FMPS K} {L d : ℕ} (h : x.Holds (List.replicate (L + 2) d))
    {site which : ℕ} (hi : site < L + 2) (hw : which < d) :
    ∃ z R, x.postSelect site which = .ok z ∧ z.recombine = .ok R ∧ R.shape = List.replicate (L + 2) d ∧
      ∀ s, InB (List.replicate (L + 1) d) s → ∀ t < d,
        R.val (s ++ [t]) = psi x.data (s.insertIdx site which) := by
  obtain ⟨z, hz, hch, hL, hd, hv⟩ := FMPS.postSelect_data_partial h (site := site) (which := which) (by simp)
    (by simpa using hi) (by simpa using hw)
  have her : (List.replicate (L + 2) d).eraseIdx site = List.replicate (L + 1) d := by
    rw [List.eraseIdx_replicate, if_pos hi]
    rfl
  rw [her] at hch hv
  have hzL : z.L = L + 2 := by rw [hL, h.len]; simp
  have hzd : z.d = d := by rw [hd, h.d]; simp [List.replicate_succ]
  obtain ⟨R, hR, hs, hRv⟩ := ND.build_ok (sh := List.replicate (L + 2) d) (f := FMPS.amplitudeAt z.data)
    (g := fun s => psi z.data (s.take (L + 1))) (by
      intro idx hidx
      have hsplit : List.replicate (L + 2) d = List.replicate (L + 1) d ++ [d] := List.replicate_succ'
      rw [hsplit] at hidx
      obtain ⟨s1, t, s2, rfl, hs1, ht, hs2⟩ := hidx.split
      obtain rfl : s2 = [] := by
        cases s2 with
        | nil => rfl
        | cons a t => simp at hs2
      have hl : s1.length = L + 1 := by rw [hs1.length_eq]; simp
      rw [amplitudeAt_extra hch (by simp) hs1, ← hl, List.take_left'  rfl])
  refine ⟨z, R, hz, by unfold FMPS.recombine; rw [hzL, hzd]; exact hR, hs, fun s hs' t ht => ?_⟩
  have hl : s.length = L + 1 := by rw [hs'.length_eq]; simp
  rw [hRv (s ++ [t]), ← hl, List.take_left' rfl, hv s hs']
  have hsplit : List.replicate (L + 2) d = List.replicate (L + 1) d ++ [d] := List.replicate_succ'
  rw [hsplit]
  exact InB.append hs' ⟨ht, trivial⟩

/-! ### C14 -/

section overlap
variable [CommSemiring K] [StarRing K]

/-- **C14**: `x.overlap(y)` is `⟨y|x⟩`: the sum over all basis states of `ψ_x(s) conj(ψ_y(s))`.
The result is a scalar (rank 0 array). The two chains may have different bond dimensions. -/
theorem FMPS.overlap_inner (O : SetOrder) {x y : FMPS K} {ds : List ℕ} (hx : x.Holds ds) (hy : y.Holds ds) :
    ∃ R, x.overlap O y = .ok R ∧ R.shape = [] ∧ R.val [] = braket ds y.data x.data := by
  obtain ⟨F, hF, hs, hv⟩ := overlap_fold O (onesND [1, 1]) hx.chain hy.chain rfl
  refine ⟨F.squeeze, ?_, by simp [ND.squeeze, hs], ?_⟩
  · unfold FMPS.overlap
    simp only [hx.chain.length_eq, hy.chain.length_eq, beq_self_eq_true, guardPy_true, ok_bind]
    have : (x.data.zip y.data).foldlM (fun F (t, b) => FMPS.overlapStep O F t b) (onesND [1, 1]) = .ok F := hF
    simp only [this, ok_bind]
  · have : F.squeeze.val [] = F.val [0, 0] := by simp [ND.squeeze, ND.squeeze.go, hs]
    rw [this, hv 0 0 Nat.one_pos Nat.one_pos]
    simp only [Finset.sum_range_one, onesND, one_mul, braket]
    refine sumIdx_congr fun s hs => ?_
    rw [Holds.psi_amp hx hs, Holds.psi_amp hy hs, mul_comm]

/-- Chains of different lengths are refused. -/
theorem FMPS.overlap_length (O : SetOrder) {x y : FMPS K} (h : x.data.length ≠ y.data.length) :
    x.overlap O y = .error .assertionError := by
  unfold FMPS.overlap
  have : (x.data.length == y.data.length) = false := by simpa using h
  simp [this]

/-- **C14**: `x.full_overlap(y)` is `⟨x|y⟩`. -/
theorem FMPS.fullOverlap_inner {x y : FMPS K} {L d : ℕ} (hx : x.Holds (List.replicate L d))
    (hy : y.Holds (List.replicate L d)) :
    x.fullOverlap y = .ok (braket (List.replicate L d) x.data y.data) := by
  obtain ⟨R, hR, hs, hv⟩ := recombine_ok hx
  obtain ⟨R', hR', hs', hv'⟩ := recombine_ok hy
  unfold FMPS.fullOverlap
  simp only [hR, hR', ok_bind, ND.size, hs, hs', if_true, braket]
  congr 1
  rw [sumIdx_eq_range]
  refine Finset.sum_congr rfl fun k hk => ?_
  have hb := InB_unravel (s := List.replicate L d) (by simpa using hk)
  rw [hv _ hb, hv' _ hb]

/-- **C14** (what holds of the agreement): `overlap` is the complex conjugate of `full_overlap`.
(Missing: equality, which fails when the inner product is not real, see `FMPS.overlap_ne_fullOverlap`.) -/
theorem FMPS.overlap_star_fullOverlap_partial (O : SetOrder) {x y : FMPS K} {L d : ℕ}
    (hx : x.Holds (List.replicate L d)) (hy : y.Holds (List.replicate L d)) :
    ∃ R v, x.overlap O y = .ok R ∧ x.fullOverlap y = .ok v ∧ R.val [] = star v ∧
      y.fullOverlap x = .ok (R.val []) := by
  obtain ⟨R, h1, _, h3⟩ := FMPS.overlap_inner O hx hy
  exact ⟨R, _, h1, FMPS.fullOverlap_inner hx hy, by rw [h3, star_braket], by rw [FMPS.fullOverlap_inner hy hx, h3]⟩

end overlap

/-- **C14**: `norm()` is the sum of `|ψ(s)|²`: real and non-negative. -/
theorem FMPS.norm_real_nonneg (O : SetOrder) {x : FMPS ℂ} {ds : List ℕ} (hx : x.Holds ds) :
    ∃ R, x.norm O = .ok R ∧ R.shape = [] ∧
      R.val [] = ((sumIdx ds fun s => Complex.normSq (psi x.data s) : ℝ) : ℂ) ∧
      0 ≤ sumIdx ds fun s => Complex.normSq (psi x.data s) := by
  obtain ⟨R, h1, h2, h3⟩ := FMPS.overlap_inner O hx hx
  refine ⟨R, h1, h2, ?_, ?_⟩
  · rw [h3]
    have : ∀ (ds : List ℕ) (f : List ℕ → ℂ), sumIdx ds (fun s => star (f s) * f s) = ((sumIdx ds fun s => Complex.normSq (f s) : ℝ) : ℂ) := by
      intro ds
      induction ds with
      | nil => intro f; simp [Complex.normSq_eq_conj_mul_self]
      | cons n ds ih =>
        intro f
        simp only [sumIdx_cons, Complex.ofReal_sum]
        exact Finset.sum_congr rfl fun i _ => ih _
    exact this ds _
  · have : ∀ (ds : List ℕ) (f : List ℕ → ℂ), 0 ≤ sumIdx ds fun s => Complex.normSq (f s) := by
      intro ds
      induction ds with
      | nil => intro f; simpa using Complex.normSq_nonneg _
      | cons n ds ih => intro f; exact Finset.sum_nonneg fun i _ => ih _
    exact this ds _

/-! ### the hypotheses are met -/

example (O : SetOrder) : ∃ R, (exTwo 2).overlap O (exTwo 3) = .ok R ∧ R.shape = [] ∧
    R.val [] = braket (List.replicate 2 2) (exTwo 3).data (exTwo 2).data :=
  FMPS.overlap_inner O (exTwo_holds 2) (exTwo_holds 3)

example (O : SetOrder) :=
  FMPS.norm_real_nonneg O (exTwo_holds 2)

example : ∃ z, (exTwo 2).postSelect 1 0 = .ok z ∧ MpsChain [2] z.data 1 1 ∧ z.L = 2 ∧ z.d = 2 ∧
    ∀ s, InB [2] s → psi z.data s = psi (exTwo 2).data (s.insertIdx 1 0) :=
  FMPS.postSelect_data_partial (exTwo_holds 2) (site := 1) (which := 0) (by simp) (by simp) (by simp)

example : ∃ z R, (exTwo 2).postSelect 0 1 = .ok z ∧ z.recombine = .ok R ∧ R.shape = [2, 2] ∧
    ∀ s, InB (List.replicate (0 + 1) 2) s → ∀ t < 2, R.val (s ++ [t]) = psi (exTwo 2).data (s.insertIdx 0 1) :=
  FMPS.postSelect_recombine_wrong (L := 0) (exTwo_holds 2) (by simp) (by simp)

/-- **C14 is violated**: `overlap` and `full_overlap` of the same two states differ
(here the states `(1)` and `(i)`: `-i` against `i`). -/
theorem FMPS.overlap_ne_fullOverlap (O : SetOrder) :
    ∃ (x y : FMPS ℂ) (R : ND ℂ) (v : ℂ), x.Holds [1] ∧ y.Holds [1] ∧ x.overlap O y = .ok R ∧ x.fullOverlap y = .ok v ∧
      R.val [] ≠ v := by
  have hx : (exOne [1]).Holds (List.replicate 1 1) := exOne_holds [1]
  have hy : (exOne [Complex.I]).Holds (List.replicate 1 1) := exOne_holds [Complex.I]
  obtain ⟨R, v, h1, h2, h3, -⟩ := FMPS.overlap_star_fullOverlap_partial O hx hy
  refine ⟨_, _, R, v, hx, hy, h1, h2, ?_⟩
  have hv : v = Complex.I := by
    rw [FMPS.fullOverlap_inner hx hy] at h2
    injection h2 with h2
    rw [← h2]
    simp [braket, exOne_psi]
  rw [h3, hv]
  intro e
  have := congrArg Complex.im e
  simp at this
  norm_num at this

end Xmps
