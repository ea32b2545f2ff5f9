import Verif.Lemmas.CanonBack

/-! # The rank reduction at the end of the canonicalisation methods -/

namespace Xmps

open Finset Xmps.Spec

theorem IsDiag.rank {L : ND ℂ} {w : List ℂ} (h : IsDiag L w) : diagRank L = diagRank (diagND w) := by
  unfold diagRank
  have e : min (L.dim 0) (L.dim 1) = w.length := by simp [ND.dim, h.1]
  have e' : min ((diagND w).dim 0) ((diagND w).dim 1) = w.length := by simp [ND.dim, diagND]
  rw [e, e']
  congr 1
  refine Finset.filter_congr fun i hi => ?_
  have hi : i < w.length := by simpa using hi
  rw [h.2 i hi i hi]
  simp [diagND]

/-- the number of leading non-zero entries -/
noncomputable def rk (w : List ℂ) : ℕ := diagRank (diagND w)

theorem cut_right {A : ND ℂ} {d l n t : ℕ} (hA : A.shape = [d, l, n]) (ht : t ≤ n) :
    ∃ A', A.matmul (FMPS.headProj t n).hc = .ok A' ∧ A'.shape = [d, l, t] ∧ ∀ s a, ∀ c < t, A'.val [s, a, c] = A.val [s, a, c] := by
  obtain ⟨h1, h2⟩ := hc2 (A := FMPS.headProj t n) (m := t) (n := n) rfl
  obtain ⟨A', e, hs, hv⟩ := ND.matmul32 hA h1
  refine ⟨A', e, hs, fun s a c hc => ?_⟩
  rw [hv, Finset.sum_congr rfl fun e _ => show _ = if c = e then A.val [s, a, e] else 0 by
    rw [h2]; simp only [FMPS.headProj]; split <;> simp]
  rw [Finset.sum_ite_eq, if_pos (by simp; omega)]

theorem cut_left {A : ND ℂ} {d l n t : ℕ} (hA : A.shape = [d, n, l]) (ht : t ≤ n) :
    ∃ A', (FMPS.headProj t n).matmul A = .ok A' ∧ A'.shape = [d, t, l] ∧ ∀ s, ∀ a < t, ∀ c, A'.val [s, a, c] = A.val [s, a, c] := by
  obtain ⟨A', e, hs, hv⟩ := ND.matmul23 (A := FMPS.headProj t n) (m := t) (k := n) rfl hA
  refine ⟨A', e, hs, fun s a ha c => ?_⟩
  rw [hv, Finset.sum_congr rfl fun e _ => show _ = if a = e then A.val [s, e, c] else 0 by
    simp only [FMPS.headProj]; split <;> simp]
  rw [Finset.sum_ite_eq, if_pos (by simp; omega)]

theorem cut_diag {L : ND ℂ} {w : List ℂ} {t : ℕ} (h : IsDiag L w) (ht : t ≤ w.length) :
    ∃ L1 L', (FMPS.headProj t w.length).matmul L = .ok L1 ∧ L1.matmul (FMPS.headProj t w.length).hc = .ok L' ∧
      IsDiag L' (w.take t) := by
  obtain ⟨h1, h2⟩ := hc2 (A := FMPS.headProj t w.length) (m := t) (n := w.length) rfl
  obtain ⟨L1, e1, hs1, hv1⟩ := ND.matmul22 (A := FMPS.headProj t w.length) (m := t) (k := w.length) rfl h.1
  obtain ⟨L', e2, hs2, hv2⟩ := ND.matmul22 hs1 h1
  refine ⟨L1, L', e1, e2, by simp [hs2, ht], ?_⟩
  intro i hi j hj
  have hi : i < t := by simp at hi; omega
  have hj : j < t := by simp at hj; omega
  have g1 : ∀ j, L1.val [i, j] = L.val [i, j] := by
    intro j
    rw [hv1, Finset.sum_congr rfl fun e _ => show _ = if i = e then L.val [e, j] else 0 by
      simp only [FMPS.headProj]; split <;> simp]
    rw [Finset.sum_ite_eq, if_pos (by simp; omega)]
  rw [hv2, Finset.sum_congr rfl fun e _ => show _ = if j = e then L.val [i, e] else 0 by
    rw [h2, g1]; simp only [FMPS.headProj]; split <;> simp]
  rw [Finset.sum_ite_eq, if_pos (by simp; omega), h.2 i (by omega) j (by omega)]
  split
  · simp [List.getD_eq_getElem?_getD, hi]
  · rfl

/-- one step of the rank reduction, away from the first site -/
theorem projStep_mid {pre As Lpre Ls : List (ND ℂ)} {Ap A L : ND ℂ} {w : List ℂ} {d l d' r : ℕ}
    (hlen : Lpre.length = pre.length + 1) (hL : IsDiag L w) (hAp : Ap.shape = [d, l, w.length])
    (hA : A.shape = [d', w.length, r]) (ht : rk w ≤ w.length) :
    ∃ Ap' A' L', FMPS.projStep (pre ++ Ap :: A :: As, Lpre ++ L :: Ls) (pre.length + 1) =
        .ok (pre ++ Ap' :: A' :: As, Lpre ++ L' :: Ls) ∧
      Ap'.shape = [d, l, rk w] ∧ (∀ s a, ∀ c < rk w, Ap'.val [s, a, c] = Ap.val [s, a, c]) ∧
      A'.shape = [d', rk w, r] ∧ (∀ s, ∀ a < rk w, ∀ c, A'.val [s, a, c] = A.val [s, a, c]) ∧ IsDiag L' (w.take (rk w)) := by
  obtain ⟨Ap', e1, hs1, hv1⟩ := cut_right hAp ht
  obtain ⟨A', e2, hs2, hv2⟩ := cut_left hA ht
  obtain ⟨L1, L', e3, e4, hd⟩ := cut_diag hL ht
  refine ⟨Ap', A', L', ?_, hs1, hv1, hs2, hv2, hd⟩
  have hdim : L.dim 0 = w.length := by simp [ND.dim, hL.1]
  unfold FMPS.projStep
  simp only
  rw [← hlen, pyGet_append_mid, ok_bind, hL.rank, hdim]
  simp only [show Lpre.length ≠ 0 by omega, if_false]
  rw [show Lpre.length - 1 = pre.length by omega, pyGet_append_mid, ok_bind]
  change (Ap.matmul (FMPS.headProj (rk w) w.length).hc >>= _) = _
  rw [e1, ok_bind, set_append_mid, hlen, pyGet_append_mid1, ok_bind]
  change ((FMPS.headProj (rk w) w.length).matmul A >>= _) = _
  rw [e2, ok_bind]
  change ((FMPS.headProj (rk w) w.length).matmul L >>= _) = _
  rw [e3, ok_bind]
  change (L1.matmul (FMPS.headProj (rk w) w.length).hc >>= _) = _
  rw [e4, ok_bind, set_append_mid1, ← hlen, set_append_mid]

theorem rk_spec {w : List ℂ} (h : NonnegLast w) : rk w ≤ w.length ∧ (∀ i < rk w, w.getD i 0 ≠ 0) ∧
    ∀ i, rk w ≤ i → w.getD i 0 = 0 := diagRank_spec h.2

theorem take_getD {w : List ℂ} {t i : ℕ} (h : i < t) : (w.take t).getD i 0 = w.getD i 0 := by
  simp [List.getD_eq_getElem?_getD, h]

theorem allPos_take {w : List ℂ} (h : NonnegLast w) : AllPos (w.take (rk w)) := by
  intro i hi
  have hi' : i < rk w := by simp at hi; omega
  obtain ⟨x, hx, e⟩ := h.1 i
  refine ⟨x, lt_of_le_of_ne hx fun h0 => (rk_spec h).2.1 i hi' (by rw [e, ← h0]; simp), ?_⟩
  rw [take_getD hi', e]

/-- zero weight on the left of a site forces zero entries wherever the weight on the right is not zero -/
theorem SiteL.zero {A : ND ℂ} {w w' : List ℂ} {d : ℕ} (h : SiteL A w w') (hA : A.shape = [d, w.length, w'.length])
    (hw' : NonnegLast w') {a : ℕ} (ha : a < w.length) (h0 : w.getD a 0 = 0) {s c : ℕ} (hs : s < d) (hc : c < w'.length)
    (hc0 : w'.getD c 0 ≠ 0) : A.val [s, a, c] = 0 := by
  obtain ⟨d', hA', h⟩ := h
  obtain rfl : d' = d := by rw [hA] at hA'; simpa using hA'.symm
  have := h a ha a ha
  rw [if_pos rfl, h0] at this
  choose y hy0 hy using hw'.1
  have e : ∑ s ∈ range d', ∑ c ∈ range w'.length, A.val [s, a, c] * w'.getD c 0 * star (A.val [s, a, c]) =
      ((∑ s ∈ range d', ∑ c ∈ range w'.length, y c * Complex.normSq (A.val [s, a, c]) : ℝ) : ℂ) := by
    rw [Complex.ofReal_sum]
    refine Finset.sum_congr rfl fun s _ => ?_
    rw [Complex.ofReal_sum]
    refine Finset.sum_congr rfl fun c _ => ?_
    rw [hy, Complex.ofReal_mul, Complex.normSq_eq_conj_mul_self]
    simp
    ring
  rw [e] at this
  have h1 : ∑ s ∈ range d', ∑ c ∈ range w'.length, y c * Complex.normSq (A.val [s, a, c]) = 0 := by exact_mod_cast this
  have hnn : ∀ s c, 0 ≤ y c * Complex.normSq (A.val [s, a, c]) := fun s c => mul_nonneg (hy0 c) (Complex.normSq_nonneg _)
  rw [Finset.sum_eq_zero_iff_of_nonneg fun s _ => Finset.sum_nonneg fun c _ => hnn s c] at h1
  have h2 := h1 s (by simpa using hs)
  rw [Finset.sum_eq_zero_iff_of_nonneg fun c _ => hnn s c] at h2
  have h3 := h2 c (by simpa using hc)
  have hyc : y c ≠ 0 := fun h => hc0 (by rw [hy, h]; simp)
  exact Complex.normSq_eq_zero.1 (by simpa [hyc] using h3)

theorem EnvL.weight {P : List ℂ → Prop} (hP : ∀ w, P w → NonnegLast w) : ∀ {As : List (ND ℂ)} {w : List ℂ} {Ls : List (ND ℂ)},
    EnvL P As w Ls → NonnegLast w
  | [], w, Ls, h => by
    rw [h.1]
    refine ⟨fun i => ?_, fun i j hij _ => ?_⟩
    · cases i with
      | zero => exact ⟨1, by norm_num, by simp⟩
      | succ i => exact ⟨0, le_rfl, by simp⟩
    · cases j with
      | zero => omega
      | succ j => simp
  | _ :: _, w, L :: Ls, h => hP w h.2.1
  | _ :: _, _, [], h => h.elim

/-- zero weight means zero amplitude -/
theorem EnvL.amp_zero : ∀ {As : List (ND ℂ)} {ds : List ℕ} {w : List ℂ} {Ls : List (ND ℂ)}, EnvL NonnegLast As w Ls →
    MpsChain ds As w.length 1 → ∀ a < w.length, w.getD a 0 = 0 → ∀ ss, InB ds ss → amp As ss a 0 = 0
  | [], [], w, Ls, h, _, a, ha, h0, ss, hs => by
    rw [h.1] at ha h0
    simp at ha
    subst ha
    simp at h0
  | [], d :: ds, w, Ls, h, hc, a, ha, h0, ss, hs => by simp at hc
  | _ :: _, [], w, Ls, h, hc, a, ha, h0, ss, hs => by simp at hc
  | _ :: _, _ :: _, _, [], h, _, _, _, _, _, _ => h.elim
  | A :: As, d :: ds, w, L :: Ls, h, hc, a, ha, h0, s :: ss, hs => by
    obtain ⟨hL, hw, w', hsite, henv⟩ := h
    obtain ⟨n, hA, hc⟩ := hc
    have hn : n = w'.length := by
      obtain ⟨_, hA', _⟩ := hsite
      rw [hA] at hA'
      simpa using (List.cons.inj (List.cons.inj (List.cons.inj hA').2).2).1
    subst hn
    have hw' := henv.weight (fun _ h => h)
    simp only [amp_cons, dim2 hA]
    refine Finset.sum_eq_zero fun c hc' => ?_
    have hc' : c < w'.length := by simpa using hc'
    by_cases hz : w'.getD c 0 = 0
    · rw [EnvL.amp_zero henv hc c hc' hz ss hs.2, mul_zero]
    · rw [hsite.zero hA hw' ha h0 hs.1 hc' hz, zero_mul]

/-- cutting both bonds of a site down to the non-zero weights -/
theorem SiteL.cut {A A' : ND ℂ} {w w' : List ℂ} {d : ℕ} (h : SiteL A w w') (hA : A.shape = [d, w.length, w'.length])
    (hw : NonnegLast w) (hw' : NonnegLast w') (hA' : A'.shape = [d, rk w, rk w'])
    (hv : ∀ s < d, ∀ a < rk w, ∀ c < rk w', A'.val [s, a, c] = A.val [s, a, c]) :
    SiteL A' (w.take (rk w)) (w'.take (rk w')) ∧ (LeftIso A → LeftIso A') := by
  have hr := rk_spec hw
  have hr' := rk_spec hw'
  have hl : (w.take (rk w)).length = rk w := by simp [hr.1]
  have hl' : (w'.take (rk w')).length = rk w' := by simp [hr'.1]
  constructor
  · refine ⟨d, by rw [hA', hl, hl'], ?_⟩
    rw [hl, hl']
    intro a ha a' ha'
    obtain ⟨d', hA2, hs⟩ := h
    obtain rfl : d' = d := by rw [hA] at hA2; simpa using hA2.symm
    rw [take_getD ha, ← hs a (by omega) a' (by omega)]
    refine Finset.sum_congr rfl fun s hs => ?_
    rw [← Finset.sum_subset (Finset.range_mono hr'.1) fun c hc hc' => by
      rw [hr'.2.2 c (by simpa using hc')]; simp]
    refine Finset.sum_congr rfl fun c hc => ?_
    have hc : c < rk w' := by simpa using hc
    rw [take_getD hc, hv s (by simpa using hs) a ha c hc, hv s (by simpa using hs) a' ha' c hc]
  · intro hi c hc c' hc'
    rw [dim2 hA'] at hc hc'
    rw [dim0 hA', dim1 hA']
    have := hi c (by rw [dim2 hA]; omega) c' (by rw [dim2 hA]; omega)
    rw [dim0 hA, dim1 hA] at this
    rw [← this]
    refine Finset.sum_congr rfl fun s hs => ?_
    have hs : s < d := by simpa using hs
    rw [← Finset.sum_subset (Finset.range_mono hr.1) fun a ha ha' => by
      rw [h.zero hA hw' (by simpa using ha) (hr.2.2 a (by simpa using ha')) hs (c := c') (by omega) (hr'.2.1 c' hc'), mul_zero]]
    refine Finset.sum_congr rfl fun a ha => ?_
    rw [hv s hs a (by simpa using ha) c hc, hv s hs a (by simpa using ha) c' hc']

theorem rk_one : rk [1] = 1 := by
  unfold rk diagRank
  have e : min ((diagND [(1 : ℂ)]).dim 0) ((diagND [(1 : ℂ)]).dim 1) = 1 := by simp [diagND, ND.dim]
  rw [e, Finset.filter_true_of_mem]
  · simp
  · intro i hi
    obtain rfl : i = 0 := by simpa using hi
    simp [diagND]

/-- The rank reduction from a site `Ap` (already cut on its left) to the end of the chain. -/
theorem project_left : ∀ (As : List (ND ℂ)) (Ap : ND ℂ) (pre Lpre Ls Lend : List (ND ℂ)) (ds : List ℕ) (w : List ℂ) (d l : ℕ),
    Lpre.length = pre.length + 1 → Ap.shape = [d, l, w.length] → EnvL NonnegLast As w Ls → MpsChain ds As w.length 1 →
    ∃ Ap' As' Ls', (List.range' (pre.length + 1) As.length).foldlM FMPS.projStep (pre ++ Ap :: As, Lpre ++ (Ls ++ Lend)) =
        .ok (pre ++ Ap' :: As', Lpre ++ (Ls' ++ Lend)) ∧
      Ap'.shape = [d, l, rk w] ∧ (∀ s a, ∀ c < rk w, Ap'.val [s, a, c] = Ap.val [s, a, c]) ∧
      EnvL AllPos As' (w.take (rk w)) Ls' ∧ MpsChain ds As' (rk w) 1 ∧
      ((∀ A ∈ As, LeftIso A) → ∀ A ∈ As', LeftIso A) ∧
      (∀ D0, (∀ A ∈ As, A.dim 2 ≤ D0) → ∀ A ∈ As', A.dim 2 ≤ D0) ∧
      ∀ ss, InB ds ss → ∀ a < rk w, amp As' ss a 0 = amp As ss a 0
  | [], Ap, pre, Lpre, Ls, Lend, [], w, d, l, hlen, hAp, henv, hc => by
    obtain ⟨rfl, rfl⟩ := henv
    refine ⟨Ap, [], [], by simp, by rw [hAp, rk_one]; rfl, fun _ _ _ _ => rfl, ⟨by simp [rk_one], rfl⟩,
      by rw [rk_one]; rfl, by simp, by simp, fun _ _ _ _ => rfl⟩
  | [], Ap, pre, Lpre, Ls, Lend, d0 :: ds, w, d, l, hlen, hAp, henv, hc => by simp at hc
  | A :: As, Ap, pre, Lpre, Ls, Lend, [], w, d, l, hlen, hAp, henv, hc => by simp at hc
  | A :: As, Ap, pre, Lpre, [], Lend, d0 :: ds, w, d, l, hlen, hAp, henv, hc => henv.elim
  | A :: As, Ap, pre, Lpre, L :: Ls, Lend, d0 :: ds, w, d, l, hlen, hAp, henv, hc => by
    obtain ⟨hL, hw, w', hsite, henv⟩ := henv
    obtain ⟨n, hA, hc⟩ := hc
    have hn : n = w'.length := by
      obtain ⟨_, hA', _⟩ := hsite
      rw [hA] at hA'
      simpa using (List.cons.inj (List.cons.inj (List.cons.inj hA').2).2).1
    subst hn
    have hw' := henv.weight (fun _ h => h)
    have hr := rk_spec hw
    obtain ⟨Ap', A1, L', hstep, hAp's, hAp'v, hA1s, hA1v, hL'⟩ :=
      projStep_mid (As := As) (Ls := Ls ++ Lend) hlen hL hAp hA hr.1
    obtain ⟨A1', As', Ls', e, hA1's, hA1'v, henv', hch', hiso, hbd, hamp⟩ :=
      project_left As A1 (pre ++ [Ap']) (Lpre ++ [L']) Ls Lend ds w' d0 (rk w) (by simp [hlen]) hA1s henv hc
    have hA'v : ∀ s < d0, ∀ a < rk w, ∀ c < rk w', A1'.val [s, a, c] = A.val [s, a, c] := by
      intro s _ a ha c hc
      rw [hA1'v s a c hc, hA1v s a ha c]
    have hcut := hsite.cut hA hw hw' hA1's hA'v
    refine ⟨Ap', A1' :: As', L' :: Ls', ?_, hAp's, hAp'v, ⟨hL', allPos_take hw, _, hcut.1, henv'⟩,
      ⟨rk w', hA1's, hch'⟩, ?_, ?_, ?_⟩
    · rw [List.length_cons, List.range'_succ, List.foldlM_cons]
      simp only [List.cons_append] at hstep ⊢
      rw [hstep, ok_bind]
      have e2 : (pre ++ [Ap']).length + 1 = pre.length + 1 + 1 := by simp
      rw [e2] at e
      simp only [List.append_assoc, List.cons_append, List.nil_append] at e
      rw [e]
    · intro hAll B hB
      rcases List.mem_cons.1 hB with rfl | hB
      · exact hcut.2 (hAll A (by simp))
      · exact hiso (fun B hB => hAll B (List.mem_cons_of_mem _ hB)) B hB
    · intro D0 hAll B hB
      rcases List.mem_cons.1 hB with rfl | hB
      · have := hAll A (by simp)
        rw [dim2 hA] at this
        rw [dim2 hA1's]
        exact (rk_spec hw').1.trans this
      · exact hbd D0 (fun B hB => hAll B (List.mem_cons_of_mem _ hB)) B hB
    · intro ss hs a ha
      match ss, hs with
      | s :: ss, hs =>
        have hr' := rk_spec hw'
        simp only [amp_cons, dim2 hA, dim2 hA1's]
        rw [← Finset.sum_subset (Finset.range_mono hr'.1) fun c hc' hc'' => by
          rw [henv.amp_zero hc c (by simpa using hc') (hr'.2.2 c (by simpa using hc'')) ss hs.2, mul_zero]]
        refine Finset.sum_congr rfl fun c hc' => ?_
        have hc' : c < rk w' := by simpa using hc'
        rw [hA'v s hs.1 a ha c hc', hamp ss hs.2 c hc']

/-! ### the first site, where the loop also touches the last tensor -/

theorem forall2_refl {As : List (ND ℂ)} : List.Forall₂ (· ≈ ·) As As := by
  induction As with
  | nil => exact .nil
  | cons A As ih => exact .cons (ND.Eqv.refl A) ih

theorem forall2_trans {As Bs Cs : List (ND ℂ)} (h1 : List.Forall₂ (· ≈ ·) As Bs) (h2 : List.Forall₂ (· ≈ ·) Bs Cs) :
    List.Forall₂ (· ≈ ·) As Cs := by
  induction h1 generalizing Cs with
  | nil => exact h2
  | cons h _ ih =>
    cases h2 with
    | cons h' h2 => exact .cons (ND.Eqv.trans h h') (ih h2)

theorem forall2_set : ∀ {As : List (ND ℂ)} {i : ℕ} {A B : ND ℂ}, pyGet As i = .ok A → A ≈ B →
    List.Forall₂ (· ≈ ·) As (As.set i B)
  | [], i, A, B, h, _ => by simp [pyGet] at h
  | A0 :: As, 0, A, B, h, hAB => by
    have : A0 = A := by simpa [pyGet] using h
    subst this
    exact .cons hAB forall2_refl
  | A0 :: As, i + 1, A, B, h, hAB => by
    rw [List.set_cons_succ]
    exact .cons (ND.Eqv.refl A0) (forall2_set (by rw [← h]; simp) hAB)

theorem eqv3 {A B : ND ℂ} {d l r : ℕ} (hA : A.shape = [d, l, r]) (hB : B.shape = [d, l, r])
    (h : ∀ s < d, ∀ a < l, ∀ c < r, A.val [s, a, c] = B.val [s, a, c]) : A ≈ B := by
  refine ND.eqv_def.2 ⟨by rw [hA, hB], ?_⟩
  rw [hA]
  intro idx hi
  match idx, hi with
  | [s, a, c], hi => exact h s hi.1 a hi.2.1 c hi.2.2.1

theorem eqv_val3 {A B : ND ℂ} {d l r : ℕ} (h : A ≈ B) (hA : A.shape = [d, l, r]) {s a c : ℕ} (hs : s < d) (ha : a < l) (hc : c < r) :
    B.val [s, a, c] = A.val [s, a, c] :=
  ((ND.eqv_def.1 h).2 _ (by rw [hA]; exact InB_cons.2 ⟨hs, InB_cons.2 ⟨ha, InB_cons.2 ⟨hc, InB_nil⟩⟩⟩)).symm

/-- the first step of the rank reduction leaves all entries as they are -/
theorem projStep_zero {data : List (ND ℂ)} {Z A0 L0 : ND ℂ} {Ls : List (ND ℂ)} {d l d' r : ℕ}
    (hZ : pyGet data (data.length - 1) = .ok Z) (hZs : Z.shape = [d, l, 1]) (hA : pyGet data 0 = .ok A0)
    (hAs : A0.shape = [d', 1, r]) (hL : IsDiag L0 [1]) :
    ∃ data' L0', FMPS.projStep (data, L0 :: Ls) 0 = .ok (data', L0' :: Ls) ∧ List.Forall₂ (· ≈ ·) data data' ∧ IsDiag L0' [1] := by
  obtain ⟨Z', e1, hs1, hv1⟩ := cut_right (t := 1) hZs le_rfl
  have hZZ : Z ≈ Z' := eqv3 hZs hs1 fun s _ a _ c hc => (hv1 s a c hc).symm
  have f1 := forall2_set hZ hZZ
  have hget : ∃ B, pyGet (data.set (data.length - 1) Z') 0 = .ok B ∧ B.shape = [d', 1, r] := by
    match data, hZ, hA with
    | [A], hZ, hA =>
      have h1 : A = Z := by simpa [pyGet] using hZ
      have h2 : A = A0 := by simpa [pyGet] using hA
      subst h1 h2
      refine ⟨Z', by simp [pyGet], ?_⟩
      rw [← (ND.eqv_def.1 hZZ).1, hAs]
    | A :: A1 :: As, hZ, hA =>
      have h2 : A = A0 := by simpa [pyGet] using hA
      subst h2
      exact ⟨A, by simp [pyGet], hAs⟩
  obtain ⟨B, hB, hBs⟩ := hget
  obtain ⟨B', e2, hs2, hv2⟩ := cut_left (t := 1) hBs le_rfl
  have hBB : B ≈ B' := eqv3 hBs hs2 fun s _ a ha c _ => (hv2 s a ha c).symm
  have f2 := forall2_set hB hBB
  obtain ⟨L1, L', e3, e4, hd⟩ := cut_diag (t := 1) hL (by simp)
  refine ⟨_, L', ?_, forall2_trans f1 f2, by simpa using hd⟩
  have hdim : L0.dim 0 = 1 := by simp [ND.dim, hL.1]
  have hrk : diagRank L0 = 1 := by rw [hL.rank]; exact rk_one
  unfold FMPS.projStep
  simp only [pyGet_cons_zero, ok_bind, if_true, hdim, hrk]
  rw [hZ, ok_bind, e1, ok_bind, hB, ok_bind, e2, ok_bind]
  have e3' : (FMPS.headProj 1 1).matmul L0 = .ok L1 := e3
  have e4' : L1.matmul (FMPS.headProj 1 1).hc = .ok L' := e4
  rw [e3', ok_bind, e4', ok_bind]
  simp

theorem leftIso_congr {A B : ND ℂ} {d l r : ℕ} (hA : A.shape = [d, l, r]) (h : A ≈ B) (hi : LeftIso A) : LeftIso B := by
  have hB : B.shape = [d, l, r] := by rw [← (ND.eqv_def.1 h).1, hA]
  intro c hc c' hc'
  rw [dim2 hB] at hc hc'
  rw [dim0 hB, dim1 hB, ← hi c (by rw [dim2 hA]; exact hc) c' (by rw [dim2 hA]; exact hc'), dim0 hA, dim1 hA]
  refine Finset.sum_congr rfl fun s hs => Finset.sum_congr rfl fun a ha => ?_
  rw [eqv_val3 h hA (by simpa using hs) (by simpa using ha) hc, eqv_val3 h hA (by simpa using hs) (by simpa using ha) hc']

theorem rightIso_congr {A B : ND ℂ} {d l r : ℕ} (hA : A.shape = [d, l, r]) (h : A ≈ B) (hi : RightIso A) : RightIso B := by
  have hB : B.shape = [d, l, r] := by rw [← (ND.eqv_def.1 h).1, hA]
  intro c hc c' hc'
  rw [dim1 hB] at hc hc'
  rw [dim0 hB, dim2 hB, ← hi c (by rw [dim1 hA]; exact hc) c' (by rw [dim1 hA]; exact hc'), dim0 hA, dim2 hA]
  refine Finset.sum_congr rfl fun s hs => Finset.sum_congr rfl fun a ha => ?_
  rw [eqv_val3 h hA (by simpa using hs) hc (by simpa using ha), eqv_val3 h hA (by simpa using hs) hc' (by simpa using ha)]

theorem iso_congr : ∀ {ds : List ℕ} {As Bs : List (ND ℂ)} {l r : ℕ}, MpsChain ds As l r → List.Forall₂ (· ≈ ·) As Bs →
    ((∀ A ∈ As, LeftIso A) → ∀ A ∈ Bs, LeftIso A) ∧ ((∀ A ∈ As, RightIso A) → ∀ A ∈ Bs, RightIso A) ∧
    (∀ D0, (∀ A ∈ As, A.dim 2 ≤ D0) → ∀ A ∈ Bs, A.dim 2 ≤ D0) ∧ ∀ D0, (∀ A ∈ As, A.dim 1 ≤ D0) → ∀ A ∈ Bs, A.dim 1 ≤ D0
  | [], [], [], _, _, _, _ => by simp
  | d :: ds, A :: As, B :: Bs, l, r, h, hf => by
    obtain ⟨n, hA, h⟩ := h
    obtain ⟨hAB, hf⟩ := List.forall₂_cons.1 hf
    have ih := iso_congr h hf
    have hB : B.shape = [d, l, n] := by rw [← (ND.eqv_def.1 hAB).1, hA]
    refine ⟨fun hAll C hC => ?_, fun hAll C hC => ?_, fun D0 hAll C hC => ?_, fun D0 hAll C hC => ?_⟩
    · rcases List.mem_cons.1 hC with rfl | hC
      · exact leftIso_congr hA hAB (hAll A (by simp))
      · exact ih.1 (fun C hC => hAll C (List.mem_cons_of_mem _ hC)) C hC
    · rcases List.mem_cons.1 hC with rfl | hC
      · exact rightIso_congr hA hAB (hAll A (by simp))
      · exact ih.2.1 (fun C hC => hAll C (List.mem_cons_of_mem _ hC)) C hC
    · rcases List.mem_cons.1 hC with rfl | hC
      · have := hAll A (by simp)
        rwa [dim2 hB, ← dim2 hA]
      · exact ih.2.2.1 D0 (fun C hC => hAll C (List.mem_cons_of_mem _ hC)) C hC
    · rcases List.mem_cons.1 hC with rfl | hC
      · have := hAll A (by simp)
        rwa [dim1 hB, ← dim1 hA]
      · exact ih.2.2.2 D0 (fun C hC => hAll C (List.mem_cons_of_mem _ hC)) C hC
  | [], _ :: _, _, _, _, h, _ => by simp at h
  | _ :: _, [], _, _, _, h, _ => by simp at h

theorem SiteL.congr {A B : ND ℂ} {w w' : List ℂ} (h : A ≈ B) (hs : SiteL A w w') : SiteL B w w' := by
  obtain ⟨d, hA, hv⟩ := hs
  refine ⟨d, by rw [← (ND.eqv_def.1 h).1, hA], fun a ha a' ha' => ?_⟩
  rw [← hv a ha a' ha']
  refine Finset.sum_congr rfl fun s hs => Finset.sum_congr rfl fun c hc => ?_
  rw [eqv_val3 h hA (by simpa using hs) ha (by simpa using hc), eqv_val3 h hA (by simpa using hs) ha' (by simpa using hc)]

theorem EnvL.congr {P : List ℂ → Prop} : ∀ {As Bs : List (ND ℂ)} {w : List ℂ} {Ls : List (ND ℂ)},
    List.Forall₂ (· ≈ ·) As Bs → EnvL P As w Ls → EnvL P Bs w Ls
  | [], [], _, _, _, h => h
  | A :: As, B :: Bs, w, L :: Ls, hf, h => by
    obtain ⟨hAB, hf⟩ := List.forall₂_cons.1 hf
    obtain ⟨hL, hw, w', hs, he⟩ := h
    exact ⟨hL, hw, w', hs.congr hAB, he.congr hf⟩
  | _ :: _, _ :: _, _, [], _, h => h.elim

end Xmps
