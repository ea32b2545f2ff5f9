import Verif.Lemmas.CanonProj
import Verif.Spec.Schmidt
import Verif.Props.Orthogonalise

/-! # Complete sweeps of `left_canonicalise` and `right_canonicalise` -/

namespace Xmps

open Finset Xmps.Spec

/-- the first sweep of `left_canonicalise` -/
theorem svd_left_full {svd : Svd} (hsvd : SVDLaw svd) (D : Option ℕ) (minD : Bool) (hD : ∀ D0, D = some D0 → 0 < D0)
    {x : FMPS ℂ} {ds : List ℕ} (hx : x.Holds ds) (hu : ∀ t ∈ ds, t = x.d) (hp : PosDims x.data)
    (hnz : D = none → ∃ s, InB ds s ∧ psi x.data s ≠ 0) :
    ∃ qs R, (List.range x.data.length).foldlM (FMPS.leftSvdStep svd D minD) x = .ok { x with data := qs, norm_ := some R } ∧
      MpsChain ds qs 1 1 ∧ (∀ A ∈ qs, LeftIso A) ∧ PosDims qs ∧ R.shape = [1, 1] ∧
      (∀ D0, D = some D0 → ∀ A ∈ qs, A.dim 2 ≤ D0) ∧
      (D = none → ∀ s, InB ds s → psi x.data s = psi qs s * R.val [0, 0]) ∧
      R.val [0, 0] = braket ds qs x.data := by
  have hlen := hx.chain.length_eq
  have hpos : 0 < ds.length := List.length_pos_iff.2 hx.ne
  have hpsi : ∀ s, InB ds s → psi x.data s = amp x.data s 0 0 := fun s hs => psi_eq_amp hx.chain hx.data_ne hs.length_eq
  obtain ⟨qs, rest', u, e, hq, hch1, hch2, hiso, hpd, -, hbd, hnz', hamp, hov⟩ :=
    svd_left_sweep hsvd D minD hD (ds.length - 1) x [] x.data ds 1 1 (by simp) hu hx.chain hp (by omega) (by
      intro h
      obtain ⟨s, hs, hne⟩ := hnz h
      exact ⟨s, 0, 0, hs, by omega, by rwa [← hpsi s hs]⟩)
  obtain ⟨d, hdrop⟩ : ∃ d, ds.drop (ds.length - 1) = [d] := by
    have : (ds.drop (ds.length - 1)).length = 1 := by simp; omega
    exact List.length_eq_one_iff.1 this
  have hds : ds = ds.take (ds.length - 1) ++ [d] := by rw [← hdrop, List.take_append_drop]
  rw [hdrop] at hch2 hnz' hov
  obtain ⟨A, rfl⟩ : ∃ A, rest' = [A] := by
    have := hch2.length_eq
    exact List.length_eq_one_iff.1 (by simpa using this)
  obtain ⟨m, hA, hm⟩ := hch2
  obtain rfl : m = 1 := hm
  have hdx : x.d = d := (hu d (by rw [hds]; simp)).symm
  have hpA : PosDims [A] := fun B hB => hpd B (by simp at hB; simp [hB])
  rw [PosDims.cons, posDims3 hA] at hpA
  obtain ⟨⟨hd, hu0, _⟩, _⟩ := hpA
  obtain ⟨A', R, k, estep, hk, hA', hR, hiA, hkD, hkN, hv1, hv2⟩ :=
    leftSvdStep_last hsvd (x := { x with data := qs ++ [A] }) (pre := qs) rfl hdx hA hd hu0 (by omega) D minD
  have hdu : 0 < d * u := Nat.mul_pos hd hu0
  have hk1 : k = 1 := by
    have hk1 : k ≤ 1 := le_trans hk (min_le_right _ _)
    rcases Nat.eq_zero_or_pos k with h0 | h0
    · exfalso
      subst h0
      cases hDe : D with
      | some D0 =>
        have := hkD D0 hDe
        have := hD D0 hDe
        omega
      | none =>
        obtain ⟨ss, a, b, hs, ha, hne⟩ := hnz' hDe
        match ss, hs with
        | [s], hs =>
          simp only [amp_cons, dim2 hA, Finset.sum_range_one] at hne
          rw [hv1 hDe s hs.1 a ha 0 (by omega)] at hne
          simp at hne
    · omega
  subst hk1
  have hch' : MpsChain ds (qs ++ [A']) 1 1 := by
    rw [hds]
    exact (mpsChain_append hch1.length_eq).2 ⟨u, hch1, 1, hA', rfl⟩
  have hiso' : ∀ B ∈ qs ++ [A'], LeftIso B := by
    intro B hB
    rcases List.mem_append.1 hB with h | h
    · exact hiso B h
    · rw [List.mem_singleton.1 h]; exact hiA
  have hne' : qs ++ [A'] ≠ [] := by simp
  refine ⟨qs ++ [A'], R, ?_, hch', hiso', ?_, hR, ?_, ?_, ?_⟩
  · have hl : x.data.length = (ds.length - 1) + 1 := by omega
    rw [hl, List.range_succ, List.foldlM_append, List.range_eq_range']
    simp only [List.length_nil, List.nil_append] at e
    rw [e, ok_bind, List.foldlM_cons]
    have : ds.length - 1 = qs.length := hq.symm
    rw [this, estep, ok_bind]
    rfl
  · intro B hB
    rcases List.mem_append.1 hB with h | h
    · exact hpd B (by simp [h])
    · rw [List.mem_singleton.1 h]
      exact (posDims3 hA').2 ⟨hd, hu0, by omega⟩
  · intro D0 h B hB
    rcases List.mem_append.1 hB with h' | h'
    · exact hbd D0 h B h'
    · rw [List.mem_singleton.1 h', dim2 hA']
      exact hD D0 h
  · intro h s hs
    rw [hpsi s hs, psi_eq_amp hch' hne' hs.length_eq, ← hamp h s hs 0 (by omega) 0]
    rw [hds] at hs
    obtain ⟨s1, s2, rfl, hs1, hs2⟩ := hs.split2
    match s2, hs2 with
    | [t], hs2 =>
      rw [amp_append hch1 hs1.length_eq 0 0 (by omega), amp_append hch1 hs1.length_eq 0 0 (by omega), Finset.sum_mul]
      refine Finset.sum_congr rfl fun c hc => ?_
      rw [amp_single _ _ _ _ (by rw [dim2 hA]; omega), amp_single _ _ _ _ (by rw [dim2 hA']; omega),
        hv1 h t hs2.1 c (by simpa using hc) 0 (by omega), Finset.sum_range_one, mul_assoc]
  · have := hov [A'] 0 0
    rw [Finset.sum_range_one] at this
    unfold braket
    rw [sumIdx_congr (g := fun ss => star (amp (qs ++ [A']) ss 0 0) * amp x.data ss 0 0) fun s hs => by
      rw [hpsi s hs, psi_eq_amp hch' hne' hs.length_eq], this, hv2 0 (by omega) 0 (by omega)]
    simp only [sumIdx_cons, sumIdx_nil]
    rw [Finset.sum_comm]
    refine Finset.sum_congr rfl fun a _ => Finset.sum_congr rfl fun s _ => ?_
    rw [amp_single _ _ _ _ (by rw [dim2 hA']; omega), amp_single _ _ _ _ (by rw [dim2 hA]; omega)]

/-- bond dimensions of a chain of left isometries are not zero -/
theorem leftIso_pos : ∀ {ds : List ℕ} {As : List (ND ℂ)} {l r : ℕ}, MpsChain ds As l r → 0 < r → (∀ t ∈ ds, 0 < t) →
    (∀ A ∈ As, LeftIso A) → PosDims As ∧ 0 < l
  | [], [], l, r, h, hr, _, _ => by
    have : l = r := h
    exact ⟨fun A hA => by simp at hA, by omega⟩
  | d :: ds, A :: As, l, r, h, hr, hds, hi => by
    obtain ⟨n, hA, h⟩ := h
    obtain ⟨h1, hn⟩ := leftIso_pos h hr (fun t ht => hds t (List.mem_cons_of_mem _ ht)) (fun B hB => hi B (List.mem_cons_of_mem _ hB))
    have hl : 0 < l := by
      rcases Nat.eq_zero_or_pos l with h0 | h0
      · exfalso
        subst h0
        have := hi A (by simp) 0 (by rw [dim2 hA]; exact hn) 0 (by rw [dim2 hA]; exact hn)
        rw [dim1 hA] at this
        simp at this
      · exact h0
    exact ⟨by rw [PosDims.cons, posDims3 hA]; exact ⟨⟨hds d (by simp), hl, hn⟩, h1⟩, hl⟩
  | [], _ :: _, _, _, h, _, _, _ => by simp at h
  | _ :: _, [], _, _, h, _, _, _ => by simp at h

/-- right environments of a chain with diagonal environments -/
theorem EnvL.env {P : List ℂ → Prop} : ∀ {As : List (ND ℂ)} {ds : List ℕ} {w : List ℂ} {Ls : List (ND ℂ)}, EnvL P As w Ls →
    MpsChain ds As w.length 1 → ∀ a < w.length, ∀ a' < w.length,
    sumIdx ds (fun s => amp As s a 0 * star (amp As s a' 0)) = if a = a' then w.getD a 0 else 0
  | [], [], w, Ls, h, _, a, ha, a', ha' => by
    rw [h.1] at ha ha' ⊢
    simp at ha ha'
    subst ha ha'
    simp
  | [], _ :: _, w, Ls, h, hc, _, _, _, _ => by simp at hc
  | _ :: _, [], w, Ls, h, hc, _, _, _, _ => by simp at hc
  | _ :: _, _ :: _, _, [], h, _, _, _, _, _ => h.elim
  | A :: As, d :: ds, w, L :: Ls, h, hc, a, ha, a', ha' => by
    obtain ⟨hL, hw, w', ⟨d', hA', hs⟩, henv⟩ := h
    obtain ⟨n, hA, hc⟩ := hc
    rw [hA] at hA'
    simp at hA'
    obtain ⟨rfl, rfl⟩ := hA'
    have ih := EnvL.env henv hc
    rw [← hs a ha a' ha', sumIdx_cons]
    refine Finset.sum_congr rfl fun s _ => ?_
    simp only [amp_cons, dim2 hA, star_sum, star_mul', Finset.sum_mul, Finset.mul_sum]
    simp only [sumIdx_finset_sum]
    rw [Finset.sum_comm]
    refine Finset.sum_congr rfl fun c hc' => ?_
    rw [Finset.sum_congr rfl fun c' hc'' => show _ = if c = c' then A.val [s, a, c] * w'.getD c 0 * star (A.val [s, a', c']) else 0 by
      rw [sumIdx_congr (g := fun ss => (A.val [s, a, c] * star (A.val [s, a', c'])) * (amp As ss c 0 * star (amp As ss c' 0))) fun ss _ => by ring,
        sumIdx_mul_left, ih c (by simpa using hc') c' (by simpa using hc'')]
      split
      · ring
      · ring]
    rw [Finset.sum_ite_eq, if_pos hc']

theorem chain_last : ∀ {ds : List ℕ} {As : List (ND ℂ)} {l r : ℕ}, MpsChain ds As l r → As ≠ [] →
    ∃ Z d m, pyGet As (As.length - 1) = .ok Z ∧ Z.shape = [d, m, r]
  | [], [], _, _, _, hne => by simp at hne
  | [d], [A], l, r, h, _ => by
    obtain ⟨n, hA, h⟩ := h
    have : n = r := h
    subst this
    exact ⟨A, d, l, by simp [pyGet], hA⟩
  | d :: d' :: ds, A :: A' :: As, l, r, h, _ => by
    obtain ⟨n, hA, h⟩ := h
    obtain ⟨Z, e, m, h1, h2⟩ := chain_last h (by simp)
    exact ⟨Z, e, m, by simpa [pyGet] using h1, h2⟩
  | [], _ :: _, _, _, h, _ => by simp at h
  | _ :: _, [], _, _, h, _ => by simp at h
  | [_], _ :: _ :: _, _, _, h, _ => by obtain ⟨_, _, h⟩ := h; simp at h
  | _ :: _ :: _, [_], _, _, h, _ => by obtain ⟨_, _, h⟩ := h; simp at h

theorem nonnegLast_one : NonnegLast [1] := by
  refine ⟨fun i => ?_, fun i j hij _ => ?_⟩
  · cases i with
    | zero => exact ⟨1, by norm_num, by simp⟩
    | succ i => exact ⟨0, le_rfl, by simp⟩
  · cases j with
    | zero => omega
    | succ j => simp

theorem allPos_one : AllPos [1] := by
  intro i hi
  simp at hi
  subst hi
  exact ⟨1, by norm_num, by simp⟩

/-- the whole rank reduction of `left_canonicalise` -/
theorem project_full {ds : List ℕ} {data : List (ND ℂ)} {L0 Lend : ND ℂ} {Ls : List (ND ℂ)} (hc : MpsChain ds data 1 1)
    (hne : data ≠ []) (henv : EnvL NonnegLast data [1] (L0 :: Ls)) :
    ∃ data' Ls', FMPS.project data (L0 :: Ls ++ [Lend]) = .ok (data', Ls' ++ [Lend]) ∧ MpsChain ds data' 1 1 ∧
      EnvL AllPos data' [1] Ls' ∧ ((∀ A ∈ data, LeftIso A) → ∀ A ∈ data', LeftIso A) ∧
      (∀ D0, (∀ A ∈ data, A.dim 2 ≤ D0) → ∀ A ∈ data', A.dim 2 ≤ D0) ∧
      ∀ ss, InB ds ss → amp data' ss 0 0 = amp data ss 0 0 := by
  obtain ⟨Z, dz, mz, hZ, hZs⟩ := chain_last hc hne
  match ds, data, hc, hne, henv, hZ with
  | [], [], _, hne, _, _ => simp at hne
  | [], _ :: _, hc, _, _, _ => simp at hc
  | _ :: _, [], hc, _, _, _ => simp at hc
  | d :: ds, A :: As, hc, hne, henv, hZ =>
    have hA : ∃ n, A.shape = [d, 1, n] := ⟨hc.choose, hc.choose_spec.1⟩
    obtain ⟨n0, hA⟩ := hA
    have hL0 : IsDiag L0 [1] := henv.1
    obtain ⟨data1, L0', e0, hf, hL0'⟩ := projStep_zero (Ls := Ls ++ [Lend]) hZ hZs (by simp) hA hL0
    have hcc := chain_congr hc hf
    have henvc := henv.congr hf
    have hic := iso_congr hc hf
    have hac : ∀ ss, InB (d :: ds) ss → amp (A :: As) ss 0 0 = amp data1 ss 0 0 := fun ss hs => amp_congr hc hf hs 0 0 (by omega)
    match data1, hf with
    | B :: Bs, hf =>
      obtain ⟨n, hB, hcB⟩ := hcc
      obtain ⟨_, _, w, hsite, henvB⟩ := henvc
      have hn : n = w.length := by
        obtain ⟨_, hA', _⟩ := hsite
        rw [hB] at hA'
        simpa using (List.cons.inj (List.cons.inj (List.cons.inj hA').2).2).1
      subst hn
      have hw := henvB.weight (fun _ h => h)
      obtain ⟨B', Bs', Ls', e, hB', hB'v, henv', hch', hiso, hbd, hamp⟩ :=
        project_left Bs B [] [L0'] Ls [Lend] ds w d 1 rfl hB henvB hcB
      have hcut := hsite.cut (A' := B') (d := d) hB nonnegLast_one hw (by rw [rk_one]; exact hB') (fun s _ a _ c hc => hB'v s a c hc)
      have hlen : As.length = Bs.length := by simpa using hf.length_eq
      refine ⟨B' :: Bs', L0' :: Ls', ?_, ⟨rk w, hB', hch'⟩, ⟨hL0', allPos_one, _, ?_, henv'⟩, ?_, ?_, ?_⟩
      · unfold FMPS.project
        rw [List.length_cons, List.range_succ_eq_map, List.foldlM_cons, List.cons_append, e0, ok_bind]
        have : List.map Nat.succ (List.range As.length) = List.range' 1 Bs.length := by
          rw [hlen, List.range'_eq_map_range]
          exact List.map_congr_left fun i _ => by omega
        rw [this]
        simpa using e
      · have := hcut.1
        rw [rk_one] at this
        simpa using this
      · intro hAll C hC
        have hAll' := hic.1 hAll
        rcases List.mem_cons.1 hC with rfl | hC
        · exact hcut.2 (hAll' B (by simp))
        · exact hiso (fun C hC => hAll' C (List.mem_cons_of_mem _ hC)) C hC
      · intro D0 hAll C hC
        have hAll' := hic.2.2.1 D0 hAll
        rcases List.mem_cons.1 hC with rfl | hC
        · have := hAll' B (by simp)
          rw [dim2 hB] at this
          rw [dim2 hB']
          exact (rk_spec hw).1.trans this
        · exact hbd D0 (fun C hC => hAll' C (List.mem_cons_of_mem _ hC)) C hC
      · intro ss hs
        rw [hac ss hs]
        match ss, hs with
        | s :: ss, hs =>
          simp only [amp_cons, dim2 hB, dim2 hB']
          rw [← Finset.sum_subset (Finset.range_mono (rk_spec hw).1) fun c hc' hc'' => by
            rw [henvB.amp_zero hcB c (by simpa using hc') ((rk_spec hw).2.2 c (by simpa using hc'')) ss hs.2, mul_zero]]
          refine Finset.sum_congr rfl fun c hc' => ?_
          have hc' : c < rk w := by simpa using hc'
          rw [hB'v s 0 c hc', hamp ss hs.2 c hc']

/-- the environments at a cut -/
theorem EnvL.cut {P : List ℂ → Prop} : ∀ {As : List (ND ℂ)} {ds : List ℕ} {w : List ℂ} {Ls : List (ND ℂ)} (m : ℕ), EnvL P As w Ls →
    MpsChain ds As w.length 1 → m < As.length → ∃ L w', pyGet Ls m = .ok L ∧ IsDiag L w' ∧ P w' ∧
      MpsChain (ds.take m) (As.take m) w.length w'.length ∧ MpsChain (ds.drop m) (As.drop m) w'.length 1 ∧
      EnvL P (As.drop m) w' (Ls.drop m)
  | [], _, w, Ls, m, h, _, hm => by simp at hm
  | _ :: _, [], w, Ls, m, h, hc, _ => by simp at hc
  | _ :: _, _ :: _, _, [], _, h, _, _ => h.elim
  | A :: As, d :: ds, w, L :: Ls, 0, h, hc, _ => ⟨L, w, by simp, h.1, h.2.1, by simp, by simpa using hc, by simpa using h⟩
  | A :: As, d :: ds, w, L :: Ls, m + 1, h, hc, hm => by
    obtain ⟨hL, hw, w', ⟨d', hA', hs⟩, henv⟩ := h
    obtain ⟨n, hA, hc⟩ := hc
    rw [hA] at hA'
    simp at hA'
    obtain ⟨rfl, rfl⟩ := hA'
    obtain ⟨L', w'', e, h1, h2, h3, h4, h5⟩ := EnvL.cut m henv hc (by simpa using hm)
    exact ⟨L', w'', by simpa using e, h1, h2, ⟨_, hA, h3⟩, h4, h5⟩

/-- left isometries on the left of a cut and a positive diagonal environment on its right -/
theorem schmidt_of_env {ds1 ds2 : List ℕ} {As1 As2 : List (ND ℂ)} {w : List ℂ} (h1 : MpsChain ds1 As1 1 w.length)
    (h2 : MpsChain ds2 As2 w.length 1) (hne : As1 ++ As2 ≠ []) (hi : ∀ A ∈ As1, LeftIso A) (hw : AllPos w)
    (he : ∀ a < w.length, ∀ a' < w.length,
      sumIdx ds2 (fun s => amp As2 s a 0 * star (amp As2 s a' 0)) = if a = a' then w.getD a 0 else 0) :
    SchmidtAt ds1 ds2 (psi (As1 ++ As2)) (w.map Complex.re) := by
  have hre : ∀ a < w.length, 0 < (w.map Complex.re).getD a 0 ∧ w.getD a 0 = (((w.map Complex.re).getD a 0 : ℝ) : ℂ) := by
    intro a ha
    obtain ⟨y, hy, e⟩ := hw a ha
    have : (w.map Complex.re).getD a 0 = y := by
      rw [List.getD_eq_getElem _ _ (by simpa using ha), List.getElem_map]
      rw [List.getD_eq_getElem _ _ ha] at e
      rw [e]; simp
    rw [this]
    exact ⟨hy, e⟩
  refine ⟨?_, fun a s => amp As1 s 0 a, fun a s => (((Real.sqrt ((w.map Complex.re).getD a 0))⁻¹ : ℝ) : ℂ) * amp As2 s a 0, ?_, ?_, ?_⟩
  · intro x hx
    obtain ⟨i, hi, rfl⟩ := List.getElem_of_mem hx
    have := (hre i (by simpa using hi)).1
    rwa [List.getD_eq_getElem _ _ hi] at this
  · intro s1 hs1 s2 hs2
    have hc : MpsChain (ds1 ++ ds2) (As1 ++ As2) 1 1 := (mpsChain_append h1.length_eq).2 ⟨_, h1, h2⟩
    rw [psi_eq_amp hc hne (by simp [hs1.length_eq, hs2.length_eq]), amp_append h1 hs1.length_eq 0 0 (by omega)]
    rw [List.length_map]
    refine Finset.sum_congr rfl fun a ha => ?_
    have h0 := (hre a (by simpa using ha)).1
    have : (Real.sqrt ((w.map Complex.re).getD a 0) : ℂ) * (((Real.sqrt ((w.map Complex.re).getD a 0))⁻¹ : ℝ) : ℂ) = 1 := by
      rw [← Complex.ofReal_mul, mul_inv_cancel₀ (Real.sqrt_pos.2 h0).ne']
      simp
    rw [mul_assoc, ← mul_assoc (Real.sqrt _ : ℂ), this, one_mul]
  · intro a ha b hb
    have := leftIso_env h1 hi a (by simpa using ha) b (by simpa using hb)
    rwa [Finset.sum_range_one] at this
  · intro a ha b hb
    have ha : a < w.length := by simpa using ha
    have hb : b < w.length := by simpa using hb
    rw [sumIdx_congr (g := fun s => ((((Real.sqrt ((w.map Complex.re).getD a 0))⁻¹ : ℝ) : ℂ) * (((Real.sqrt ((w.map Complex.re).getD b 0))⁻¹ : ℝ) : ℂ)) *
      (amp As2 s b 0 * star (amp As2 s a 0))) fun s _ => by
        have : star (((Real.sqrt ((w.map Complex.re).getD a 0))⁻¹ : ℝ) : ℂ) = (((Real.sqrt ((w.map Complex.re).getD a 0))⁻¹ : ℝ) : ℂ) :=
          Complex.conj_ofReal _
        rw [star_mul', this]; ring, sumIdx_mul_left, he b hb a ha]
    by_cases hab : a = b
    · subst hab
      obtain ⟨h0, h⟩ := hre a ha
      rw [if_pos rfl, if_pos rfl, h, ← Complex.ofReal_mul, ← Complex.ofReal_mul, ← mul_inv, Real.mul_self_sqrt h0.le,
        inv_mul_cancel₀ h0.ne']
      simp
    · rw [if_neg hab, if_neg (Ne.symm hab), mul_zero]

end Xmps
