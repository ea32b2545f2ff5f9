import Verif.Lemmas.CanonRight
import Verif.Props.LapackSvd
import Verif.Props.Orthogonalise
import Verif.Lemmas.FmpsExamples
import Verif.Spec.Env

/-!
# Canonical forms (`fMPS.py:463-648`)

Theorems about `left_canonicalise`, `right_canonicalise` and `mixed_canonicalise`, for every
decomposition routine that satisfies `SVDLaw` and (where the sweep back is run) `EigOrthoLaw`.
-/

namespace Xmps

open Finset Xmps.Spec

theorem leftSvdStep_length {svd : Svd} {D : Option ℕ} {minD : Bool} {x y : FMPS ℂ} {m : ℕ}
    (h : x.leftSvdStep svd D minD m = .ok y) : y.data.length = x.data.length := by
  unfold FMPS.leftSvdStep at h
  obtain ⟨_, _, h⟩ := bind_eq_ok h
  obtain ⟨_, _, h⟩ := bind_eq_ok h
  obtain ⟨⟨_, _, _⟩, _, h⟩ := bind_eq_ok h
  simp only at h
  obtain ⟨_, _, h⟩ := bind_eq_ok h
  obtain ⟨_, _, h⟩ := bind_eq_ok h
  split at h
  · obtain ⟨_, _, h⟩ := bind_eq_ok h
    obtain ⟨_, _, h⟩ := bind_eq_ok h
    rw [← Except.ok.inj h]
    simp
  · rw [← Except.ok.inj h]
    simp

theorem FMPS.Holds.capD {x : FMPS ℂ} {ds : List ℕ} (hx : x.Holds ds) (D : Option ℕ) : (x.capD D).Holds ds := by
  cases D with
  | none => exact hx
  | some D => exact ⟨hx.chain, hx.ne, hx.len, hx.d⟩

theorem FMPS.capD_data (x : FMPS ℂ) (D : Option ℕ) : (x.capD D).data = x.data := by cases D <;> rfl
theorem FMPS.capD_d (x : FMPS ℂ) (D : Option ℕ) : (x.capD D).d = x.d := by cases D <;> rfl
theorem FMPS.capD_L (x : FMPS ℂ) (D : Option ℕ) : (x.capD D).L = x.L := by cases D <;> rfl

theorem isDiag_real {L : ND ℂ} {w : List ℂ} (h : IsDiag L w) (hw : AllPos w) : DiagReal L (w.map Complex.re) := by
  refine ⟨by rw [h.1]; simp, ?_⟩
  intro i hi j hj
  have hi : i < w.length := by simpa using hi
  have hj : j < w.length := by simpa using hj
  rw [h.2 i hi j hj]
  obtain ⟨y, _, e⟩ := hw i hi
  have : (w.map Complex.re).getD i 0 = y := by
    rw [List.getD_eq_getElem _ _ (by simpa using hi), List.getElem_map]
    rw [List.getD_eq_getElem _ _ hi] at e
    rw [e]; simp
  rw [this, e]

/-- a positive diagonal environment in terms of its real weights -/
theorem env_real {w : List ℂ} (hw : AllPos w) {f : ℕ → ℕ → ℂ}
    (h : ∀ a < w.length, ∀ b < w.length, f a b = if a = b then w.getD a 0 else 0) :
    ∀ a < (w.map Complex.re).length, ∀ b < (w.map Complex.re).length,
      f a b = if a = b then (((w.map Complex.re).getD a 0 : ℝ) : ℂ) else 0 := by
  intro a ha b hb
  have ha : a < w.length := by simpa using ha
  have hb : b < w.length := by simpa using hb
  rw [h a ha b hb]
  obtain ⟨y, _, e⟩ := hw a ha
  have : (w.map Complex.re).getD a 0 = y := by
    rw [List.getD_eq_getElem _ _ (by simpa using ha), List.getElem_map]
    rw [List.getD_eq_getElem _ _ ha] at e
    rw [e]; simp
  rw [this, e]

theorem braket_scale_left {ds : List ℕ} {As Bs Cs : List (ND ℂ)} {z : ℂ} (h : ∀ s, InB ds s → psi As s = z * psi Bs s) :
    braket ds As Cs = star z * braket ds Bs Cs := by
  unfold braket
  rw [← sumIdx_mul_left]
  exact sumIdx_congr fun s hs => by rw [h s hs, star_mul']; ring

/-- the local dimensions of a chain without empty axes -/
theorem chain_pos : ∀ {ds : List ℕ} {As : List (ND ℂ)} {l r : ℕ}, MpsChain ds As l r → PosDims As → ∀ t ∈ ds, 0 < t
  | [], [], _, _, _, _, t, ht => by simp at ht
  | d :: ds, A :: As, l, r, h, hp, t, ht => by
    obtain ⟨n, hA, h⟩ := h
    rw [PosDims.cons, posDims3 hA] at hp
    rcases List.mem_cons.1 ht with rfl | ht
    · exact hp.1.1
    · exact chain_pos h hp.2 t ht
  | [], _ :: _, _, _, h, _, _, _ => by simp at h
  | _ :: _, [], _, _, h, _, _, _ => by simp at h

/-- `left_canonicalise(D, sweep_back=False)` (and `minD=False`): left isometries, a state of norm 1,
bond dimensions at most `D`, and `norm_` is the overlap of the new state with the old one.  Without a
limit on the bond dimension the old state is `norm_` times the new one. -/
theorem FMPS.leftCanonicalise_sweep {svd : Svd} {eig : Eig} (hsvd : SVDLaw svd) {x : FMPS ℂ} {ds : List ℕ} (hx : x.Holds ds)
    (hu : ∀ t ∈ ds, t = x.d) (hp : PosDims x.data) (D : Option ℕ) (hD : ∀ D0, D = some D0 → 0 < D0)
    (hnz : D = none → ∃ s, InB ds s ∧ psi x.data s ≠ 0) (sweepBack minD : Bool) (hb : (sweepBack && minD) = false) :
    ∃ y R, x.leftCanonicalise svd eig D sweepBack minD = .ok (y, none) ∧ y.Holds ds ∧ PosDims y.data ∧
      (∀ A ∈ y.data, LeftIso A) ∧ braket ds y.data y.data = 1 ∧
      (∀ D0, D = some D0 → ∀ A ∈ y.data, A.dim 2 ≤ D0) ∧
      y.norm_ = some R ∧ R.shape = [1, 1] ∧ R.val [0, 0] = braket ds y.data x.data ∧
      (D = none → ∀ s, InB ds s → psi x.data s = R.val [0, 0] * psi y.data s) ∧
      y.canonical = true ∧ y.orthogonal = true ∧ y.oc = some ds.length := by
  have hx' := hx.capD D
  obtain ⟨qs, R, e, hch, hiso, hpd, hR, hbd, hpsi, hov⟩ := svd_left_full hsvd D minD hD hx' (by rwa [FMPS.capD_d])
    (by rwa [FMPS.capD_data]) (by rwa [FMPS.capD_data])
  have hne : qs ≠ [] := by
    rintro rfl
    have := hch.length_eq
    exact hx.ne (List.length_eq_zero_iff.1 this.symm)
  rw [FMPS.capD_data] at hpsi hov
  refine ⟨{ (x.capD D) with data := qs, norm_ := some R, canonical := true, orthogonal := true, oc := some x.L }, R, ?_,
    ⟨hch, hx.ne, hx'.len, hx'.d⟩, hpd, hiso, braket_leftIso hch hne hiso, hbd, rfl, hR, hov, fun h s hs => ?_, rfl, rfl, ?_⟩
  · unfold FMPS.leftCanonicalise
    simp only [e, ok_bind, hb, FMPS.capD_L]
    rfl
  · rw [hpsi h s hs, mul_comm]
  · simp only [hx.len]

/-- `left_canonicalise(D)`: left isometries; the state has norm 1 and is, without a limit on the bond
dimension, the old state up to the factor `norm_` and a phase; for every cut `m` the matrix `Ls[m]` is
diagonal and its diagonal are the squared Schmidt coefficients of the new state, all positive. -/
theorem FMPS.leftCanonicalise_spec {svd : Svd} {eig : Eig} (hsvd : SVDLaw svd) (heig : EigOrthoLaw eig) {x : FMPS ℂ}
    {ds : List ℕ} (hx : x.Holds ds) (hu : ∀ t ∈ ds, t = x.d) (hp : PosDims x.data) (D : Option ℕ)
    (hD : ∀ D0, D = some D0 → 0 < D0) (hnz : D = none → ∃ s, InB ds s ∧ psi x.data s ≠ 0) :
    ∃ y Ls R, ∃ z : ℂ, x.leftCanonicalise svd eig D = .ok (y, some Ls) ∧ y.Holds ds ∧ PosDims y.data ∧
      (∀ A ∈ y.data, LeftIso A) ∧ braket ds y.data y.data = 1 ∧
      (∀ D0, D = some D0 → ∀ A ∈ y.data, A.dim 2 ≤ D0) ∧
      y.norm_ = some R ∧ R.shape = [1, 1] ∧ ‖z‖ = 1 ∧ z * R.val [0, 0] = braket ds y.data x.data ∧
      (D = none → ∀ s, InB ds s → psi x.data s = z * R.val [0, 0] * psi y.data s) ∧
      Ls.length = ds.length + 1 ∧
      (∀ m ≤ ds.length, ∃ L lam, pyGet Ls m = .ok L ∧ DiagReal L lam ∧ SchmidtAt (ds.take m) (ds.drop m) (psi y.data) lam ∧
        (∀ A, pyGet y.data m = .ok A → A.dim 1 = lam.length) ∧
        ∀ a < lam.length, ∀ b < lam.length, rightEnv (ds.drop m) (y.data.drop m) a b = if a = b then ((lam.getD a 0 : ℝ) : ℂ) else 0) ∧
      y.canonical = true ∧ y.orthogonal = true ∧ y.oc = some ds.length := by
  have hx' := hx.capD D
  obtain ⟨qs, R, e, hch, hiso, hpd, hR, hbd, hpsi, hov⟩ := svd_left_full hsvd D true hD hx' (by rwa [FMPS.capD_d])
    (by rwa [FMPS.capD_data]) (by rwa [FMPS.capD_data])
  have ne_of : ∀ {qs : List (ND ℂ)}, MpsChain ds qs 1 1 → qs ≠ [] := by
    rintro qs hch rfl
    have := hch.length_eq
    exact hx.ne (List.length_eq_zero_iff.1 this.symm)
  rw [FMPS.capD_data] at hpsi hov
  obtain ⟨As, V, S, Ls, w, eb, hchA, hwl, hVs, hoV, hS, hwn, henv, hisoA, hhead, hbdA, hampA⟩ := backLeft_ok heig qs ds 1 hch hpd
  have hAne := ne_of hchA
  obtain ⟨Lt, rfl⟩ : ∃ Lt, Ls = S :: Lt := by
    have := hhead hAne
    match Ls, this with
    | L :: Lt, h => exact ⟨Lt, by simpa using h⟩
  have hpsiA : ∀ s, InB ds s → psi As s = star (V.val [0, 0]) * psi qs s := by
    intro s hs
    rw [psi_eq_amp hchA hAne hs.length_eq, psi_eq_amp hch (ne_of hch) hs.length_eq, hampA s hs 0 (by omega), Finset.sum_range_one]
  have hV1 : ‖V.val [0, 0]‖ = 1 := by
    have := hoV 0 (by simp [ND.dim, hVs]) 0 (by simp [ND.dim, hVs])
    have d0 : V.dim 0 = 1 := by simp [ND.dim, hVs]
    rw [d0, Finset.sum_range_one, if_pos rfl, star_mul_norm] at this
    have h2 : ‖V.val [0, 0]‖ ^ 2 = 1 := by exact_mod_cast this
    nlinarith [norm_nonneg (V.val [0, 0]), sq_nonneg (‖V.val [0, 0]‖ - 1)]
  have hw1 : w = [1] := by
    obtain ⟨w0, rfl⟩ := List.length_eq_one_iff.1 hwl
    have h1 := henv.env (by simpa using hchA) 0 (by simp) 0 (by simp)
    have h2 := braket_leftIso hchA hAne (hisoA hiso)
    unfold braket at h2
    rw [sumIdx_congr (g := fun s => amp As s 0 0 * star (amp As s 0 0)) fun s hs => by
      rw [psi_eq_amp hchA hAne hs.length_eq, mul_comm], h1] at h2
    simpa using h2
  subst hw1
  obtain ⟨data, Ls', ep, hchD, henvD, hisoD, hbdD, hampD⟩ := project_full (Lend := FMPS.onesLike S) hchA hAne henv
  have hDne := ne_of hchD
  have hpsiD : ∀ s, InB ds s → psi data s = star (V.val [0, 0]) * psi qs s := by
    intro s hs
    rw [← hpsiA s hs, psi_eq_amp hchD hDne hs.length_eq, hampD s hs, psi_eq_amp hchA hAne hs.length_eq]
  have hisoD' := hisoD (hisoA hiso)
  have hbk := braket_leftIso hchD hDne hisoD'
  have hzz : star (V.val [0, 0]) * V.val [0, 0] = 1 := by rw [star_mul_norm, hV1]; simp
  have hLlen : Ls'.length = ds.length := by
    have : ∀ {As : List (ND ℂ)} {w : List ℂ} {Ls : List (ND ℂ)}, EnvL AllPos As w Ls → Ls.length = As.length := by
      intro As
      induction As with
      | nil => intro w Ls h; rw [h.2]
      | cons A As ih =>
        intro w Ls h
        match Ls, h with
        | L :: Ls, h => simpa using ih h.2.2.choose_spec.2
    rw [this henvD, hchD.length_eq]
  refine ⟨{ (x.capD D) with data := data, norm_ := some R, canonical := true, orthogonal := true, oc := some x.L },
    Ls' ++ [FMPS.onesLike S], R, V.val [0, 0], ?_, ⟨hchD, hx.ne, hx'.len, hx'.d⟩,
    (leftIso_pos hchD (by omega) (chain_pos hch hpd) hisoD').1, hisoD', hbk,
    fun D0 h => hbdD D0 (hbdA D0 (hbd D0 h)), rfl, hR, hV1, ?_, fun h s hs => ?_, by simp [hLlen], ?_, rfl, rfl, ?_⟩
  · unfold FMPS.leftCanonicalise
    simp only [e, ok_bind, FMPS.capD_L, Bool.and_self, if_true, eb]
    rw [ep]
    rfl
  · rw [braket_scale_left hpsiD, star_star, hov]
  · rw [hpsi h s hs, hpsiD s hs]
    linear_combination (-(psi qs s * R.val [0, 0])) * hzz
  · intro m hm
    rcases Nat.lt_or_ge m ds.length with hm' | hm'
    · obtain ⟨L, w', e1, h1, h2, h3, h4, h5⟩ := henvD.cut m (by simpa using hchD) (by rw [hchD.length_eq]; exact hm')
      refine ⟨L, w'.map Complex.re, ?_, isDiag_real h1 h2, ?_, ?_, env_real h2 (h5.env h4)⟩
      · have : m < Ls'.length := by omega
        simp only [pyGet, List.getElem?_append_left this] at e1 ⊢
        exact e1
      · have := schmidt_of_env (by simpa using h3) h4 (by rw [List.take_append_drop]; exact hDne)
          (fun A hA => hisoD' A (List.mem_of_mem_take hA)) h2 (h5.env h4)
        rwa [List.take_append_drop] at this
      · intro A hA
        obtain ⟨ds1, d, ds2, As1, A', As2, l', n, hd, hAs, hl1, hl2, hc1, hA', hc2⟩ := chain_at hchD hm'
        have hget : pyGet data m = .ok A' := by
          rw [hAs, ← hl2]
          exact pyGet_append_mid _ _ _
        have : A = A' := by
          rw [hget] at hA
          exact (Except.ok.inj hA).symm
        subst this
        rw [hAs, hd, List.drop_left' hl1, List.drop_left' hl2] at h4
        obtain ⟨_, h4, _⟩ := h4
        rw [dim1 h4]
        simp
    · obtain rfl : m = ds.length := by omega
      refine ⟨FMPS.onesLike S, [1], ?_, ?_, ?_, ?_, ?_⟩
      · simp [pyGet, ← hLlen]
      · refine ⟨by rw [FMPS.onesLike]; simpa using hS.1, ?_⟩
        intro i hi j hj
        simp at hi hj
        subst hi hj
        simp [FMPS.onesLike]
      · have := schmidt_of_env (ds1 := ds) (ds2 := []) (As1 := data) (As2 := []) (w := [1]) (by simpa using hchD) (by simp)
          (by simpa using hDne) hisoD' allPos_one (by
            intro a ha a' ha'
            simp at ha ha'
            subst ha ha'
            simp)
        simpa using this
      · intro A hA
        have : data.length = ds.length := hchD.length_eq
        have hA : pyGet data ds.length = .ok A := hA
        rw [pyGet, List.getElem?_eq_none (by omega)] at hA
        cases hA
      · have hdl : data.length = ds.length := hchD.length_eq
        intro a ha b hb
        simp at ha hb
        subst ha hb
        have e1 : data.drop ds.length = [] := by simp [hdl]
        show rightEnv (ds.drop ds.length) (data.drop ds.length) 0 0 = _
        rw [e1, List.drop_length]
        simp [rightEnv]
  · simp only [hx.len]

/-- `right_canonicalise(D, sweep_back=False)` (and `minD=False`). -/
theorem FMPS.rightCanonicalise_sweep {svd : Svd} {eig : Eig} (hsvd : SVDLaw svd) {x : FMPS ℂ} {ds : List ℕ} (hx : x.Holds ds)
    (hu : ∀ t ∈ ds, t = x.d) (hp : PosDims x.data) (D : Option ℕ) (hD : ∀ D0, D = some D0 → 0 < D0)
    (hnz : D = none → ∃ s, InB ds s ∧ psi x.data s ≠ 0) (sweepBack minD : Bool) (hb : (sweepBack && minD) = false) :
    ∃ y, x.rightCanonicalise svd eig D sweepBack minD = .ok (y, none) ∧ y.Holds ds ∧ PosDims y.data ∧
      (∀ A ∈ y.data, RightIso A) ∧ braket ds y.data y.data = 1 ∧
      (∀ D0, D = some D0 → ∀ A ∈ y.data, A.dim 1 ≤ D0) ∧
      (D = none → ∃ c : ℂ, c ≠ 0 ∧ ∀ s, InB ds s → psi x.data s = c * psi y.data s) ∧ y.norm_ = x.norm_ ∧ y.d = x.d ∧
      y.canonical = true ∧ y.orthogonal = true ∧ y.oc = some 0 := by
  have hx' := hx.capD D
  obtain ⟨qs, e, hch, hiso, hpd, hbd, hpsi⟩ := svd_right_full hsvd D minD hD hx' (by rwa [FMPS.capD_d])
    (by rwa [FMPS.capD_data]) (by rwa [FMPS.capD_data])
  have hne : qs ≠ [] := by
    rintro rfl
    have := hch.length_eq
    exact hx.ne (List.length_eq_zero_iff.1 this.symm)
  rw [FMPS.capD_data] at hpsi
  refine ⟨{ (x.capD D) with data := qs, canonical := true, orthogonal := true, oc := some 0 }, ?_,
    ⟨hch, hx.ne, hx'.len, hx'.d⟩, hpd, hiso, braket_rightIso hch hne hiso, hbd, hpsi, ?_, FMPS.capD_d x D, rfl, rfl, rfl⟩
  · unfold FMPS.rightCanonicalise
    simp only [e, ok_bind, hb]
    rfl
  · cases D <;> rfl

/-- `right_canonicalise(D)`: right isometries; the state has norm 1 and is, without a limit on the bond
dimension, a multiple of the old state; for every cut `m` the matrix `Ls[m]` is diagonal and its
diagonal are the squared Schmidt coefficients of the new state, all positive. -/
theorem FMPS.rightCanonicalise_spec {svd : Svd} {eig : Eig} (hsvd : SVDLaw svd) (heig : EigOrthoLaw eig) {x : FMPS ℂ}
    {ds : List ℕ} (hx : x.Holds ds) (hu : ∀ t ∈ ds, t = x.d) (hp : PosDims x.data) (D : Option ℕ)
    (hD : ∀ D0, D = some D0 → 0 < D0) (hnz : D = none → ∃ s, InB ds s ∧ psi x.data s ≠ 0) :
    ∃ y Ls, x.rightCanonicalise svd eig D = .ok (y, some Ls) ∧ y.Holds ds ∧ PosDims y.data ∧
      (∀ A ∈ y.data, RightIso A) ∧ braket ds y.data y.data = 1 ∧
      (∀ D0, D = some D0 → ∀ A ∈ y.data, A.dim 1 ≤ D0) ∧
      (D = none → ∃ c : ℂ, c ≠ 0 ∧ ∀ s, InB ds s → psi x.data s = c * psi y.data s) ∧
      Ls.length = ds.length + 1 ∧
      (∀ m ≤ ds.length, ∃ L lam, pyGet Ls m = .ok L ∧ DiagReal L lam ∧ SchmidtAt (ds.take m) (ds.drop m) (psi y.data) lam ∧
        (∀ A, pyGet y.data m = .ok A → A.dim 1 = lam.length) ∧
        ∀ a < lam.length, ∀ b < lam.length, leftEnv (ds.take m) (y.data.take m) a b = if a = b then ((lam.getD a 0 : ℝ) : ℂ) else 0) ∧
      y.norm_ = x.norm_ ∧ y.canonical = true ∧ y.orthogonal = true ∧ y.oc = some 0 := by
  have hx' := hx.capD D
  obtain ⟨qs, e, hch, hiso, hpd, hbd, hpsi⟩ := svd_right_full hsvd D true hD hx' (by rwa [FMPS.capD_d])
    (by rwa [FMPS.capD_data]) (by rwa [FMPS.capD_data])
  rw [FMPS.capD_data] at hpsi
  have hdsne := hx.ne
  have ne_of : ∀ {ds : List ℕ} {qs : List (ND ℂ)}, MpsChain ds qs 1 1 → ds ≠ [] → qs ≠ [] := by
    rintro ds qs hch hne rfl
    have := hch.length_eq
    exact hne (List.length_eq_zero_iff.1 this.symm)
  have hrne : ds.reverse ≠ [] := by simpa using hdsne
  -- the mirror image of the swept chain
  have hmch := mirror_chain hch
  have hmi := mirror_iso hch
  obtain ⟨As', As'', Ls, V, S, eR, eL, hchA, hfA⟩ := backRight_mirror heig qs ds 1 1 (eyeND 1) (eyeND 1) [] [] [] [1] hch hpd rfl
    rfl (by
      intro k hk k' hk'
      simp [eyeND, ND.dim] at hk hk' ⊢
      simp [hk, hk']) rfl isDiag_eye nonnegLast_one
  obtain ⟨As2, V2, S2, Ls2, w, eb, hchB, hwl, hVs, hoV, hS, hwn, henv, hisoB, hhead, hbdB, hampB⟩ :=
    backLeft_ok heig (mirror qs) ds.reverse 1 hmch (hmi.2.1.2 hpd)
  rw [List.append_nil, List.append_nil, List.append_nil] at eL
  rw [eL] at eb
  obtain ⟨rfl, rfl, rfl, rfl⟩ : As'' = As2 ∧ V = V2 ∧ S = S2 ∧ Ls.reverse = Ls2 := by simpa using Except.ok.inj eb
  have hBne := ne_of hchB hrne
  have hisoB' := hisoB (hmi.1.2 hiso)
  have hw1 : w = [1] := by
    obtain ⟨w0, rfl⟩ := List.length_eq_one_iff.1 hwl
    have h1 := henv.env (by simpa using hchB) 0 (by simp) 0 (by simp)
    have h2 := braket_leftIso hchB hBne hisoB'
    unfold braket at h2
    rw [sumIdx_congr (g := fun s => amp As'' s 0 0 * star (amp As'' s 0 0)) fun s hs => by
      rw [psi_eq_amp hchB hBne hs.length_eq, mul_comm], h1] at h2
    simpa using h2
  subst hw1
  have hV1 : V.val [0, 0] ≠ 0 := by
    intro h0
    have := hoV 0 (by simp [ND.dim, hVs]) 0 (by simp [ND.dim, hVs])
    have d0 : V.dim 0 = 1 := by simp [ND.dim, hVs]
    rw [d0, Finset.sum_range_one, if_pos rfl, h0] at this
    simp at this
  -- everything for the mirror image of the tensors of the code
  have henvM := henv.congr hfA
  have hchM := chain_congr hchB hfA
  have hisoM := (iso_congr hchB hfA).1 hisoB'
  have hampM : ∀ s, InB ds.reverse s → amp As'' s 0 0 = amp (mirror As') s 0 0 := fun s hs => amp_congr hchB hfA hs 0 0 (by omega)
  obtain ⟨ws, hW, hLW⟩ := henvM.weights
  have hnn := hW.nonneg
  have hlastW := hW.last
  have hwsl := hW.length
  -- weights from left to right
  obtain ⟨ws', hrev⟩ : ∃ ws', (([1] : List ℂ) :: ws).reverse = [1] :: ws' := by
    have h1 : (([1] : List ℂ) :: ws).reverse.head? = some [1] := by rw [List.head?_reverse, hlastW]
    match hr : (([1] : List ℂ) :: ws).reverse, h1 with
    | v :: ws', h1 =>
      have : v = [1] := by simpa using h1
      exact ⟨ws', by rw [this]⟩
  have hcons : (([1] : List ℂ) :: ws) = ([1] :: ws).dropLast ++ [[1]] := by
    conv_lhs => rw [← List.dropLast_append_getLast? _ hlastW]
  obtain ⟨Lz, hLz⟩ : ∃ Lz, pyGet Ls (Ls.length - 1) = .ok Lz ∧ Lz.shape = [1, 1] := by
    have hl : Ls.reverse.head? = some S := hhead hBne
    rw [List.head?_reverse] at hl
    refine ⟨S, ?_, by simpa using hS.1⟩
    rw [pyGet, ← List.getLast?_eq_getElem?, hl]
  have hLones : IsDiag (FMPS.onesLike Lz) [1] := by
    refine ⟨by rw [FMPS.onesLike]; exact hLz.2, ?_⟩
    intro i hi j hj
    simp at hi hj
    subst hi hj
    simp [FMPS.onesLike]
  have hdiag : List.Forall₂ IsDiag (FMPS.onesLike Lz :: Ls) ([1] :: ws') := by
    have h1 : List.Forall₂ IsDiag (Ls.reverse ++ [FMPS.onesLike Lz]) (([1] : List ℂ) :: ws) := by
      rw [hcons]
      exact List.rel_append hLW (.cons hLones .nil)
    have h2 := List.rel_reverse h1
    rw [List.reverse_append, List.reverse_reverse, hrev] at h2
    simpa using h2
  have hshape : ShapeW ([1] :: ws') As' := by
    have := shapeW_mirror hW.shape
    rwa [mirror_mirror hchA, hrev] at this
  have hAne := ne_of hchA hdsne
  obtain ⟨data, Lp, eP, hcut, hLp⟩ := project_cut hAne hshape hdiag
    (fun v hv => hnn v (by rw [← hrev] at hv; exact List.mem_reverse.1 hv)) (by rw [← hrev, List.getLast?_reverse]; rfl)
  have hcutM := cut_mirror hcut
  rw [← hrev, List.reverse_reverse] at hcutM
  have hLpr : List.Forall₂ IsDiag Lp.reverse ((([1] : List ℂ) :: ws).map cutw) := by
    have := List.rel_reverse hLp
    rwa [← hrev, ← List.map_reverse, List.reverse_reverse] at this
  have hLpl : Lp.length = ds.length + 1 := by
    have h1 := hLpr.length_eq
    have h2 := hchM.length_eq
    simp only [List.length_reverse, List.length_map] at h1 h2
    omega
  obtain ⟨Lm, La, hLm⟩ : ∃ Lm La, Lp.reverse = Lm ++ [La] := by
    rcases List.eq_nil_or_concat Lp.reverse with h | ⟨a, b, h⟩
    · rw [List.reverse_eq_nil_iff.1 h] at hLpl; simp at hLpl
    · exact ⟨a, b, by simpa using h⟩
  have hLmd : List.Forall₂ IsDiag Lm ((([1] : List ℂ) :: ws).dropLast.map cutw) ∧ IsDiag La [1] := by
    rw [hLm, hcons, List.map_append] at hLpr
    have hl : Lm.length = ((([1] : List ℂ) :: ws).dropLast.map cutw).length := by
      have := hLpr.length_eq
      simpa using this
    have h1 := List.forall₂_take Lm.length hLpr
    have h2 := List.forall₂_drop Lm.length hLpr
    rw [List.take_left, List.take_left' hl.symm] at h1
    rw [List.drop_left, List.drop_left' hl.symm] at h2
    refine ⟨h1, ?_⟩
    simpa [cutw_one] using h2
  obtain ⟨henvD, hchDM, hisoDM, hbdDM, -, hampDM⟩ := hW.cut hcutM (by simpa using hchM) hLmd.1
  rw [rk_one] at hchDM hampDM
  rw [cutw_one] at henvD
  have hmm := hcut.mirror_mirror
  have hchD : MpsChain ds data 1 1 := by
    have := mirror_chain hchDM
    rwa [List.reverse_reverse, hmm] at this
  have hDne := ne_of hchD hdsne
  have hmD := mirror_iso hchD
  have hisoD := hmD.1.1 (hisoDM hisoM)
  have hpsiM : ∀ s, InB ds s → psi (mirror data) s.reverse = star (psi data s) := by
    intro s hs
    rw [psi_eq_amp hchDM (ne_of hchDM hrne) (InB_reverse hs).length_eq, psi_eq_amp hchD hDne hs.length_eq,
      mirror_amp hchD hs 0 (by omega) 0 (by omega)]
  have hpsiD : ∀ s, InB ds s → psi data s = V.val [0, 0] * psi qs s := by
    intro s hs
    have hr := InB_reverse hs
    have h1 := hpsiM s hs
    rw [psi_eq_amp hchDM (ne_of hchDM hrne) hr.length_eq, hampDM _ hr 0 (by omega), ← hampM _ hr, hampB _ hr 0 (by omega),
      Finset.sum_range_one, mirror_amp hch hs 0 (by omega) 0 (by omega)] at h1
    rw [psi_eq_amp hch (ne_of hch hdsne) hs.length_eq]
    have h2 := congrArg star h1
    rw [star_star, star_mul', star_star, star_star] at h2
    exact h2.symm
  have hds0 : ∀ t ∈ ds.reverse, 0 < t := fun t ht => chain_pos hch hpd t (by simpa using ht)
  refine ⟨{ (x.capD D) with data := data, canonical := true, orthogonal := true, oc := some 0 }, Lp, ?_,
    ⟨hchD, hdsne, hx'.len, hx'.d⟩, hmD.2.1.1 (leftIso_pos hchDM (by omega) hds0 (hisoDM hisoM)).1, hisoD,
    braket_rightIso hchD hDne hisoD, ?_, ?_, hLpl, ?_, ?_, rfl, rfl, rfl⟩
  · unfold FMPS.rightCanonicalise
    simp only [e, ok_bind, Bool.and_self, if_true, eR, hLz.1, eP]
  · intro D0 h
    refine (hmD.2.2 D0).1 (hbdDM D0 ?_)
    exact (iso_congr hchB hfA).2.2.1 D0 (hbdB D0 ((hmi.2.2 D0).2 (hbd D0 h)))
  · intro h
    obtain ⟨c, hc, hpsi⟩ := hpsi h
    refine ⟨c * (V.val [0, 0])⁻¹, mul_ne_zero hc (inv_ne_zero hV1), fun s hs => ?_⟩
    rw [hpsi s hs, hpsiD s hs]
    field_simp
  · intro m hm
    have hdimL : ∀ L A, pyGet Lp m = .ok L → pyGet data m = .ok A → L.shape = [A.dim 1, A.dim 1] := by
      intro L A hL hA
      obtain ⟨v, h1, h2⟩ := hcut.dim hA
      obtain ⟨L', h3, h4⟩ := forall2_get hLp (i := m) (b := cutw v) (by rw [List.getElem?_map, h1]; rfl)
      have : L = L' := by
        rw [pyGet, h3] at hL
        exact (Except.ok.inj hL).symm
      subst this
      have hv : v ∈ ([1] : List ℂ) :: ws' := List.mem_of_getElem? h1
      have hvn := hnn v (by rw [← hrev] at hv; exact List.mem_reverse.1 hv)
      rw [h4.1, h2]
      simp [cutw, (rk_spec hvn).1]
    rcases Nat.eq_zero_or_pos m with rfl | hm0
    · have hL0 : pyGet Lp 0 = .ok La := by
        have : Lp = La :: Lm.reverse := by
          have := congrArg List.reverse hLm
          simpa using this
        rw [this]
        simp
      refine ⟨La, [1], hL0, ?_, ?_, ?_, ?_⟩
      · have := isDiag_real hLmd.2 allPos_one
        simpa using this
      · have := schmidt_of_env (ds1 := ds.reverse) (ds2 := []) (As1 := mirror data) (As2 := []) (w := [1]) (by simpa using hchDM) (by simp)
          (by simpa using ne_of hchDM hrne) (hisoDM hisoM) allPos_one (by
            intro a ha a' ha'
            simp at ha ha'
            subst ha ha'
            simp)
        rw [List.append_nil] at this
        have h2 := schmidt_mirror (φ := psi data) this (by
          intro s hs
          have hs : InB ds s := by simpa using hs
          rw [hpsiM s hs, star_star])
        simpa using h2
      · intro A hA
        have h1 := hdimL La A hL0 hA
        have h2 := hLmd.2.1
        rw [h1] at h2
        simpa using h2
      · intro a ha b hb
        simp at ha hb
        subst ha hb
        simp [leftEnv]
    · have hk : ds.length - m < (mirror data).length := by
        rw [mirror_length, hchD.length_eq]; omega
      obtain ⟨L, w', e1, h1, h2, h3, h4, h5⟩ := henvD.cut (ds.length - m) (by simpa using hchDM) hk
      have hget : pyGet Lp m = .ok L := by
        have hlt : ds.length - m < Lm.length := by
          have := congrArg List.length hLm
          simp [hLpl] at this
          omega
        have e2 : (Lp.reverse)[ds.length - m]? = some L := by
          rw [hLm, List.getElem?_append_left hlt]
          rw [pyGet] at e1
          split at e1
          · next h => rw [h, Except.ok.inj e1]
          · cases e1
        rw [List.getElem?_reverse (by omega)] at e2
        have : Lp.length - 1 - (ds.length - m) = m := by omega
        rw [this] at e2
        rw [pyGet, e2]
      refine ⟨L, w'.map Complex.re, hget, isDiag_real h1 h2, ?_, ?_, ?_⟩
      · have := schmidt_of_env (by simpa using h3) h4 (by rw [List.take_append_drop]; exact ne_of hchDM hrne)
          (fun A hA => hisoDM hisoM A (List.mem_of_mem_take hA)) h2 (h5.env h4)
        rw [List.take_append_drop] at this
        have e1 : (ds.reverse.drop (ds.length - m)).reverse = ds.take m := by
          rw [List.drop_reverse]
          have : ds.length - (ds.length - m) = m := by omega
          simp [this]
        have e2 : (ds.reverse.take (ds.length - m)).reverse = ds.drop m := by
          rw [List.take_reverse]
          have : ds.length - (ds.length - m) = m := by omega
          simp [this]
        have h6 := schmidt_mirror (φ := psi data) this (by
          intro s hs
          rw [e1, e2, List.take_append_drop] at hs
          rw [hpsiM s hs, star_star])
        rwa [e1, e2] at h6
      · intro A hA
        have h6 := hdimL L A hget hA
        rw [h1.1] at h6
        simpa using (List.cons.inj h6).1.symm
      · have hdl : data.length = ds.length := hchD.length_eq
        have e3 : (mirror data).drop (ds.length - m) = mirror (data.take m) := by
          rw [mirror, mirror, List.drop_reverse, List.length_map, hdl, ← List.map_take]
          have : ds.length - (ds.length - m) = m := by omega
          rw [this]
        have e4 : ds.reverse.drop (ds.length - m) = (ds.take m).reverse := by
          rw [List.drop_reverse]
          have : ds.length - (ds.length - m) = m := by omega
          rw [this]
        have h6 := env_real h2 (h5.env h4)
        rw [e3, e4] at h6
        rw [e3, e4] at h4
        have hc := mirror_chain h4
        have hcm : MpsChain (ds.take m) (data.take m) 1 w'.length := by
          obtain ⟨q, h7, h8⟩ := (mpsChain_append (ds := ds.take m) (As := data.take m) (ds' := ds.drop m) (As' := data.drop m) (l := 1) (r := 1)
            (by simp [hdl])).1 (by simpa using hchD)
          have h9 := mirror_mirror h7
          rw [h9, List.reverse_reverse] at hc
          exact hc
        intro a ha b hb
        rw [← h6 a ha b hb]
        have ha : a < w'.length := by simpa using ha
        have hb : b < w'.length := by simpa using hb
        unfold leftEnv
        rw [sumIdx_reverse]
        refine sumIdx_congr fun s hs => ?_
        rw [mirror_amp hcm hs 0 (by omega) a ha, mirror_amp hcm hs 0 (by omega) b hb, star_star]
  · cases D <;> rfl

/-- `mixed_canonicalise(oc)` without a limit on the bond dimension: left isometries before `oc`, right
isometries after it, norm 1, same state up to a factor.  The object records `oc = 0` whatever the
argument. -/
theorem FMPS.mixedCanonicalise_spec {svd : Svd} {eig : Eig} (hsvd : SVDLaw svd) {x : FMPS ℂ} {ds : List ℕ} (hx : x.Holds ds)
    (hu : ∀ t ∈ ds, t = x.d) (hp : PosDims x.data) (D : Option ℕ) (hD : ∀ D0, D = some D0 → 0 < D0)
    (hnz : D = none → ∃ s, InB ds s ∧ psi x.data s ≠ 0) {oc : ℕ} (hoc : oc < ds.length) (sweepBack : Bool) :
    ∃ y As1 A As2, x.mixedCanonicalise svd eig oc D sweepBack = .ok y ∧ y.Holds ds ∧ PosDims y.data ∧
      y.data = As1 ++ A :: As2 ∧ As1.length = oc ∧ (∀ B ∈ As1, LeftIso B) ∧ (∀ B ∈ As2, RightIso B) ∧
      (D = none → braket ds y.data y.data = 1 ∧ ∃ c : ℂ, c ≠ 0 ∧ ∀ s, InB ds s → psi x.data s = c * psi y.data s) ∧
      (∀ D0, D = some D0 → (∀ B ∈ As1, B.dim 2 ≤ D0) ∧ ∀ B ∈ As2, B.dim 1 ≤ D0) ∧
      y.canonical = true ∧ y.orthogonal = true ∧ y.oc = some 0 := by
  obtain ⟨q, e, hq, hpq, hiso, hbk, hbd, hpsi, -, hqd, -, -, hqoc⟩ :=
    FMPS.rightCanonicalise_sweep (eig := eig) hsvd (x := { x with oc := some oc }) (ds := ds) ⟨hx.chain, hx.ne, hx.len, hx.d⟩ hu hp D hD hnz
      sweepBack false (by simp)
  have hlen := hq.chain.length_eq
  have hpq' : ∀ s, InB ds s → psi q.data s = amp q.data s 0 0 := fun s hs => psi_eq_amp hq.chain hq.data_ne hs.length_eq
  obtain ⟨qs, rest', u, ef, hql, hch1, hch2, hisoL, hpd, htl, hbdL, -, hamp, -⟩ :=
    svd_left_sweep hsvd D true hD oc q [] q.data ds 1 1 (by simp) (by rwa [hqd]) hq.chain hpq (by omega) (by
      intro h
      obtain ⟨c, hc, hpsi⟩ := hpsi h
      obtain ⟨s, hs, hne⟩ := hnz h
      rw [show psi x.data s = c * psi q.data s from hpsi s hs] at hne
      exact ⟨s, 0, 0, hs, by omega, by rw [← hpq' s hs]; exact right_ne_zero_of_mul hne⟩)
  have hfold : ∀ k, k ≤ oc → ∀ q' : FMPS ℂ, q'.data.length = ds.length →
      ((List.range ds.length).take k).foldlM (FMPS.mixedSvdStep svd D) q' = (List.range' 0 k).foldlM (FMPS.leftSvdStep svd D true) q' := by
    intro k
    have key : ∀ (l : List ℕ), (∀ m ∈ l, m < oc) → ∀ q' : FMPS ℂ, q'.data.length = ds.length →
        l.foldlM (FMPS.mixedSvdStep svd D) q' = l.foldlM (FMPS.leftSvdStep svd D true) q' := by
      intro l
      induction l with
      | nil => intro _ q' _; rfl
      | cons m l ih =>
        intro hl q' hq'
        rw [List.foldlM_cons, List.foldlM_cons, mixedSvdStep_eq (by have := hl m (by simp); omega)]
        cases hs : FMPS.leftSvdStep svd D true q' m with
        | error _ => rfl
        | ok q'' =>
          rw [ok_bind, ok_bind]
          refine ih (fun m hm => hl m (List.mem_cons_of_mem _ hm)) q'' ?_
          rw [leftSvdStep_length hs, hq']
    intro hk q' hq'
    have : (List.range ds.length).take k = List.range' 0 k := by
      rw [List.take_range, List.range_eq_range', min_eq_left (by omega)]
    rw [this]
    refine key _ (fun m hm => ?_) q' hq'
    simp at hm
    omega
  have hrl : rest' ≠ [] := by
    rintro rfl
    have := hch2.length_eq
    simp at this
    omega
  obtain ⟨A, As2, rfl⟩ := List.exists_cons_of_ne_nil hrl
  have hAs2 : ∀ B ∈ As2, B ∈ q.data := by
    intro B hB
    have : As2 = (q.data.drop oc).tail := htl
    rw [this] at hB
    exact List.mem_of_mem_drop (List.mem_of_mem_tail hB)
  have hch : MpsChain ds (qs ++ A :: As2) 1 1 := by
    have := (mpsChain_append (ds := ds.take oc) (ds' := ds.drop oc) hch1.length_eq).2 ⟨u, hch1, hch2⟩
    rwa [List.take_append_drop] at this
  have hpsi2 : D = none → ∀ s, InB ds s → psi q.data s = psi (qs ++ A :: As2) s := by
    intro h s hs
    rw [hpq' s hs, psi_eq_amp hch (by simp) hs.length_eq, hamp h s hs 0 (by omega) 0]
  refine ⟨{ q with data := qs ++ A :: As2, canonical := true, orthogonal := true }, qs, A, As2, ?_, ⟨hch, hx.ne, hq.len, hq.d⟩, hpd,
    rfl, hql, hisoL, fun B hB => hiso B (hAs2 B hB), ?_, ?_, rfl, rfl, hqoc⟩
  · unfold FMPS.mixedCanonicalise
    rw [e, ok_bind]
    simp only
    rw [hlen, hfold oc le_rfl q hlen]
    simp only [List.length_nil, List.nil_append] at ef
    rw [ef, ok_bind]
  · intro h
    refine ⟨?_, ?_⟩
    · rw [← hbk]
      exact sumIdx_congr fun s hs => by rw [hpsi2 h s hs]
    · obtain ⟨c, hc, hpsi⟩ := hpsi h
      exact ⟨c, hc, fun s hs => by rw [← hpsi2 h s hs]; exact hpsi s hs⟩
  · intro D0 h
    exact ⟨hbdL D0 h, fun B hB => hbd D0 h B (hAs2 B hB)⟩

theorem exTwo_nonzero : ∃ s, InB (List.replicate 2 2) s ∧ psi (exTwo 2).data s ≠ 0 :=
  ⟨[0, 1], by simp [InB, List.replicate], by simp [psi, exTwo, exData, pathProd, ND.dim, Finset.sum_range_succ]⟩

theorem exTwo_uniform : ∀ t ∈ List.replicate 2 2, t = (exTwo 2).d := by simp [exTwo]

/-- the contracts can be met together with the other hypotheses (the bond dimension unlimited) -/
example : ∃ svd eig, ∃ y Ls, SVDLaw svd ∧ EigOrthoLaw eig ∧ (exTwo 2).leftCanonicalise svd eig = .ok (y, some Ls) := by
  obtain ⟨svd, hsvd⟩ := svdLaw_exists
  obtain ⟨eig, heig⟩ := eigOrthoLaw_exists
  obtain ⟨y, Ls, _, _, h, _⟩ := FMPS.leftCanonicalise_spec hsvd heig (exTwo_holds 2) exTwo_uniform (exTwo_pos 2) none (by simp)
    fun _ => exTwo_nonzero
  exact ⟨svd, eig, y, Ls, hsvd, heig, h⟩

/-- truncation to bond dimension 1 -/
example {svd : Svd} {eig : Eig} (hsvd : SVDLaw svd) (heig : EigOrthoLaw eig) :=
  FMPS.leftCanonicalise_spec hsvd heig (exTwo_holds 2) exTwo_uniform (exTwo_pos 2) (some 1) (by simp) (by simp)
example {svd : Svd} {eig : Eig} (hsvd : SVDLaw svd) (heig : EigOrthoLaw eig) :=
  FMPS.rightCanonicalise_spec hsvd heig (exTwo_holds 2) exTwo_uniform (exTwo_pos 2) none (by simp) fun _ => exTwo_nonzero
example {svd : Svd} {eig : Eig} (hsvd : SVDLaw svd) :=
  FMPS.leftCanonicalise_sweep (eig := eig) hsvd (exTwo_holds 2) exTwo_uniform (exTwo_pos 2) none (by simp) (fun _ => exTwo_nonzero)
    false true rfl
example {svd : Svd} {eig : Eig} (hsvd : SVDLaw svd) :=
  FMPS.rightCanonicalise_sweep (eig := eig) hsvd (exTwo_holds 2) exTwo_uniform (exTwo_pos 2) none (by simp) (fun _ => exTwo_nonzero)
    false true rfl
example {svd : Svd} {eig : Eig} (hsvd : SVDLaw svd) :=
  FMPS.mixedCanonicalise_spec (eig := eig) hsvd (exTwo_holds 2) exTwo_uniform (exTwo_pos 2) none (by simp) (fun _ => exTwo_nonzero)
    (oc := 1) (by simp) false

end Xmps
