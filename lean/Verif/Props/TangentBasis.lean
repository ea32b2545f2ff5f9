import Verif.Lemmas.LyapunovFacts
import Verif.Props.TangentVec
import Verif.Props.JacFix

/-!
# Property C96 (`tangent_space_basis('F2')`)
-/

namespace Xmps

open Finset Spec Matrix Xmps.Ncon

section dim
variable {chol inv null : ND ℂ → Py (ND ℂ)} (hchol : CholTriLaw chol) (hinv : InvLaw inv) (hnull : NullLaw null) (O : SetOrder)
  {x : FMPS ℂ} {L d : ℕ} (hx : x.Holds (List.replicate L d)) (hf : FullEnvs (List.replicate L d) x.data)
include hchol hinv hnull hx hf

include O in
theorem tangentDim_pos (hd : 2 ≤ d) : 0 < tangentDim d x.data := by
  obtain ⟨ls, rs, E, e, eE, pr, vL, l, r, p, q, k, lam, rho, hnl, epr, c⟩ := f2Ctx_gen chDiag_roots hchol hinv hnull O (by omega) hx hf
  have hl := c.len
  have hL0 : 0 < L := by
    have := hx.ne
    rcases Nat.eq_zero_or_pos L with rfl | h
    · simp at this
    · exact h
  have hs := c.site (L - 1) (by omega)
  have h1 := hs.count
  have h2 := c.last (i := L - 1) (by omega)
  have h3 : 0 < p (L - 1) := by
    rcases Nat.eq_zero_or_pos (p (L - 1)) with h | h
    · rw [h] at h1
      omega
    · exact h
  have h4 : 2 * 1 ≤ d * p (L - 1) := Nat.mul_le_mul hd h3
  have hmem : (d * x.data[L - 1].dim 1 - x.data[L - 1].dim 2) * x.data[L - 1].dim 2 ∈ x.data.map fun A => (d * A.dim 1 - A.dim 2) * A.dim 2 :=
    List.mem_map.2 ⟨_, List.getElem_mem _, rfl⟩
  have h5 := List.le_sum_of_mem hmem
  rw [dim1 hs.hA, dim2 hs.hA, h2] at h5
  unfold tangentDim
  omega

end dim

/-- the parts of the real form -/
theorem jacHalves_ok {J1 J2 : ND ℂ} {D : ℕ} (s1 : J1.shape = [D, D]) (s2 : J2.shape = [D, D]) :
    ∃ A B, FMPS.jacHalves J1 J2 = .ok (A, B) ∧ A.shape = [2 * D, 2 * D] ∧ B.shape = [2 * D, 2 * D] ∧
      ((∀ μ < D, ∀ ν < D, star (J1.val [ν, μ]) = -J1.val [μ, ν]) → ∀ i < 2 * D, ∀ j < 2 * D, A.val [i, j] + A.val [j, i] = 0) ∧
      ((∀ μ < D, ∀ ν < D, J2.val [μ, ν] = J2.val [ν, μ]) → ∀ i < 2 * D, ∀ j < 2 * D, B.val [i, j] - B.val [j, i] = 0) := by
  unfold FMPS.jacHalves
  rw [Spin.paulis_eq]
  simp only
  rw [ND.zipNd, if_pos (by simp [kron, mat2, eyeND, ND.dim, ND.re, ND.im, ND.smul, s1]), ok_bind, ND.zipNd,
    if_pos (by simp [kron, mat2, ND.dim, ND.re, ND.im, s2]), ok_bind]
  have d1 : ∀ a < D, (D + a) / D = 1 := fun a ha => by rw [Nat.add_div_left _ (by omega), Nat.div_eq_of_lt ha]
  have d2 : ∀ a < D, a / D = 0 := fun a ha => Nat.div_eq_of_lt ha
  have d3 : ∀ a < D, (D + a) % D = a := fun a ha => by rw [Nat.add_mod_left, Nat.mod_eq_of_lt ha]
  have d4 : ∀ a < D, a % D = a := fun a ha => Nat.mod_eq_of_lt ha
  have split2 : ∀ i < 2 * D, i < D ∨ ∃ a < D, i = D + a := fun i hi => by
    by_cases h : i < D
    · exact .inl h
    · exact .inr ⟨i - D, by omega, by omega⟩
  refine ⟨_, _, rfl, by simp [kron, eyeND, ND.dim, ND.re, s1], by simp [kron, mat2, ND.dim, ND.re, s2], fun hA => ?_, fun hB => ?_⟩
  · have re : ∀ μ < D, ∀ ν < D, (J1.val [ν, μ]).re = -(J1.val [μ, ν]).re := fun μ hμ ν hν => by
      have := congrArg Complex.re (hA μ hμ ν hν)
      simpa using this
    have im : ∀ μ < D, ∀ ν < D, (J1.val [ν, μ]).im = (J1.val [μ, ν]).im := fun μ hμ ν hν => by
      have := congrArg Complex.im (hA μ hμ ν hν)
      simpa using this
    intro i hi j hj
    rcases split2 i hi with h1 | ⟨a, h1, rfl⟩ <;> rcases split2 j hj with h2 | ⟨b, h2, rfl⟩ <;>
      simp [kron, mat2, eyeND, ND.dim, ND.re, ND.im, ND.smul, s1, d1 _ h1, d2 _ h1, d3 _ h1, d4 _ h1, d1 _ h2, d2 _ h2, d3 _ h2, d4 _ h2, re _ h1 _ h2, im _ h1 _ h2]
  · intro i hi j hj
    rcases split2 i hi with h1 | ⟨a, h1, rfl⟩ <;> rcases split2 j hj with h2 | ⟨b, h2, rfl⟩ <;>
      simp [kron, mat2, ND.dim, ND.re, ND.im, s2, d1 _ h1, d2 _ h1, d3 _ h1, d4 _ h1, d1 _ h2, d2 _ h2, d3 _ h2, d4 _ h2, hB _ h1 _ h2]

/-- the halves are the real forms of `z ↦ J1 z` and of `z ↦ J2 z̄`: on the real and imaginary parts of `z`, one after the other, they give those of the
image -/
theorem FMPS.jacHalves_real {J1 J2 : ND ℂ} {D : ℕ} (s1 : J1.shape = [D, D]) (s2 : J2.shape = [D, D]) (z : ℕ → ℂ) :
    ∃ A B, FMPS.jacHalves J1 J2 = .ok (A, B) ∧ ∀ μ < D,
      ∑ ν ∈ Finset.range D, (A.val [μ, ν] * (z ν).re + A.val [μ, D + ν] * (z ν).im) = ((∑ ν ∈ Finset.range D, J1.val [μ, ν] * z ν).re : ℂ) ∧
      ∑ ν ∈ Finset.range D, (A.val [D + μ, ν] * (z ν).re + A.val [D + μ, D + ν] * (z ν).im) = ((∑ ν ∈ Finset.range D, J1.val [μ, ν] * z ν).im : ℂ) ∧
      ∑ ν ∈ Finset.range D, (B.val [μ, ν] * (z ν).re + B.val [μ, D + ν] * (z ν).im) = ((∑ ν ∈ Finset.range D, J2.val [μ, ν] * star (z ν)).re : ℂ) ∧
      ∑ ν ∈ Finset.range D, (B.val [D + μ, ν] * (z ν).re + B.val [D + μ, D + ν] * (z ν).im) = ((∑ ν ∈ Finset.range D, J2.val [μ, ν] * star (z ν)).im : ℂ) := by
  unfold FMPS.jacHalves
  rw [Spin.paulis_eq]
  simp only
  rw [ND.zipNd, if_pos (by simp [kron, mat2, eyeND, ND.dim, ND.re, ND.im, ND.smul, s1]), ok_bind, ND.zipNd,
    if_pos (by simp [kron, mat2, ND.dim, ND.re, ND.im, s2]), ok_bind]
  have d1 : ∀ a < D, (D + a) / D = 1 := fun a ha => by rw [Nat.add_div_left _ (by omega), Nat.div_eq_of_lt ha]
  have d2 : ∀ a < D, a / D = 0 := fun a ha => Nat.div_eq_of_lt ha
  have d3 : ∀ a < D, (D + a) % D = a := fun a ha => by rw [Nat.add_mod_left, Nat.mod_eq_of_lt ha]
  have d4 : ∀ a < D, a % D = a := fun a ha => Nat.mod_eq_of_lt ha
  refine ⟨_, _, rfl, fun μ h1 => ⟨?_, ?_, ?_, ?_⟩⟩
  · rw [Complex.re_sum, Complex.ofReal_sum]
    refine Finset.sum_congr rfl fun ν hν => ?_
    have h2 := Finset.mem_range.1 hν
    simp [kron, mat2, eyeND, ND.dim, ND.re, ND.im, ND.smul, s1, d1 _ h1, d2 _ h1, d3 _ h1, d4 _ h1, d1 _ h2, d2 _ h2, d3 _ h2, d4 _ h2]
    try ring
  · rw [Complex.im_sum, Complex.ofReal_sum]
    refine Finset.sum_congr rfl fun ν hν => ?_
    have h2 := Finset.mem_range.1 hν
    simp [kron, mat2, eyeND, ND.dim, ND.re, ND.im, ND.smul, s1, d1 _ h1, d2 _ h1, d3 _ h1, d4 _ h1, d1 _ h2, d2 _ h2, d3 _ h2, d4 _ h2]
    try ring
  · rw [Complex.re_sum, Complex.ofReal_sum]
    refine Finset.sum_congr rfl fun ν hν => ?_
    have h2 := Finset.mem_range.1 hν
    simp [kron, mat2, ND.dim, ND.re, ND.im, s2, d1 _ h1, d2 _ h1, d3 _ h1, d4 _ h1, d1 _ h2, d2 _ h2, d3 _ h2, d4 _ h2]
    try ring
  · rw [Complex.im_sum, Complex.ofReal_sum]
    refine Finset.sum_congr rfl fun ν hν => ?_
    have h2 := Finset.mem_range.1 hν
    simp [kron, mat2, ND.dim, ND.re, ND.im, s2, d1 _ h1, d2 _ h1, d3 _ h1, d4 _ h1, d1 _ h2, d2 _ h2, d3 _ h2, d4 _ h2]
    try ring

/-- two by two -/
example := FMPS.jacHalves_real (J1 := ⟨[2, 2], fun i => (i.sum : ℂ)⟩) (J2 := ⟨[2, 2], fun _ => Complex.I⟩) rfl rfl (fun _ => Complex.I)

section F2
variable {chol inv null : ND ℂ → Py (ND ℂ)} (hchol : CholTriLaw chol) (hinv : InvLaw inv) (hnull : NullLaw null) (O : SetOrder)
  {x : FMPS ℂ} {L m : ℕ} (hx : x.Holds (List.replicate L 2)) (hf : FullEnvs (List.replicate L 2) x.data) (hm : EmptyPrefix 2 x.data m)
  {H : List (ND ℂ)} (hL : H.length < L) (hH : ∀ h ∈ H, h.shape = [4, 4])
include hchol hinv hnull hx hf hm hL hH

/-- **C96** `tangent_space_basis('F2', H)` for Hermitian terms: no assertion fails (`close` is true where all entries are zero) and the result is an orthonormal
basis of the real form of the tangent space. -/
theorem FMPS.basisF2_spec {svd : ND ℂ → Py (ND ℂ × List ℝ × ND ℂ)} (hsvd : SVDLaw svd) {close : ND ℂ → Bool}
    (hclose : ∀ (X : ND ℂ) (n : ℕ), X.shape = [n, n] → (∀ i < n, ∀ j < n, X.val [i, j] = 0) → close X = true)
    (hh : ∀ h ∈ H, ∀ a < 4, ∀ b < 4, star (h.val [b, a]) = h.val [a, b]) :
    ∃ V, FMPS.basisF2 chol inv null svd close O x H = .ok V ∧ IsUnitary V (2 * tangentDim 2 x.data) := by
  have hpos := tangentDim_pos hchol hinv hnull O hx hf le_rfl
  obtain ⟨J1, J2, G2, eJ, s1, s2, s3, hsym, hanti⟩ := FMPS.jac_parts_sym hchol hinv hnull O hx hf hm hL hH
  obtain ⟨J, e1, hJs, -, hJ⟩ := FMPS.jac_hamiltonian hchol hinv hnull O hx hf hm hL hH hh
  set D := tangentDim 2 x.data with hDdef
  obtain ⟨A1, B1, e2, hA1, hB1, hA, hB⟩ := jacHalves_ok s1 s2
  have ham := (ham_iff hJs).1 ⟨hJs, hJ⟩
  have hW : (sympmat D : ND ℂ).shape = [2 * D, 2 * D] := rfl
  have hdim : J.dim 1 / 2 = D := by
    simp [ND.dim, hJs]
  obtain ⟨A, e3, hAs, vA⟩ := matmul22M hW hJs
  set M : ND ℂ := ofM (NormedSpace.exp (toM (2 * D) (2 * D) (J.smul ((1 / 10 : ℝ) : ℂ)))) with hM
  have eM : Tdvp.expmND (J.smul ((1 / 10 : ℝ) : ℂ)) = .ok M := by
    unfold Tdvp.expmND
    rw [show (J.smul ((1 / 10 : ℝ) : ℂ)).shape = [2 * D, 2 * D] from hJs]
    simp [hM]
  have hMs : M.shape = [2 * D, 2 * D] := rfl
  have vM : toM (2 * D) (2 * D) M = NormedSpace.exp (((1 / 10 : ℝ) : ℂ) • toM (2 * D) (2 * D) J) := by
    rw [hM, toM_ofM, toM_smul]
  obtain ⟨t1, t2⟩ := toM_tr hAs
  obtain ⟨t3, t4⟩ := toM_tr hMs
  obtain ⟨MW, e4, hMW, vMW⟩ := matmul22M t3 hW
  obtain ⟨MWM, e5, hMWM, vMWM⟩ := matmul22M hMW hMs
  have hz : ∀ {n : ℕ} {X Y : ND ℂ}, toM n n X = toM n n Y → ∀ i < n, ∀ j < n, X.val [i, j] - Y.val [i, j] = 0 :=
    fun {n X Y} h i hi j hj => by rw [sub_eq_zero]; exact congrFun (congrFun h ⟨i, hi⟩) ⟨j, hj⟩
  have c1 : toM (2 * D) (2 * D) A = toM (2 * D) (2 * D) A.tr := by
    rw [t2, vA]
    show Om D * _ = (Om D * _)ᵀ
    rw [Matrix.transpose_mul, Om_transpose, mul_neg]
    exact eq_neg_of_add_eq_zero_right ham
  have c2 : toM (2 * D) (2 * D) MWM = toM (2 * D) (2 * D) (sympmat D : ND ℂ) := by
    rw [vMWM, vMW, t4, vM]
    exact exp_symp (ham_smul ham _)
  obtain ⟨U, S, V, eS, hU, -, -, hc, -⟩ := hsvd M (2 * D) (2 * D) hMs (by omega) (by omega)
  rw [min_self] at hU
  refine ⟨U, ?_, isUnitary_iff.2 ⟨hU, colsOrtho_toM hU hc⟩⟩
  obtain ⟨a1, a2⟩ := toM_tr hA1
  obtain ⟨b1, b2⟩ := toM_tr hB1
  have step : ∀ (f : ℂ → ℂ → ℂ) (X Y : ND ℂ), X.shape = [2 * D, 2 * D] → Y.shape = [2 * D, 2 * D] → (∀ i < 2 * D, ∀ j < 2 * D, f (X.val [i, j]) (Y.val [i, j]) = 0) →
      ∃ Z, X.zipNd f Y = .ok Z ∧ close Z = true := fun f X Y hX hY h =>
    ⟨⟨X.shape, fun idx => f (X.val idx) (Y.val idx)⟩, by rw [ND.zipNd, if_pos (by rw [hX, hY])], hclose _ (2 * D) hX h⟩
  obtain ⟨Z1, z1, y1⟩ := step (· - ·) A A.tr hAs t1 (hz c1)
  obtain ⟨Z2, z2, y2⟩ := step (· - ·) MWM (sympmat D) hMWM hW (hz c2)
  obtain ⟨Z3, z3, y3⟩ := step (· - ·) B1 B1.tr hB1 b1 (by
    intro i hi j hj
    have e : B1.tr.val [i, j] = B1.val [j, i] := congrFun (congrFun b2 ⟨i, hi⟩) ⟨j, hj⟩
    rw [e]
    exact hB (fun μ hμ ν hν => (hsym μ hμ ν hν).1) i hi j hj)
  obtain ⟨Z4, z4, y4⟩ := step (· + ·) A1 A1.tr hA1 a1 (by
    intro i hi j hj
    have e : A1.tr.val [i, j] = A1.val [j, i] := congrFun (congrFun a2 ⟨i, hi⟩) ⟨j, hj⟩
    rw [e]
    exact hA (hanti hh) i hi j hj)
  unfold FMPS.basisF2
  rw [eJ, ok_bind]
  simp only
  rw [e2, ok_bind]
  simp only
  rw [e1, ok_bind, hdim, e3, ok_bind, eM, ok_bind, z1, ok_bind, y1, guardPy_true, ok_bind, e4, ok_bind, e5, ok_bind, z2, ok_bind, y2, guardPy_true, ok_bind,
    z3, ok_bind, y3, guardPy_true, ok_bind, z4, ok_bind, y4, guardPy_true, ok_bind, eS, ok_bind]

end F2

/-! ### examples -/

section
variable {chol inv null : ND ℂ → Py (ND ℂ)} (hchol : CholTriLaw chol) (hinv : InvLaw inv) (hnull : NullLaw null) (O : SetOrder)
include hchol hinv hnull

example {svd : ND ℂ → Py (ND ℂ × List ℝ × ND ℂ)} (hsvd : SVDLaw svd) := FMPS.basisF2_spec hchol hinv hnull O (exScaled_holds (2 : ℝ)) (exScaled_full 2 two_ne_zero)
  (exScaled_prefix _) (H := [exPairTerm]) (by simp) (by simp [exPairTerm]) hsvd (close := fun _ => true) (by simp) exPair_herm

end

end Xmps
