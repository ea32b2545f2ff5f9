import Verif.Model.IHamOpt
import Verif.Props.FindGround

/-!
# C130: `optimise` of `projects/iHam.py`

Specification: `infExpect2`, the energy per bond of an infinite chain.
-/

namespace Xmps.ProjHam

open Finset Matrix Spec IMPS ImpsCore ComplexOrder Xmps.Ncon

variable {chol inv null : ND ℂ → Py (ND ℂ)} {svd : ND ℂ → Py (ND ℂ × List ℝ × ND ℂ)} {O : SetOrder}
  {eigs : ND ℂ → Py (ℝ × ND ℂ × ND ℂ)} {root : (ND ℂ → Py (ND ℂ)) → ℕ → Py (ND ℂ)} {h : ND ℂ} {d D : ℕ} {tol : ℝ}

theorem eigs_of_canon {B : ND ℂ} {hand : Hand} {y : IMPS} (e : canonicalise eigs chol svd inv ⟨B, none, none, none⟩ hand = .ok y) :
    ∃ eta l r, eigs B = .ok (eta, l, r) := by
  unfold canonicalise vidalPair at e
  obtain ⟨v, e1, -⟩ := bind_eq_ok e
  obtain ⟨⟨eta, l, r⟩, e2, -⟩ := bind_eq_ok e1
  exact ⟨eta, l, r, e2⟩

/-- the energy that the code computes for the result `y` of `canonicalise('m')`: the energy per bond times `ll²`, with `ll = tr(lᵀ r)` for the fixed points
of the tensor before -/
theorem energy_mixed (hchol : CholLaw chol) (hsvd : SVDLaw svd) (hinv : InvLaw inv) (hfix : FixLaw eigs) (hD : 0 < D) {B : ND ℂ} (hB : B.shape = [d, D, D])
    {y : IMPS} (e : canonicalise eigs chol svd inv ⟨B, none, none, none⟩ .m = .ok y) (hh : h.shape = [d * d, d * d]) {v : ℝ}
    (ev : IMPS.energy O eigs y h = .ok v) :
    ∃ (eta ll : ℝ) (l r l' r' : ND ℂ), eigs B = .ok (eta, l, r) ∧ 0 < ll ∧ ((toM D D l)ᵀ * toM D D r).trace = ll ∧ y.A.shape = [d, D, D] ∧
      GaugeEquiv d D B y.A (Real.sqrt (ll / eta)) ∧ eigs y.A = .ok (ll, l', r') ∧ FixedPoints d D y.A l' r' ll ∧
      ((toM D D l')ᵀ * toM D D r').trace = 1 ∧ v = ll ^ 2 * (infExpect2 d D y.A l' r' ll fun s1 s2 t1 t2 => h.val [s1 * d + s2, t1 * d + t2]).re := by
  obtain ⟨eta, l, r, he⟩ := eigs_of_canon e
  obtain ⟨hf, -, -, -⟩ := hfix B d D eta l r hB he
  obtain ⟨y', L, lam, ll, e3, h1, -, h3, h4, h5, -, h7, h8, h9, h10, h11⟩ := canonicalise_mixed hchol hsvd hinv hD (x := ⟨B, none, none, none⟩) he hf
  rw [e] at e3
  cases e3
  have hL : toM D D L = Matrix.diagonal (fun i : Fin D => ((lam.getD i 0 : ℝ) : ℂ)) := by
    ext i j
    rw [toM_apply, h3.2 i (by rw [h4]; exact i.2) j (by rw [h4]; exact j.2), Matrix.diagonal_apply]
    simp only [Fin.ext_iff]
  have hlp : ∀ i : Fin D, 0 < lam.getD i 0 := fun i => by
    rw [List.getD_eq_getElem _ _ (by rw [h4]; exact i.2)]
    exact h5 _ (List.getElem_mem _)
  obtain ⟨eta', l', r', he'⟩ : ∃ eta' l' r', eigs y.A = .ok (eta', l', r') := by
    unfold IMPS.energy at ev
    obtain ⟨_, -, ev⟩ := bind_eq_ok ev
    obtain ⟨⟨eta', l', r'⟩, e2, -⟩ := bind_eq_ok ev
    exact ⟨eta', l', r', e2⟩
  obtain ⟨hf', hn', -, sR⟩ := hfix y.A d D eta' l' r' h1 he'
  -- the eigenvalue
  have hpos : 0 < (toM D D L * toM D D r').trace := by
    rw [hL]
    unfold Matrix.trace
    haveI : Nonempty (Fin D) := ⟨⟨0, hD⟩⟩
    refine Finset.sum_pos (fun i _ => ?_) Finset.univ_nonempty
    rw [Matrix.diag_apply, Matrix.diagonal_mul]
    have : (0 : ℂ) < ((lam.getD i 0 : ℝ) : ℂ) := by exact_mod_cast hlp i
    exact mul_pos this hf'.pos_r.diag_pos
  have heta : eta' = ll := by
    have a1 : (toM D D L * ∑ s ∈ range d, toM3 D D y.A s * toM D D r' * (toM3 D D y.A s)ᴴ).trace = eta' * (toM D D L * toM D D r').trace := by
      rw [hf'.right, Matrix.mul_smul, trace_smul, smul_eq_mul]
    have a2 : (toM D D L * ∑ s ∈ range d, toM3 D D y.A s * toM D D r' * (toM3 D D y.A s)ᴴ).trace = ll * (toM D D L * toM D D r').trace := by
      have : ((∑ s ∈ range d, (toM3 D D y.A s)ᴴ * toM D D L * toM3 D D y.A s) * toM D D r').trace = ll * (toM D D L * toM D D r').trace := by
        rw [h11, Matrix.smul_mul, trace_smul, smul_eq_mul]
      rw [← this, Finset.mul_sum, Finset.sum_mul, Matrix.trace_sum, Matrix.trace_sum]
      refine sum_congr rfl fun s _ => ?_
      rw [← Matrix.mul_assoc, Matrix.trace_mul_comm]
      simp only [Matrix.mul_assoc]
    have := mul_right_cancel₀ hpos.ne' (a1.symm.trans a2)
    exact_mod_cast this
  subst heta
  -- the right fixed point is diagonal
  have hL0 : toM D D L ≠ 0 := by
    intro h0
    rw [h0, Matrix.zero_mul, Matrix.trace_zero] at hpos
    exact lt_irrefl _ hpos
  obtain ⟨c, hc⟩ := sR _ _ hf'.right h10 hL0
  have hs : (toM D D r')ᵀ = toM D D r' := by
    rw [hc, transpose_smul, hL, diagonal_transpose]
  have hn2 : ((toM D D l')ᵀ * toM D D r').trace = 1 := by
    rw [← Matrix.trace_transpose, transpose_mul, transpose_transpose, hs, Matrix.trace_mul_comm, hn']
  refine ⟨eta, eta', l, r, l', r', he, h8, h7, h1, h9, he', hf', hn2, ?_⟩
  rw [energy_eq O hf'.shape hf'.shape_l hf'.shape_r he' hh, hs] at ev
  have hv := (Except.ok.inj ev).symm
  have h0 : ((eta' : ℝ) : ℂ) ^ 2 ≠ 0 := by exact_mod_cast (pow_pos h8 2).ne'
  rw [hv]
  unfold infExpect2
  rw [hn2, mul_one]
  have hre : ∀ z : ℂ, z.re = eta' ^ 2 * (z / (eta' : ℂ) ^ 2).re := by
    intro z
    have : z = ((eta' ^ 2 : ℝ) : ℂ) * (z / (eta' : ℂ) ^ 2) := by
      push_cast
      field_simp
    conv_lhs => rw [this]
    rw [Complex.re_ofReal_mul]
  exact hre _

/-- the states `f 0, f 1, …` of a run of `n` steps and the numbers `es k` that `energy` gives for them -/
structure Spec.OptRun (chol inv null : ND ℂ → Py (ND ℂ)) (svd : ND ℂ → Py (ND ℂ × List ℝ × ND ℂ)) (O : SetOrder)
    (eigs : ND ℂ → Py (ℝ × ND ℂ × ND ℂ)) (root : (ND ℂ → Py (ND ℂ)) → ℕ → Py (ND ℂ)) (h : ND ℂ) (tol : ℝ) (maxIters n : ℕ)
    (f : ℕ → IMPS) (es : ℕ → ℝ) : Prop where
  count : n ≤ maxIters
  energies : ∀ k ≤ n, IMPS.energy O eigs (f k) h = .ok (es k)
  step : ∀ k < n, ∃ g, IMPS.dAdt chol inv null O eigs root (f k) h = .ok g ∧ g.shape = (f k).A.shape ∧
    canonicalise eigs chol svd inv ⟨⟨(f k).A.shape, fun idx => (f k).A.val idx + -(1 / 10) * Complex.I * g.val idx⟩, none, none, none⟩ .m = .ok (f (k + 1))
  goes : ∀ k, k + 1 < n → tol ≤ |es (k + 1) - es k|
  stops : n < maxIters → 0 < n ∧ |es n - es (n - 1)| < tol

theorem iOptStep_inv {x y : IMPS} (e : iOptStep chol inv null svd O eigs root h x = .ok y) :
    ∃ g, IMPS.dAdt chol inv null O eigs root x h = .ok g ∧ g.shape = x.A.shape ∧
      canonicalise eigs chol svd inv ⟨⟨x.A.shape, fun idx => x.A.val idx + -(1 / 10) * Complex.I * g.val idx⟩, none, none, none⟩ .m = .ok y := by
  unfold iOptStep at e
  obtain ⟨g, e1, e⟩ := bind_eq_ok e
  obtain ⟨B, e2, e⟩ := bind_eq_ok e
  unfold ND.zipNd at e2
  split_ifs at e2 with hs
  cases e2
  exact ⟨g, e1, hs.symm, e⟩

theorem iOptLoop_run : ∀ (m : ℕ) (x y : IMPS) (e0 : ℝ), IMPS.energy O eigs x h = .ok e0 → iOptLoop chol inv null svd O eigs root h tol m x e0 = .ok y →
    ∃ n f es, f 0 = x ∧ es 0 = e0 ∧ f n = y ∧ Spec.OptRun chol inv null svd O eigs root h tol m n f es
  | 0, x, y, e0, he, e => by
    unfold iOptLoop at e
    cases e
    refine ⟨0, fun _ => x, fun _ => e0, rfl, rfl, rfl, le_rfl, fun _ _ => he, ?_, ?_, ?_⟩ <;> intros <;> omega
  | m + 1, x, y, e0, he, e => by
    unfold iOptLoop at e
    obtain ⟨z, ez, e⟩ := bind_eq_ok e
    obtain ⟨e1, he1, e⟩ := bind_eq_ok e
    have hst := iOptStep_inv ez
    split_ifs at e with hlt
    · cases e
      refine ⟨1, fun k => Nat.casesOn k x fun _ => y, fun k => Nat.casesOn k e0 fun _ => e1, rfl, rfl, rfl, by omega, ?_, ?_, ?_, ?_⟩
      · rintro (_ | k) hk
        · exact he
        · exact he1
      · rintro (_ | k) hk
        · exact hst
        · omega
      · intro k hk
        omega
      · intro _
        exact ⟨one_pos, hlt⟩
    · obtain ⟨n, f, es, hf, hes, hy, ht⟩ := iOptLoop_run m z y e1 he1 e
      refine ⟨n + 1, fun k => Nat.casesOn k x f, fun k => Nat.casesOn k e0 es, rfl, rfl, hy, by have := ht.count; omega, ?_, ?_, ?_, ?_⟩
      · rintro (_ | k) hk
        · exact he
        · exact ht.energies k (by omega)
      · rintro (_ | k) hk
        · obtain ⟨g, g1, g2, g3⟩ := hst
          exact ⟨g, g1, g2, by simpa [hf] using g3⟩
        · exact ht.step k (by omega)
      · rintro (_ | k) hk
        · show tol ≤ |es 0 - e0|
          rw [hes]
          exact not_lt.1 hlt
        · exact ht.goes k (by omega)
      · intro hlt'
        obtain ⟨h1, h2⟩ := ht.stops (by omega)
        refine ⟨by omega, ?_⟩
        obtain ⟨k, rfl⟩ : ∃ k, n = k + 1 := ⟨n - 1, by omega⟩
        exact h2

/-- **C130**: whenever `optimise` returns a state `y` and a number `v`, `y` is the last of the states of a run of Euler steps that ends after `max_iters`
steps or when two energies in a row differ by less than `tol`, and `v` is the energy per bond of `y` times `ll²`, where `ll = tr(lᵀ r)` for the fixed points
`l`, `r` of the tensor `B` that the last `canonicalise('m')` was called on. -/
theorem iOptimise_spec (hchol : CholLaw chol) (hsvd : SVDLaw svd) (hinv : InvLaw inv) (hfix : FixLaw eigs) (hD : 0 < D) (hh : h.shape = [d * d, d * d])
    {A0 : ND ℂ} (hA0 : A0.shape = [d, D, D]) {maxIters : ℕ} {y : IMPS} {v : ℝ}
    (e : iOptimise chol inv null svd O eigs root h A0 maxIters tol = .ok (y, v)) :
    ∃ n f es, canonicalise eigs chol svd inv ⟨A0, none, none, none⟩ .m = .ok (f 0) ∧ f n = y ∧ es n = v ∧
      Spec.OptRun chol inv null svd O eigs root h tol maxIters n f es ∧ (∀ k ≤ n, (f k).A.shape = [d, D, D]) ∧
      ∀ k ≤ n, ∃ (B : ND ℂ) (eta ll : ℝ) (l r l' r' : ND ℂ), canonicalise eigs chol svd inv ⟨B, none, none, none⟩ .m = .ok (f k) ∧
        eigs B = .ok (eta, l, r) ∧ 0 < ll ∧ ((toM D D l)ᵀ * toM D D r).trace = ll ∧ ((toM D D l) * toM D D r).trace = 1 ∧
        eigs (f k).A = .ok (ll, l', r') ∧ FixedPoints d D (f k).A l' r' ll ∧
        es k = ll ^ 2 * (infExpect2 d D (f k).A l' r' ll fun s1 s2 t1 t2 => h.val [s1 * d + s2, t1 * d + t2]).re := by
  unfold iOptimise at e
  obtain ⟨x, e0, e⟩ := bind_eq_ok e
  obtain ⟨v0, e1, e⟩ := bind_eq_ok e
  obtain ⟨y', e2, e⟩ := bind_eq_ok e
  obtain ⟨v', e3, e⟩ := bind_eq_ok e
  cases e
  obtain ⟨n, f, es, hf, hes, hy, ht⟩ := iOptLoop_run _ _ _ _ e1 e2
  have hen : es n = v := by
    have := ht.energies n le_rfl
    rw [hy, e3] at this
    exact (Except.ok.inj this).symm
  have hB : ∀ k ≤ n, (f k).A.shape = [d, D, D] ∧ ∃ B : ND ℂ, B.shape = [d, D, D] ∧ canonicalise eigs chol svd inv ⟨B, none, none, none⟩ .m = .ok (f k) := by
    intro k
    induction k with
    | zero =>
      intro _
      rw [hf]
      obtain ⟨_, _, _, _, _, _, -, -, -, hs, -⟩ := energy_mixed hchol hsvd hinv hfix hD hA0 e0 hh e1
      exact ⟨hs, A0, hA0, e0⟩
    | succ k ih =>
      intro hk
      obtain ⟨g, -, -, g3⟩ := ht.step k (by omega)
      have hs := (ih (by omega)).1
      obtain ⟨_, _, _, _, _, _, -, -, -, hs', -⟩ := energy_mixed hchol hsvd hinv hfix hD
        (B := ⟨(f k).A.shape, fun idx => (f k).A.val idx + -(1 / 10) * Complex.I * g.val idx⟩) hs g3 hh (ht.energies (k + 1) hk)
      exact ⟨hs', ⟨(f k).A.shape, fun idx => (f k).A.val idx + -(1 / 10) * Complex.I * g.val idx⟩, hs, g3⟩
  refine ⟨n, f, es, by rw [hf]; exact e0, hy, hen, ht, fun k hk => (hB k hk).1, fun k hk => ?_⟩
  obtain ⟨-, B, hBs, eB⟩ := hB k hk
  obtain ⟨eta, ll, l, r, l', r', a1, a2, a3, a4, -, a6, a7, -, a8⟩ := energy_mixed hchol hsvd hinv hfix hD hBs eB hh (ht.energies k hk)
  exact ⟨B, eta, ll, l, r, l', r', eB, a1, a2, a3, (hfix B d D eta l r hBs a1).2.1, a6, a7, a8⟩

/-- **C130, when the number is right**: if one of the fixed points of the tensor before `canonicalise('m')` is symmetric, the factor is one and `energy` gives
the energy per bond. -/
theorem energy_mixed_partial (hchol : CholLaw chol) (hsvd : SVDLaw svd) (hinv : InvLaw inv) (hfix : FixLaw eigs) (hD : 0 < D) {B l r : ND ℂ} {eta : ℝ}
    (hB : B.shape = [d, D, D]) (he : eigs B = .ok (eta, l, r)) (hs : (toM D D l)ᵀ = toM D D l ∨ (toM D D r)ᵀ = toM D D r)
    {y : IMPS} (e : canonicalise eigs chol svd inv ⟨B, none, none, none⟩ .m = .ok y) (hh : h.shape = [d * d, d * d]) {v : ℝ}
    (ev : IMPS.energy O eigs y h = .ok v) :
    ∃ l' r', FixedPoints d D y.A l' r' 1 ∧ v = (infExpect2 d D y.A l' r' 1 fun s1 s2 t1 t2 => h.val [s1 * d + s2, t1 * d + t2]).re := by
  obtain ⟨eta0, ll, l0, r0, l', r', a1, a2, a3, -, -, -, a7, -, a8⟩ := energy_mixed hchol hsvd hinv hfix hD hB e hh ev
  rw [he] at a1
  simp only [Except.ok.injEq, Prod.mk.injEq] at a1
  obtain ⟨rfl, rfl, rfl⟩ := a1
  have hn := (hfix B d D eta l r hB he).2.1
  have h1 : ((toM D D l)ᵀ * toM D D r).trace = 1 := by
    rcases hs with hs | hs
    · rw [hs, hn]
    · rw [← Matrix.trace_transpose, transpose_mul, transpose_transpose, hs, Matrix.trace_mul_comm, hn]
  have : ll = 1 := by
    rw [h1] at a3
    exact_mod_cast a3.symm
  subst this
  exact ⟨l', r', a7, by rw [a8]; simp⟩

/-- the energy per bond of the Hamiltonian that is the identity -/
theorem infExpect2_one {A l r : ND ℂ} {eta : ℝ} (hf : FixedPoints d D A l r eta) (hn : ((toM D D l)ᵀ * toM D D r).trace = 1) :
    infExpect2 d D A l r eta (fun s1 s2 t1 t2 => if s1 * d + s2 = t1 * d + t2 then 1 else 0) = 1 := by
  have h0 : ((eta : ℝ) : ℂ) ≠ 0 := by exact_mod_cast hf.eta_pos.ne'
  unfold infExpect2
  rw [hn, mul_one, div_eq_one_iff_eq (pow_ne_zero 2 h0)]
  have key : ∀ s1 ∈ range d, ∀ s2 ∈ range d, (∑ t1 ∈ range d, ∑ t2 ∈ range d, (if s1 * d + s2 = t1 * d + t2 then (1 : ℂ) else 0) *
      ((toM D D l)ᵀ * (toM3 D D A t1 * toM3 D D A t2) * toM D D r * (toM3 D D A s1 * toM3 D D A s2)ᴴ).trace) =
      ((toM D D l)ᵀ * (toM3 D D A s1 * (toM3 D D A s2 * toM D D r * (toM3 D D A s2)ᴴ) * (toM3 D D A s1)ᴴ)).trace := by
    intro s1 h1 s2 h2
    rw [Finset.sum_eq_single_of_mem s1 h1, Finset.sum_eq_single_of_mem s2 h2]
    · rw [if_pos rfl, one_mul, conjTranspose_mul]
      simp only [Matrix.mul_assoc]
    · intro t2 g2 hne
      rw [if_neg (by omega), zero_mul]
    · intro t1 g1 hne
      refine Finset.sum_eq_zero fun t2 g2 => ?_
      rw [if_neg, zero_mul]
      intro heq
      apply hne
      rw [Finset.mem_range] at h2 g2
      have := congrArg (· / d) heq
      have hd : 0 < d := by omega
      simpa [Nat.add_div_of_dvd_right, Nat.mul_div_cancel _ hd, Nat.div_eq_of_lt h2, Nat.div_eq_of_lt g2] using this.symm
  rw [Finset.sum_congr rfl fun s1 h1 => Finset.sum_congr rfl (key s1 h1)]
  simp only [← Matrix.trace_sum, ← Matrix.mul_sum, ← Matrix.sum_mul]
  rw [hf.right]
  simp only [Matrix.mul_smul, Matrix.smul_mul]
  rw [← Finset.smul_sum, hf.right]
  simp only [Matrix.mul_smul, trace_smul, smul_eq_mul, hn]
  ring

/-- the mixed canonical form of a good tensor is good -/
theorem mixed_good (hchol : CholLaw chol) (hsvd : SVDLaw svd) (hinv : InvLaw inv) (hfix : FixLaw eigs) (hD : 0 < D) {B : ND ℂ}
    (hB : B.shape = [d, D, D]) {p : ℝ × ND ℂ × ND ℂ} (he : eigs B = .ok p) :
    ∃ y L ll, canonicalise eigs chol svd inv ⟨B, none, none, none⟩ .m = .ok y ∧ Spec.GoodFix d D y.A L L ll := by
  obtain ⟨eta, l, r⟩ := p
  obtain ⟨hf, -, hsl, hsr⟩ := hfix B d D eta l r hB he
  obtain ⟨y, L, lam, ll, e3, h1, -, h3, h4, h5, h6, h7, h8, h9, h10, h11⟩ := canonicalise_mixed hchol hsvd hinv hD (x := ⟨B, none, none, none⟩) he hf
  have hL : toM D D L = Matrix.diagonal (fun i : Fin D => ((lam.getD i 0 : ℝ) : ℂ)) := by
    ext i j
    rw [toM_apply, h3.2 i (by rw [h4]; exact i.2) j (by rw [h4]; exact j.2), Matrix.diagonal_apply]
    simp only [Fin.ext_iff]
  have hp : (toM D D L).PosDef := by
    rw [hL, Matrix.posDef_diagonal_iff]
    intro i
    have : 0 < lam.getD i 0 := by
      rw [List.getD_eq_getElem _ _ (by rw [h4]; exact i.2)]
      exact h5 _ (List.getElem_mem _)
    exact_mod_cast this
  have hsL : L.shape = [D, D] := by rw [h3.1, h4]
  have hc : 0 < Real.sqrt (ll / eta) := Real.sqrt_pos.2 (div_pos h8 hf.eta_pos)
  have hone : Real.sqrt (ll / eta) ^ 2 * eta = ll := by
    rw [Real.sq_sqrt (div_pos h8 hf.eta_pos).le, div_mul_cancel₀ _ hf.eta_pos.ne']
  have g1 := gauge_left hc h9 hsl
  have g2 := gauge_right hc h9 hsr
  rw [hone] at g1 g2
  refine ⟨y, L, ll, e3, ⟨h1, hsL, hsL, h8, h10, ?_, hp, hp⟩, ?_, g1, g2⟩
  · have := congrArg Matrix.transpose h11
    rw [transpose_sum, transpose_smul] at this
    have ht : (toM D D L)ᵀ = toM D D L := by rw [hL, diagonal_transpose]
    rw [ht] at this
    rw [← this]
    refine sum_congr rfl fun s _ => ?_
    rw [transpose_mul, transpose_mul, ht, Matrix.mul_assoc]
    rfl
  · rw [hL, diagonal_mul_diagonal, Matrix.trace_diagonal]
    have : ∑ i : Fin D, lam.getD i 0 ^ 2 = (lam.map fun v => v ^ 2).sum := by
      subst h4
      rw [← List.sum_ofFn]
      congr 1
      refine List.ext_getElem (by simp) fun i h1 h2 => ?_
      simp at h1 ⊢
    rw [h6] at this
    have := congrArg (fun x : ℝ => (x : ℂ)) this
    push_cast at this
    rw [← this]
    exact sum_congr rfl fun i _ => by ring

/-- **C130, the number is wrong**: for the tensor `exEn` of leading eigenvalue one, the Hamiltonian that is the identity and no steps, `optimise` returns the
energy `(8/17)²`, although the energy per bond of every state is one. -/
theorem iOptimise_wrong (hchol : CholLaw chol) (hsvd : SVDLaw svd) (hinv : InvLaw inv) (hfix : FixLaw eigs)
    (htot : ∀ d D A l r eta, Spec.GoodFix d D A l r eta → ∃ p, eigs A = .ok p) (he : eigs exEn = .ok (1, exLe, exRe)) :
    ∃ y l r ll, iOptimise chol inv null svd O eigs root (eyeND 4) exEn 0 tol = .ok (y, (8 / 17) ^ 2) ∧ FixedPoints 2 2 y.A l r ll ∧
      infExpect2 2 2 y.A l r ll (fun s1 s2 t1 t2 => (eyeND 4 : ND ℂ).val [s1 * 2 + s2, t1 * 2 + t2]) = 1 := by
  obtain ⟨y, L, ll0, ey, gy⟩ := mixed_good hchol hsvd hinv hfix (by norm_num) (B := exEn) rfl he
  obtain ⟨⟨a, b, c⟩, hp⟩ := htot _ _ _ _ _ _ gy
  obtain ⟨hf, -⟩ := hfix y.A 2 2 a b c gy.1.shape hp
  have ev := energy_eq O (x := y) (h := eyeND 4) hf.shape hf.shape_l hf.shape_r hp rfl
  obtain ⟨eta, ll, l, r, l', r', a1, a2, a3, -, -, a6, a7, a9, a8⟩ := energy_mixed hchol hsvd hinv hfix (by norm_num) (B := exEn) rfl ey rfl ev
  rw [he] at a1
  simp only [Except.ok.injEq, Prod.mk.injEq] at a1
  obtain ⟨rfl, rfl, rfl⟩ := a1
  rw [exEn_ll] at a3
  have hll : ll = 8 / 17 := by
    apply Complex.ofReal_injective
    rw [← a3]
    push_cast
    rfl
  have hone : infExpect2 2 2 y.A l' r' ll (fun s1 s2 t1 t2 => (eyeND 4 : ND ℂ).val [s1 * 2 + s2, t1 * 2 + t2]) = 1 := infExpect2_one a7 a9
  rw [a8, hone] at ev
  refine ⟨y, l', r', ll, ?_, a7, hone⟩
  unfold iOptimise
  rw [ey, ok_bind, ev, ok_bind]
  unfold iOptLoop
  rw [ok_bind, ev, ok_bind, hll]
  simp

/-! ### the hypotheses can be met -/

theorem exEn_right_simple : SimpleRight 2 2 exEn 1 := by
  have hI := Complex.I_mul_I
  have key : ∀ M : Matrix (Fin 2) (Fin 2) ℂ, ∑ s ∈ range 2, toM3 2 2 exEn s * M * (toM3 2 2 exEn s)ᴴ = ((1 : ℝ) : ℂ) • M →
      M = M 0 0 • !![1, -(3 * Complex.I / 5); 3 * Complex.I / 5, 1] := by
    intro M hM
    obtain ⟨p, q, r, t, rfl⟩ : ∃ p q r t, M = !![p, q; r, t] := ⟨_, _, _, _, Matrix.eta_fin_two M⟩
    rw [Finset.sum_range_succ, Finset.sum_range_one, exEn0, exEn1, ct2, ct2] at hM
    simp only [Matrix.mul_fin_two, Matrix.smul_of, Matrix.smul_cons, Matrix.smul_empty, smul_eq_mul, Matrix.of_add_of, Matrix.add_cons,
      Matrix.head_cons, Matrix.tail_cons, Matrix.empty_add_empty] at hM
    have e00 := congrFun (congrFun hM 0) 0
    have e01 := congrFun (congrFun hM 0) 1
    have e10 := congrFun (congrFun hM 1) 0
    have e11 := congrFun (congrFun hM 1) 1
    simp at e00 e01 e10 e11
    have f00 : (17 / 16 : ℂ) * (p + t) - 15 / 16 * Complex.I * (q - r) = p := by
      linear_combination e00 + (17 / 16 : ℂ) * p * hI
    have f11 : (17 / 16 : ℂ) * (p + t) - 15 / 16 * Complex.I * (q - r) = t := by
      linear_combination e11 + (17 / 16 : ℂ) * t * hI
    have f01 : -(15 / 16 : ℂ) * Complex.I * (p + t) - 17 / 16 * (q - r) = q := by
      linear_combination e01 - (17 / 16 : ℂ) * q * hI
    have f10 : (15 / 16 : ℂ) * Complex.I * (p + t) + 17 / 16 * (q - r) = r := by
      linear_combination e10 - (17 / 16 : ℂ) * r * hI
    have h1 : t = p := by linear_combination f00 - f11
    have h2 : r = -q := by linear_combination -f01 - f10
    subst h1 h2
    have h3 : q = t * -(3 * Complex.I / 5) := by linear_combination (-8 / 25 : ℂ) * f01
    rw [Matrix.smul_of]
    simp [h3]
  intro M N hM hN hN0
  have h1 := key M hM
  have h2 := key N hN
  refine ⟨M 0 0 / N 0 0, ?_⟩
  have hn : N 0 0 ≠ 0 := by
    intro e
    rw [e, zero_smul] at h2
    exact hN0 h2
  rw [h1, h2, smul_smul]
  simp [hn]

theorem exEn_left_simple : SimpleLeft 2 2 exEn 1 := by
  have hI := Complex.I_mul_I
  have key : ∀ M : Matrix (Fin 2) (Fin 2) ℂ, ∑ s ∈ range 2, (toM3 2 2 exEn s)ᴴ * M * toM3 2 2 exEn s = ((1 : ℝ) : ℂ) • M →
      M = M 0 0 • !![1, 3 * Complex.I / 5; -(3 * Complex.I / 5), 1] := by
    intro M hM
    obtain ⟨p, q, r, t, rfl⟩ : ∃ p q r t, M = !![p, q; r, t] := ⟨_, _, _, _, Matrix.eta_fin_two M⟩
    rw [Finset.sum_range_succ, Finset.sum_range_one, exEn0, exEn1, ct2, ct2] at hM
    simp only [Matrix.mul_fin_two, Matrix.smul_of, Matrix.smul_cons, Matrix.smul_empty, smul_eq_mul, Matrix.of_add_of, Matrix.add_cons,
      Matrix.head_cons, Matrix.tail_cons, Matrix.empty_add_empty] at hM
    have e00 := congrFun (congrFun hM 0) 0
    have e01 := congrFun (congrFun hM 0) 1
    have e10 := congrFun (congrFun hM 1) 0
    have e11 := congrFun (congrFun hM 1) 1
    simp at e00 e01 e10 e11
    have f00 : (17 / 16 : ℂ) * (p + t) + 15 / 16 * Complex.I * (q - r) = p := by
      linear_combination e00 + (17 / 16 : ℂ) * p * hI
    have f11 : (17 / 16 : ℂ) * (p + t) + 15 / 16 * Complex.I * (q - r) = t := by
      linear_combination e11 + (17 / 16 : ℂ) * t * hI
    have f01 : (15 / 16 : ℂ) * Complex.I * (p + t) - 17 / 16 * (q - r) = q := by
      linear_combination e01 - (17 / 16 : ℂ) * q * hI
    have f10 : -(15 / 16 : ℂ) * Complex.I * (p + t) + 17 / 16 * (q - r) = r := by
      linear_combination e10 - (17 / 16 : ℂ) * r * hI
    have h1 : t = p := by linear_combination f00 - f11
    have h2 : r = -q := by linear_combination -f01 - f10
    subst h1 h2
    have h3 : q = t * (3 * Complex.I / 5) := by linear_combination (-8 / 25 : ℂ) * f01
    rw [Matrix.smul_of]
    simp [h3]
  intro M N hM hN hN0
  have h1 := key M hM
  have h2 := key N hN
  refine ⟨M 0 0 / N 0 0, ?_⟩
  have hn : N 0 0 ≠ 0 := by
    intro e
    rw [e, zero_smul] at h2
    exact hN0 h2
  rw [h1, h2, smul_smul]
  simp [hn]

/-- the contracts can be met by functions for which `eigs` gives the fixed points of `exEn` that the theorem names -/
theorem exEn_eigs : ∃ eigs : ND ℂ → Py (ℝ × ND ℂ × ND ℂ), FixLaw eigs ∧ eigs exEn = .ok (1, exLe, exRe) ∧
    ∀ d D A l r eta, Spec.GoodFix d D A l r eta → ∃ p, eigs A = .ok p := by
  classical
  obtain ⟨eigs, h1, h2⟩ := fixLaw_exists
  refine ⟨fun A => if A = exEn then .ok (1, exLe, exRe) else eigs A, ?_, if_pos rfl, ?_⟩
  · intro A d D eta l r hA e
    dsimp only at e
    split_ifs at e with hE
    · subst hE
      cases e
      simp only [exEn, List.cons.injEq, and_true] at hA
      obtain ⟨rfl, rfl, -⟩ := hA
      exact ⟨exEn_fixed, exEn_norm, exEn_left_simple, exEn_right_simple⟩
    · exact h1 A d D eta l r hA e
  · intro d D A l r eta hg
    dsimp only
    split_ifs
    · exact ⟨_, rfl⟩
    · exact h2 d D A l r eta hg

example (O : SetOrder) : ∃ chol inv null svd eigs root, CholLaw chol ∧ SVDLaw svd ∧ InvLaw inv ∧ FixLaw eigs ∧
    ∃ y, iOptimise chol inv null svd O eigs root (eyeND 4) exEn 0 1 = .ok (y, (8 / 17) ^ 2) := by
  obtain ⟨chol, h1⟩ := cholTriLaw_exists
  obtain ⟨inv, h2⟩ := invLaw_exists
  obtain ⟨null, -⟩ := nullLaw_exists
  obtain ⟨root, -⟩ := rootLaw_exists
  obtain ⟨svd, h5⟩ := svdLaw_exists
  obtain ⟨eigs, h6, h8, h7⟩ := exEn_eigs
  obtain ⟨y, -, -, -, e, -⟩ := iOptimise_wrong (null := null) (root := root) (O := O) (tol := 1) (cholTri_chol h1) h5 h2 h6 h7 h8
  exact ⟨chol, inv, null, svd, eigs, root, cholTri_chol h1, h5, h2, h6, y, e⟩

/-! ### bond dimension one -/

/-- a tensor of bond dimension one that is not zero has simple positive fixed points -/
theorem one_good {B : ND ℂ} (hB : B.shape = [2, 1, 1]) (hne : ∃ s < 2, B.val [s, 0, 0] ≠ 0) : ∃ l r eta, Spec.GoodFix 2 1 B l r eta := by
  have he : toM 1 1 (eyeND 1 : ND ℂ) = 1 := by
    ext i j
    simp [toM_apply, eyeND, Matrix.one_apply, Fin.ext_iff]
  have hv : ∀ s, toM3 1 1 B s = (B.val [s, 0, 0]) • 1 := by
    intro s
    ext i j
    fin_cases i
    fin_cases j
    simp [toM3]
  have hsum : ∑ s ∈ range 2, B.val [s, 0, 0] * star (B.val [s, 0, 0]) = ((∑ s ∈ range 2, ‖B.val [s, 0, 0]‖ ^ 2 : ℝ) : ℂ) := by
    push_cast
    refine sum_congr rfl fun s _ => ?_
    rw [Complex.star_def, Complex.mul_conj, Complex.normSq_eq_norm_sq]
    push_cast
    rfl
  have hsimple : ∀ M N : Matrix (Fin 1) (Fin 1) ℂ, N ≠ 0 → ∃ c : ℂ, M = c • N := by
    intro M N hN
    have h0 : N 0 0 ≠ 0 := by
      intro h
      apply hN
      ext i j
      fin_cases i
      fin_cases j
      simpa using h
    refine ⟨M 0 0 / N 0 0, ?_⟩
    ext i j
    fin_cases i
    fin_cases j
    simp [h0]
  refine ⟨eyeND 1, eyeND 1, ∑ s ∈ range 2, ‖B.val [s, 0, 0]‖ ^ 2, ⟨hB, rfl, rfl, ?_, ?_, ?_, by rw [he]; exact PosDef.one, by rw [he]; exact PosDef.one⟩,
    by rw [he]; simp, fun M N _ _ hN => hsimple M N hN, fun M N _ _ hN => hsimple M N hN⟩
  · obtain ⟨s, hs, h0⟩ := hne
    exact Finset.sum_pos' (fun _ _ => by positivity) ⟨s, mem_range.2 hs, by positivity⟩
  · rw [he, ← hsum, Finset.sum_smul]
    refine sum_congr rfl fun s _ => ?_
    rw [hv, conjTranspose_smul, conjTranspose_one, Matrix.mul_one, Matrix.smul_mul, Matrix.one_mul, smul_smul]
  · rw [he, ← hsum, Finset.sum_smul]
    refine sum_congr rfl fun s _ => ?_
    rw [hv, Matrix.mul_one]
    ext i j
    fin_cases i
    fin_cases j
    simp [Matrix.mul_apply]

section
variable (hchol : CholTriLaw chol) (hsvd : SVDLaw svd) (hinv : InvLaw inv) (hnull : NullLaw null) (hfix : FixLaw eigs)
    (htot : ∀ d D A l r eta, Spec.GoodFix d D A l r eta → ∃ p, eigs A = .ok p) (hroot : RootLaw root) (hh : h.shape = [2 * 2, 2 * 2])
include hchol hsvd hinv hnull hfix htot hroot hh

/-- `canonicalise('m')` and `energy` of a product state -/
theorem one_canon {B : ND ℂ} (hB : B.shape = [2, 1, 1]) (hne : ∃ s < 2, B.val [s, 0, 0] ≠ 0) :
    ∃ y v l r, canonicalise eigs chol svd inv ⟨B, none, none, none⟩ .m = .ok y ∧ IMPS.energy O eigs y h = .ok v ∧ eigs y.A = .ok (1, l, r) ∧
      FixedPoints 2 1 y.A l r 1 ∧ v = (infExpect2 2 1 y.A l r 1 fun s1 s2 t1 t2 => h.val [s1 * 2 + s2, t1 * 2 + t2]).re ∧
      ∃ z, iOptStep chol inv null svd O eigs root h y = .ok z ∧ ∃ B' : ND ℂ, B'.shape = [2, 1, 1] ∧ (∃ s < 2, B'.val [s, 0, 0] ≠ 0) ∧
        canonicalise eigs chol svd inv ⟨B', none, none, none⟩ .m = .ok z := by
  have hC := cholTri_chol hchol
  obtain ⟨l0, r0, eta0, g0⟩ := one_good hB hne
  obtain ⟨⟨eta, l, r⟩, hp⟩ := htot _ _ _ _ _ _ g0
  obtain ⟨y, L, ll0, ey, gy⟩ := mixed_good hC hsvd hinv hfix one_pos hB hp
  obtain ⟨⟨a, b, c⟩, hq⟩ := htot _ _ _ _ _ _ gy
  obtain ⟨hf, hn, hsl, -⟩ := hfix y.A 2 1 a b c gy.1.shape hq
  have ev := energy_eq O (x := y) (h := h) hf.shape hf.shape_l hf.shape_r hq hh
  obtain ⟨eta', ll, l', r', l1, r1, a1, a2, a3, -, -, a6, a7, a9, a8⟩ := energy_mixed hC hsvd hinv hfix one_pos hB ey hh ev
  have hn0 := (hfix B 2 1 _ _ _ hB a1).2.1
  have hll : ll = 1 := by
    have : (toM 1 1 l')ᵀ = toM 1 1 l' := by
      ext i j
      fin_cases i
      fin_cases j
      rfl
    rw [this, hn0] at a3
    exact_mod_cast a3.symm
  subst hll
  rw [hq] at a6
  simp only [Except.ok.injEq, Prod.mk.injEq] at a6
  obtain ⟨rfl, rfl, rfl⟩ := a6
  refine ⟨y, _, b, c, ey, ev, hq, hf, by rw [a8]; simp, ?_⟩
  have hd : ∀ {m : ND ℂ}, (toM 1 1 m).PosDef → DiagND 1 m fun _ => (m.val [0, 0]).re := by
    intro m hm i hi j hj
    obtain rfl : i = 0 := by omega
    obtain rfl : j = 0 := by omega
    rw [if_pos rfl]
    have h0 : 0 < m.val [0, 0] := hm.diag_pos (i := (0 : Fin 1))
    exact (Complex.ext (by simp) (by simpa using (Complex.lt_def.1 h0).2.symm))
  obtain ⟨K, eK, sK, -⟩ := Lh_ok O hroot y one_pos hf hn hsl hq hh
  obtain ⟨g, eg, sg, gg, -⟩ := dAdt_pair hchol hinv hnull O (root := root) y (by norm_num) one_pos hf hq hh (hd hf.pos_l) (hd hf.pos_r) eK sK
  have hl0 : b.val [0, 0] ≠ 0 := (hf.pos_l.diag_pos (i := (0 : Fin 1))).ne'
  have hr0 : c.val [0, 0] ≠ 0 := (hf.pos_r.diag_pos (i := (0 : Fin 1))).ne'
  have hort : ∑ s ∈ range 2, star (y.A.val [s, 0, 0]) * g.val [s, 0, 0] = 0 := by
    have := gg 0 one_pos 0 one_pos
    simp only [Finset.sum_range_one] at this
    have h2 : b.val [0, 0] * ∑ s ∈ range 2, star (y.A.val [s, 0, 0]) * g.val [s, 0, 0] = 0 := by
      rw [← this, mul_sum]
      exact sum_congr rfl fun s _ => by ring
    exact (mul_eq_zero.1 h2).resolve_left hl0
  obtain ⟨B', hBd⟩ : ∃ B' : ND ℂ, B' = ⟨y.A.shape, fun idx => y.A.val idx + -(1 / 10) * Complex.I * g.val idx⟩ := ⟨_, rfl⟩
  have hBs : B'.shape = [2, 1, 1] := by rw [hBd]; exact hf.shape
  have hB0 : ∃ s < 2, B'.val [s, 0, 0] ≠ 0 := by
    by_contra hcon
    push Not at hcon
    have h1 : ∑ s ∈ range 2, star (y.A.val [s, 0, 0]) * B'.val [s, 0, 0] = 0 :=
      sum_eq_zero fun s hs => by rw [hcon s (mem_range.1 hs), mul_zero]
    have h2 : ∑ s ∈ range 2, star (y.A.val [s, 0, 0]) * B'.val [s, 0, 0] = ∑ s ∈ range 2, star (y.A.val [s, 0, 0]) * y.A.val [s, 0, 0] := by
      have : ∑ s ∈ range 2, star (y.A.val [s, 0, 0]) * B'.val [s, 0, 0] = ∑ s ∈ range 2, star (y.A.val [s, 0, 0]) * y.A.val [s, 0, 0] +
          -(1 / 10) * Complex.I * ∑ s ∈ range 2, star (y.A.val [s, 0, 0]) * g.val [s, 0, 0] := by
        rw [mul_sum, ← sum_add_distrib, hBd]
        exact sum_congr rfl fun s _ => by ring
      rw [this, hort, mul_zero, add_zero]
    have h3 := congrFun (congrFun hf.right 0) 0
    simp only [Matrix.sum_apply, Matrix.mul_apply, Matrix.smul_apply, Finset.univ_unique, Finset.sum_singleton, conjTranspose_apply, toM_apply, smul_eq_mul,
      Complex.ofReal_one, one_mul] at h3
    apply hr0
    have h4 : c.val [0, 0] * ∑ s ∈ range 2, star (y.A.val [s, 0, 0]) * y.A.val [s, 0, 0] = c.val [0, 0] := by
      rw [mul_sum]
      refine Eq.trans (sum_congr rfl fun s _ => ?_) h3
      simp [toM3]
      ring
    rw [← h4, ← h2, h1, mul_zero]
  obtain ⟨l2, r2, eta2, g2⟩ := one_good hBs hB0
  obtain ⟨p2, hp2⟩ := htot _ _ _ _ _ _ g2
  obtain ⟨z, -, -, ez, -⟩ := mixed_good hC hsvd hinv hfix one_pos hBs hp2
  refine ⟨z, ?_, B', hBs, hB0, ez⟩
  unfold iOptStep
  rw [eg, ok_bind]
  have hz : y.A.zipNd (· + ·) (g.smul (-(1 / 10) * Complex.I)) = .ok B' := by
    unfold ND.zipNd
    rw [if_pos (by rw [hf.shape]; exact sg.symm), hBd]
    rfl
  rw [hz, ok_bind, ez]

/-- **C130**: for bond dimension one `optimise` returns, for every Hamiltonian, number of steps and tolerance, and the number is the energy per bond. -/
theorem iOptimise_product {A0 : ND ℂ} (hA0 : A0.shape = [2, 1, 1]) (hne : ∃ s < 2, A0.val [s, 0, 0] ≠ 0) (maxIters : ℕ) (tol : ℝ) :
    ∃ y v l r, iOptimise chol inv null svd O eigs root h A0 maxIters tol = .ok (y, v) ∧ FixedPoints 2 1 y.A l r 1 ∧
      v = (infExpect2 2 1 y.A l r 1 fun s1 s2 t1 t2 => h.val [s1 * 2 + s2, t1 * 2 + t2]).re := by
  have loop : ∀ (n : ℕ) (B : ND ℂ) (x : IMPS) (e : ℝ), B.shape = [2, 1, 1] → (∃ s < 2, B.val [s, 0, 0] ≠ 0) →
      canonicalise eigs chol svd inv ⟨B, none, none, none⟩ .m = .ok x →
      ∃ (y : IMPS) (C : ND ℂ), iOptLoop chol inv null svd O eigs root h tol n x e = .ok y ∧ C.shape = [2, 1, 1] ∧ (∃ s < 2, C.val [s, 0, 0] ≠ 0) ∧
        canonicalise eigs chol svd inv ⟨C, none, none, none⟩ .m = .ok y := by
    intro n
    induction n with
    | zero => exact fun B x e h1 h2 h3 => ⟨x, B, rfl, h1, h2, h3⟩
    | succ n ih =>
      intro B x e h1 h2 h3
      obtain ⟨x', -, -, -, e1, -, -, -, -, z, ez, B', b1, b2, b3⟩ := one_canon (O := O) hchol hsvd hinv hnull hfix htot hroot hh h1 h2
      rw [h3] at e1
      cases e1
      obtain ⟨z', v, -, -, e2, ev, -⟩ := one_canon (O := O) hchol hsvd hinv hnull hfix htot hroot hh b1 b2
      rw [b3] at e2
      cases e2
      unfold iOptLoop
      rw [ez, ok_bind, ev, ok_bind]
      split_ifs
      · exact ⟨z, B', rfl, b1, b2, b3⟩
      · exact ih B' z v b1 b2 b3
  obtain ⟨x, v0, -, -, e1, e2, -⟩ := one_canon (O := O) hchol hsvd hinv hnull hfix htot hroot hh hA0 hne
  obtain ⟨y, C, e3, c1, c2, c3⟩ := loop maxIters A0 x v0 hA0 hne e1
  obtain ⟨y', v, l, r, e4, e5, -, hf, hv, -⟩ := one_canon (O := O) hchol hsvd hinv hnull hfix htot hroot hh c1 c2
  rw [c3] at e4
  cases e4
  refine ⟨y, v, l, r, ?_, hf, hv⟩
  unfold iOptimise
  rw [e1, ok_bind, e2, ok_bind, e3, ok_bind, e5, ok_bind]

end

/-- runs of any length meet the hypotheses of `iOptimise_spec` and `iOptimise_product` -/
example (O : SetOrder) (h : ND ℂ) (hh : h.shape = [2 * 2, 2 * 2]) (n : ℕ) : ∃ chol inv null svd eigs root, CholTriLaw chol ∧ SVDLaw svd ∧ InvLaw inv ∧
    NullLaw null ∧ FixLaw eigs ∧ RootLaw root ∧
    ∃ y v, iOptimise chol inv null svd O eigs root h ⟨[2, 1, 1], fun _ => 1⟩ n 0 = .ok (y, v) := by
  obtain ⟨chol, h1⟩ := cholTriLaw_exists
  obtain ⟨inv, h2⟩ := invLaw_exists
  obtain ⟨null, h3⟩ := nullLaw_exists
  obtain ⟨root, h4⟩ := rootLaw_exists
  obtain ⟨svd, h5⟩ := svdLaw_exists
  obtain ⟨eigs, h6, h7⟩ := fixLaw_exists
  obtain ⟨y, v, -, -, e, -⟩ := iOptimise_product (O := O) h1 h5 h2 h3 h6 h7 h4 hh (A0 := ⟨[2, 1, 1], fun _ => 1⟩) rfl ⟨0, by norm_num, one_ne_zero⟩ n 0
  exact ⟨chol, inv, null, svd, eigs, root, h1, h5, h2, h3, h6, h4, y, v, e⟩

end Xmps.ProjHam
