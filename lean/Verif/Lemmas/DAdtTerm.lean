import Verif.Props.LeftNull
import Verif.Props.Transfer
import Verif.Lemmas.TangentHam

/-!
# The contributions to `B(i)` in `dA_dt`
-/

namespace Xmps

open Finset Spec Xmps.Ncon

/-- the four-index form of a two-site matrix -/
def Four (d : ℕ) (h h4 : ND ℂ) : Prop :=
  h4.shape = [d, d, d, d] ∧ ∀ s1 < d, ∀ s2 < d, ∀ t1 < d, ∀ t2 < d, h4.val [s1, s2, t1, t2] = h.val [s1 * d + s2, t1 * d + t2]

theorem four_reshape {d : ℕ} {h : ND ℂ} (hh : h.shape = [d * d, d * d]) : Four d h (h.reshapeR [d, d, d, d]) := by
  refine ⟨rfl, ?_⟩
  intro s1 h1 s2 h2 t1 h3 t2 h4'
  refine ND.reshapeR_val ?_ ?_
  · rw [hh]
    exact ⟨mul_add_lt h1 h2, mul_add_lt h3 h4', trivial⟩
  · rw [hh]
    simp only [ravel_cons, ravel_nil, List.prod_cons, List.prod_nil]
    ring

variable {h h4 A B l r : ND ℂ} {d p q n : ℕ}

theorem nc_C (O : SetOrder) (h4v : Four d h h4) (hA : A.shape = [d, p, q]) (hB : B.shape = [d, q, n]) :
    ∃ C, nc O [h4, A, B] [[-1, -2, 1, 2], [1, -3, 3], [2, 3, -4]] = .ok C ∧ C.shape = [d, d, p, n] ∧
      ∀ t < d, ∀ u < d, ∀ a e, C.val [t, u, a, e] = hAA d q h A B t u a e := by
  obtain ⟨C, e1, hC, hCv⟩ := nc_eval O (AA := [h4, A, B]) (v := [[-1, -2, 1, 2], [1, -3, 3], [2, 3, -4]])
    (dimOf [(1, d), (2, d), (3, q), (-1, d), (-2, d), (-3, p), (-4, n)]) [1, 2, 3] [-1, -2, -3, -4]
    ⟨by simp, by simp [h4v.1, hA, hB, dimOf, List.lookup], by simp, by simp, by decide, by decide, by decide, by decide, by decide⟩
    (by decide) (by decide)
  refine ⟨C, e1, by rw [hC]; simp [dimOf, List.lookup], ?_⟩
  intro t ht u hu a e
  have : C.val [t, u, a, e] = ∑ t1 ∈ range d, ∑ t2 ∈ range d, ∑ k ∈ range q,
      h4.val [t, u, t1, t2] * (A.val [t1, a, k] * B.val [t2, k, e]) := by
    rw [hCv _ rfl]
    simp [labelSum, netTerm, assign, dimOf, List.lookup, Function.update]
  rw [this, hAA]
  refine Finset.sum_congr rfl fun t1 ht1 => Finset.sum_congr rfl fun t2 ht2 => ?_
  rw [Finset.mul_sum, h4v.2 t ht u hu t1 (Finset.mem_range.1 ht1) t2 (Finset.mem_range.1 ht2)]

theorem nc_K (O : SetOrder) {lA C : ND ℂ} (hlA : lA.shape = [d, p, q]) (hB : B.shape = [d, q, n]) (hC : C.shape = [d, d, p, n]) :
    ∃ Kt, nc O [lA, B.conj, C] [[1, 3, 4], [2, 4, -2], [1, 2, 3, -1]] = .ok Kt ∧ Kt.shape = [n, n] ∧
      ∀ k' k, Kt.val [k', k] = ∑ u1 ∈ range d, ∑ u2 ∈ range d, ∑ a ∈ range p, ∑ x ∈ range q,
        lA.val [u1, a, x] * star (B.val [u2, x, k]) * C.val [u1, u2, a, k'] := by
  obtain ⟨Kt, e1, hK, hKv⟩ := nc_eval O (AA := [lA, B.conj, C]) (v := [[1, 3, 4], [2, 4, -2], [1, 2, 3, -1]])
    (dimOf [(1, d), (2, d), (3, p), (4, q), (-1, n), (-2, n)]) [1, 2, 3, 4] [-1, -2]
    ⟨by simp, by simp [hlA, hB, hC, dimOf, List.lookup], by simp, by simp, by decide, by decide, by decide, by decide, by decide⟩
    (by decide) (by decide)
  refine ⟨Kt, e1, by rw [hK]; simp [dimOf, List.lookup], ?_⟩
  intro k' k
  rw [hKv _ rfl]
  simp [labelSum, netTerm, assign, dimOf, List.lookup, Function.update, ND.conj, mul_assoc]

theorem sum_diag_env {rho : ℕ → ℂ} {g : ℕ → ℕ → ℂ} (hg : ∀ a < n, ∀ b < n, g a b = if a = b then rho a else 0) (f : ℕ → ℂ) {c : ℕ} (hc : c < n) :
    ∑ e ∈ range n, f e * g e c = f c * rho c := by
  rw [Finset.sum_eq_single c, hg c hc c hc, if_pos rfl]
  · intro e he hne
    rw [hg e (Finset.mem_range.1 he) c hc, if_neg hne, mul_zero]
  · intro hn
    exact absurd (Finset.mem_range.2 hc) hn

/-- what all the terms compute first -/
theorem term_pre (O : SetOrder) (h4v : Four d h h4) (hA : A.shape = [d, p, q]) (hB : B.shape = [d, q, n]) (hl : l.shape = [p, p]) (hr : r.shape = [n, n]) :
    ∃ C lA Kt Kr e, nc O [h4, A, B] [[-1, -2, 1, 2], [1, -3, 3], [2, 3, -4]] = .ok C ∧ l.matmul A.conj = .ok lA ∧
      nc O [lA, B.conj, C] [[1, 3, 4], [2, 4, -2], [1, 2, 3, -1]] = .ok Kt ∧ Kt.matmul r = .ok Kr ∧ Kr.trace 0 1 = .ok e ∧
      C.shape = [d, d, p, n] ∧ lA.shape = [d, p, q] ∧ Kt.shape = [n, n] ∧
      (∀ t < d, ∀ u < d, ∀ a e, C.val [t, u, a, e] = hAA d q h A B t u a e) ∧
      (∀ s a b, lA.val [s, a, b] = ∑ a' ∈ range p, l.val [a, a'] * star (A.val [s, a', b])) ∧
      ∀ k' k, Kt.val [k', k] = ∑ u1 ∈ range d, ∑ u2 ∈ range d, ∑ a ∈ range p, ∑ x ∈ range q,
        lA.val [u1, a, x] * star (B.val [u2, x, k]) * C.val [u1, u2, a, k'] := by
  obtain ⟨C, e1, hC, hCv⟩ := nc_C O h4v hA hB
  obtain ⟨lA, e2, hlA, hlAv⟩ := ND.matmul23 (A := l) (B := A.conj) hl hA
  obtain ⟨Kt, e3, hK, hKv⟩ := nc_K O hlA hB hC
  obtain ⟨Kr, e4, hKr, -⟩ := ND.matmul22 hK hr
  exact ⟨C, lA, Kt, Kr, _, e1, e2, e3, e4, by simp [ND.trace, ND.rank, hKr]; rfl, hC, hlA, hK, hCv, hlAv, hKv⟩

variable {inv : ND ℂ → Py (ND ℂ)} {x : FMPS ℂ} {ls rs Rs : List (ND ℂ)} {pr : ND ℂ} {i m : ℕ}
  {ds0 ds3 : List ℕ} {As0 As3 : List (ND ℂ)}

/-- the term on the site `i` and the next one -/
theorem term_right (hinv : InvLaw inv) (O : SetOrder) (h4v : Four d h h4) (h0 : MpsChain ds0 As0 1 p) (hA : A.shape = [d, p, q]) (hB : B.shape = [d, q, n])
    (h3 : MpsChain ds3 As3 n 1) (him : ds0.length = i) (eA : pyGet x.data i = .ok A) (eB : pyGet x.data (i + 1) = .ok B) {rm : ND ℂ}
    (el : FMPS.envAt ls ((i : ℤ) - 1) = .ok l) (er : FMPS.envAt rs ((i : ℤ) + 1) = .ok r) (em : FMPS.envAt rs (i : ℤ) = .ok rm)
    (hl : l.shape = [p, p]) (hr : r.shape = [n, n]) (hm : rm.shape = [q, q])
    (hlv : ∀ a < p, ∀ b < p, l.val [a, b] = leftEnv ds0 As0 a b) (hrv : ∀ a < n, ∀ b < n, r.val [a, b] = rightEnv ds3 As3 a b)
    {rho : ℕ → ℂ} (hrho : ∀ a < q, ∀ b < q, rm.val [a, b] = if a = b then rho a else 0) (hne : ∀ a < q, rho a ≠ 0)
    (hpr : pr.shape = [d, p, d, p]) :
    ∃ T e, FMPS.dAdtTerm inv O x ls rs pr Rs i i h4 = .ok (T, e) ∧ T.shape = [d, p, q] ∧ ∀ s, ∀ a < p, ∀ c < q,
      T.val [s, a, c] = -Complex.I * ∑ t ∈ range d, ∑ b ∈ range p, pr.val [s, a, t, b] *
        (envAmp ds0 As0 (d :: ds3) (B :: As3) (gateAct d h i (i + 1) (psi (As0 ++ A :: B :: As3))) t b c * (rho c)⁻¹) := by
  obtain ⟨C, lA, Kt, Kr, e, e1, e2, e3, e4, e5, hC, hlA, hK, hCv, hlAv, hKv⟩ := term_pre O h4v hA hB hl hr
  obtain ⟨lC, f1, hlC, hlCv⟩ : ∃ R, l.matmul24 C = .ok R ∧ R.shape = [d, d, p, n] ∧
      ∀ t u a e, R.val [t, u, a, e] = ∑ a' ∈ range p, l.val [a, a'] * C.val [t, u, a', e] :=
    ⟨_, by simp [ND.matmul24, hl, hC]; rfl, rfl, fun _ _ _ _ => rfl⟩
  obtain ⟨lCr, f2, hlCr, hlCrv⟩ : ∃ R, lC.matmul42 r = .ok R ∧ R.shape = [d, d, p, n] ∧
      ∀ t u a e, R.val [t, u, a, e] = ∑ e' ∈ range n, lC.val [t, u, a, e'] * r.val [e', e] :=
    ⟨_, by simp [ND.matmul42, hlC, hr]; rfl, rfl, fun _ _ _ _ => rfl⟩
  obtain ⟨ri, f3, hri, hriv⟩ := hinv rm ⟨[q, q], fun
      | [a, b] => if a = b then (rho a)⁻¹ else 0
      | _ => 0⟩ q hm rfl (by
    intro a ha b hb
    rw [Finset.sum_eq_single a]
    · rw [hrho a ha a ha, if_pos rfl]
      simp only
      split_ifs
      · rw [mul_inv_cancel₀ (hne a ha)]
      · rw [mul_zero]
    · intro k hk hka
      rw [hrho a ha k (Finset.mem_range.1 hk), if_neg (Ne.symm hka), zero_mul]
    · intro hn
      exact absurd (Finset.mem_range.2 ha) hn)
  obtain ⟨b, f4, hb, hbv⟩ := diag_mul_left (Y := ri) (V := B.conj) (mu := fun a => (rho a)⁻¹) hri hB hriv
  obtain ⟨T, f5, hT, hTv⟩ := nc_eval O (AA := [lCr, pr, b]) (v := [[3, 4, 1, 2], [-1, -2, 3, 1], [4, -3, 2]])
    (dimOf [(1, p), (2, n), (3, d), (4, d), (-1, d), (-2, p), (-3, q)]) [1, 2, 3, 4] [-1, -2, -3]
    ⟨by simp, by simp [hlCr, hpr, hb, dimOf, List.lookup], by simp, by simp, by decide, by decide, by decide, by decide, by decide⟩
    (by decide) (by decide)
  refine ⟨T.smul (-Complex.I), e.val [], ?_, by rw [show (T.smul (-Complex.I)).shape = T.shape from rfl, hT]; simp [dimOf, List.lookup], ?_⟩
  · unfold FMPS.dAdtTerm
    rw [eA, ok_bind, eB, ok_bind, e1, ok_bind, el, ok_bind, er, ok_bind, e2, ok_bind, e3, ok_bind, e4, ok_bind, e5, ok_bind]
    simp only [if_true]
    rw [f1, ok_bind, f2, ok_bind, em, ok_bind, f3, ok_bind, f4, ok_bind, f5, ok_bind]
  · intro s a ha c hc
    have hval : T.val [s, a, c] = ∑ b' ∈ range p, ∑ e ∈ range n, ∑ t ∈ range d, ∑ u ∈ range d, lCr.val [t, u, b', e] * (pr.val [s, a, t, b'] * b.val [u, c, e]) := by
      rw [hTv _ rfl]
      simp [labelSum, netTerm, assign, dimOf, List.lookup, Function.update]
    show -Complex.I * T.val [s, a, c] = _
    rw [hval]
    congr 1
    rw [Finset.sum_congr rfl fun b' _ => Finset.sum_comm, Finset.sum_comm]
    refine Finset.sum_congr rfl fun t ht => Finset.sum_congr rfl fun b' hb' => ?_
    simp only [Finset.mem_range] at ht hb'
    rw [Finset.sum_comm, ← him, envAmp_right h0 hA hB h3 ht hb' hc, Finset.sum_mul, Finset.mul_sum]
    refine Finset.sum_congr rfl fun u hu => ?_
    rw [Finset.sum_mul, Finset.mul_sum]
    refine Finset.sum_congr rfl fun e he => ?_
    simp only [Finset.mem_range] at hu he
    rw [hbv u c hc e, hlCrv]
    have : ∑ e' ∈ range n, lC.val [t, u, b', e'] * r.val [e', e] =
        ∑ a' ∈ range p, ∑ e' ∈ range n, leftEnv ds0 As0 b' a' * hAA d q h A B t u a' e' * rightEnv ds3 As3 e' e := by
      rw [Finset.sum_comm]
      refine Finset.sum_congr rfl fun e' he' => ?_
      have he' := Finset.mem_range.1 he'
      rw [hlCv, Finset.sum_mul]
      refine Finset.sum_congr rfl fun a' ha' => ?_
      rw [hlv b' hb' a' (Finset.mem_range.1 ha'), hCv t ht u hu, hrv e' he' e he]
    rw [this]
    show _ * (_ * ((rho c)⁻¹ * star (B.val [u, c, e]))) = _
    ring

/-- the term on the site before `i` and the site `i` -/
theorem term_here (O : SetOrder) (h4v : Four d h h4) (h0 : MpsChain ds0 As0 1 p) (hA : A.shape = [d, p, q]) (hB : B.shape = [d, q, n])
    (h3 : MpsChain ds3 As3 n 1) (him : ds0.length = m) (eA : pyGet x.data m = .ok A) (eB : pyGet x.data (m + 1) = .ok B)
    (el : FMPS.envAt ls ((m : ℤ) - 1) = .ok l) (er : FMPS.envAt rs ((m : ℤ) + 1) = .ok r)
    (hl : l.shape = [p, p]) (hr : r.shape = [n, n])
    (hlv : ∀ a < p, ∀ b < p, l.val [a, b] = leftEnv ds0 As0 a b) (hsym : ∀ a < p, ∀ b < p, leftEnv ds0 As0 a b = leftEnv ds0 As0 b a)
    {rho : ℕ → ℂ} (hrho : ∀ a < n, ∀ b < n, rightEnv ds3 As3 a b = if a = b then rho a else 0) (hne : ∀ a < n, rho a ≠ 0)
    (hpr : pr.shape = [d, q, d, q]) :
    ∃ T e, FMPS.dAdtTerm inv O x ls rs pr Rs (m + 1) m h4 = .ok (T, e) ∧ T.shape = [d, q, n] ∧ ∀ s, ∀ a < q, ∀ c < n,
      T.val [s, a, c] = -Complex.I * ∑ t ∈ range d, ∑ b ∈ range q, pr.val [s, a, t, b] *
        (envAmp (ds0 ++ [d]) (As0 ++ [A]) ds3 As3 (gateAct d h m (m + 1) (psi (As0 ++ A :: B :: As3))) t b c * (rho c)⁻¹) := by
  obtain ⟨C, lA, Kt, Kr, e, e1, e2, e3, e4, e5, hC, hlA, hK, hCv, hlAv, hKv⟩ := term_pre O h4v hA hB hl hr
  obtain ⟨T, f5, hT, hTv⟩ := nc_eval O (AA := [lA, pr, C]) (v := [[1, 3, 4], [-1, -2, 2, 4], [1, 2, 3, -3]])
    (dimOf [(1, d), (2, d), (3, p), (4, q), (-1, d), (-2, q), (-3, n)]) [1, 2, 3, 4] [-1, -2, -3]
    ⟨by simp, by simp [hlA, hpr, hC, dimOf, List.lookup], by simp, by simp, by decide, by decide, by decide, by decide, by decide⟩
    (by decide) (by decide)
  refine ⟨T.smul (-Complex.I), e.val [], ?_, by rw [show (T.smul (-Complex.I)).shape = T.shape from rfl, hT]; simp [dimOf, List.lookup], ?_⟩
  · unfold FMPS.dAdtTerm
    rw [eA, ok_bind, eB, ok_bind, e1, ok_bind, el, ok_bind, er, ok_bind, e2, ok_bind, e3, ok_bind, e4, ok_bind, e5, ok_bind]
    simp only [show ¬ m = m + 1 by omega, if_false, if_true]
    rw [f5, ok_bind]
  · intro s a ha c hc
    have hval : T.val [s, a, c] = ∑ u ∈ range d, ∑ t ∈ range d, ∑ a' ∈ range p, ∑ b ∈ range q, lA.val [u, a', b] * (pr.val [s, a, t, b] * C.val [u, t, a', c]) := by
      rw [hTv _ rfl]
      simp [labelSum, netTerm, assign, dimOf, List.lookup, Function.update]
    show -Complex.I * T.val [s, a, c] = _
    rw [hval]
    congr 1
    rw [Finset.sum_comm]
    refine Finset.sum_congr rfl fun t ht => ?_
    rw [sum_swap2]
    refine Finset.sum_congr rfl fun b hb => ?_
    simp only [Finset.mem_range] at ht hb
    rw [← him, envAmp_here h0 hA hB h3 ht hb hc, sum_diag_env hrho _ hc, mul_assoc, mul_inv_cancel₀ (hne c hc), mul_one,
      Finset.mul_sum]
    · refine Finset.sum_congr rfl fun u hu => ?_
      rw [Finset.mul_sum]
      refine Finset.sum_congr rfl fun a' ha' => ?_
      simp only [Finset.mem_range] at hu ha'
      rw [hlAv, hCv u hu t ht, Finset.sum_congr rfl fun a1 ha1 => by
        rw [hlv a' ha' a1 (Finset.mem_range.1 ha1), hsym a' ha' a1 (Finset.mem_range.1 ha1)]]
      ring

theorem pullBack_linear {dM : List ℕ} {M : List (ND ℂ)} {r' N1 N2 : ℕ} (w : ℕ → ℕ → ℂ) (X : ℕ → ℕ → ℕ → ℕ → ℂ) (a b : ℕ) :
    pullBack dM M r' (fun y' y => ∑ t ∈ range N1, ∑ z ∈ range N2, w t z * X t z y' y) a b =
      ∑ t ∈ range N1, ∑ z ∈ range N2, w t z * pullBack dM M r' (fun y' y => X t z y' y) a b := by
  unfold pullBack
  simp only [← sumIdx_mul_left, ← sumIdx_finset_sum]
  refine sumIdx_congr fun s _ => ?_
  simp only [Finset.mul_sum, Finset.sum_mul]
  rw [sum_swap2]
  refine Finset.sum_congr rfl fun t _ => ?_
  rw [sum_swap2]
  refine Finset.sum_congr rfl fun z _ => Finset.sum_congr rfl fun c _ => Finset.sum_congr rfl fun c' _ => ?_
  ring

/-- a term two or more sites before `i` -/
theorem term_left (O : SetOrder) {dM : List ℕ} {M : List (ND ℂ)} {E R : ND ℂ} {r' n' : ℕ} (h4v : Four d h h4) (h0 : MpsChain ds0 As0 1 p)
    (hA : A.shape = [d, p, q]) (hB : B.shape = [d, q, n]) (hM : MpsChain dM M n r') (hE : E.shape = [d, r', n'])
    (h3 : MpsChain ds3 As3 n' 1) (him : ds0.length = m) (hi : m + 1 < i) (eA : pyGet x.data m = .ok A) (eB : pyGet x.data (m + 1) = .ok B)
    (el : FMPS.envAt ls ((m : ℤ) - 1) = .ok l) (er : FMPS.envAt rs ((m : ℤ) + 1) = .ok r)
    (hl : l.shape = [p, p]) (hr : r.shape = [n, n])
    (hlv : ∀ a < p, ∀ b < p, l.val [a, b] = leftEnv ds0 As0 a b) (hsym : ∀ a < p, ∀ b < p, leftEnv ds0 As0 a b = leftEnv ds0 As0 b a)
    {rho : ℕ → ℂ} (hrho : ∀ a < n', ∀ b < n', rightEnv ds3 As3 a b = if a = b then rho a else 0) (hne : ∀ a < n', rho a ≠ 0)
    (eR : FMPS.leftAt Rs 0 ((m : ℤ) + 2) = .ok R) (hR : R.shape = [n, n, d, r', n'])
    (hRv : ∀ k' < n, ∀ k < n, ∀ s < d, ∀ a < r', ∀ c < n', R.val [k', k, s, a, c] =
      pullBack dM M r' (fun y' y => ∑ t ∈ range d, pr.val [s, a, t, y] * E.val [t, y', c]) k' k) :
    ∃ T e, FMPS.dAdtTerm inv O x ls rs pr Rs i m h4 = .ok (T, e) ∧ T.shape = [d, r', n'] ∧ ∀ s < d, ∀ a < r', ∀ c < n',
      T.val [s, a, c] = -Complex.I * ∑ t ∈ range d, ∑ b ∈ range r', pr.val [s, a, t, b] *
        (envAmp (ds0 ++ d :: d :: dM) (As0 ++ A :: B :: M) ds3 As3 (gateAct d h m (m + 1) (psi (As0 ++ A :: B :: (M ++ E :: As3)))) t b c * (rho c)⁻¹) := by
  obtain ⟨C, lA, Kt, Kr, e, e1, e2, e3, e4, e5, hC, hlA, hK, hCv, hlAv, hKv⟩ := term_pre O h4v hA hB hl hr
  obtain ⟨T, f5, hT, hTv⟩ := nc_eval O (AA := [Kt, R]) (v := [[1, 2], [1, 2, -1, -2, -3]])
    (dimOf [(1, n), (2, n), (-1, d), (-2, r'), (-3, n')]) [1, 2] [-1, -2, -3]
    ⟨by simp, by simp [hK, hR, dimOf, List.lookup], by simp, by simp, by decide, by decide, by decide, by decide, by decide⟩
    (by decide) (by decide)
  refine ⟨T.smul (-Complex.I), e.val [], ?_, by rw [show (T.smul (-Complex.I)).shape = T.shape from rfl, hT]; simp [dimOf, List.lookup], ?_⟩
  · unfold FMPS.dAdtTerm
    rw [eA, ok_bind, eB, ok_bind, e1, ok_bind, el, ok_bind, er, ok_bind, e2, ok_bind, e3, ok_bind, e4, ok_bind, e5, ok_bind]
    rw [if_neg (by omega), if_neg (by omega), eR]
    simp only [ok_bind]
    rw [f5, ok_bind]
  · intro s hs a ha c hc
    have hval : T.val [s, a, c] = ∑ k' ∈ range n, ∑ k ∈ range n, Kt.val [k', k] * R.val [k', k, s, a, c] := by
      rw [hTv _ rfl]
      simp [labelSum, netTerm, assign, dimOf, List.lookup, Function.update]
    have hKe : ∀ k' k, Kt.val [k', k] = envK ds0 As0 d p q h A B k' k := by
      intro k' k
      rw [hKv, envK]
      refine Finset.sum_congr rfl fun u1 hu1 => Finset.sum_congr rfl fun u2 hu2 => Finset.sum_congr rfl fun a' ha' => Finset.sum_congr rfl fun x' _ => ?_
      simp only [Finset.mem_range] at hu1 hu2 ha'
      rw [hlAv, hCv u1 hu1 u2 hu2, Finset.sum_congr rfl fun a1 ha1 => by
        rw [hlv a' ha' a1 (Finset.mem_range.1 ha1), hsym a' ha' a1 (Finset.mem_range.1 ha1)]]
    have hRe : ∀ k' < n, ∀ k < n, R.val [k', k, s, a, c] = ∑ t ∈ range d, ∑ b ∈ range r', pr.val [s, a, t, b] *
        pullBack dM M r' (fun y' y => E.val [t, y', c] * if y = b then 1 else 0) k' k := by
      intro k' hk' k hk
      rw [hRv k' hk' k hk s hs a ha c hc, ← pullBack_linear]
      unfold pullBack
      refine sumIdx_congr fun v _ => Finset.sum_congr rfl fun y' _ => Finset.sum_congr rfl fun y hy => ?_
      congr 2
      refine Finset.sum_congr rfl fun t _ => ?_
      rw [Finset.sum_eq_single y]
      · simp
      · intro z _ hz
        simp [Ne.symm hz]
      · intro hn
        exact absurd hy hn
    show -Complex.I * T.val [s, a, c] = _
    rw [hval]
    congr 1
    rw [Finset.sum_congr rfl fun k' hk' => Finset.sum_congr rfl fun k hk => by
      rw [hKe, hRe k' (Finset.mem_range.1 hk') k (Finset.mem_range.1 hk), Finset.mul_sum]]
    rw [sum_swap2]
    refine Finset.sum_congr rfl fun t ht => ?_
    rw [Finset.sum_congr rfl fun k' _ => Finset.sum_congr rfl fun k _ => Finset.mul_sum _ _ _]
    rw [sum_swap2]
    refine Finset.sum_congr rfl fun b hb => ?_
    simp only [Finset.mem_range] at ht hb
    rw [← him, envAmp_left h0 hA hB hM hE h3 hb hc, sum_diag_env hrho _ hc, mul_assoc, mul_inv_cancel₀ (hne c hc), mul_one,
      Finset.mul_sum]
    · refine Finset.sum_congr rfl fun k' _ => ?_
      rw [Finset.mul_sum]
      exact Finset.sum_congr rfl fun k _ => by ring

end Xmps
