import Verif.Lemmas.Christoffel

/-!
# `christoffel` for sorted sites, and the change to coordinates
-/

namespace Xmps

open Finset Spec Xmps.Ncon

section
variable {L d : ℕ} {x : FMPS ℂ} {ls rs : List (ND ℂ)} {E : FMPS.InvEnvs} {N : ℝ} {vL l r : ℕ → ND ℂ} {p q k : ℕ → ℕ} {lam rho : ℕ → ℕ → ℝ} {i j n : ℕ}
  {pr : ℕ → ND ℂ} {prs : List (ND ℂ)}

/-- a left-gauge tensor at site `i` -/
def F2Ctx.Tan (_ : F2Ctx L d x ls rs E N vL l r p q k lam rho) (i : ℕ) (U : ND ℂ) : Prop :=
  U.shape = [d, p i, q i] ∧ ∀ hi : i < x.data.length, LeftGauge d (p i) (q i) (leftEnv ((List.replicate L d).take i) (x.data.take i)) x.data[i] U

/-- the entries of `l(i-1)@c(U)@r(i)` -/
def F2Ctx.Dual (_ : F2Ctx L d x ls rs E N vL l r p q k lam rho) (i : ℕ) (U D : ND ℂ) : Prop :=
  ∀ s < d, ∀ a < p i, ∀ b < q i, D.val [s, a, b] = (lam i a : ℂ) * star (U.val [s, a, b]) * (rho i b : ℂ)

/-- the entries of `l(i-1)@C@r(i)` -/
def F2Ctx.Wt (_ : F2Ctx L d x ls rs E N vL l r p q k lam rho) (i : ℕ) (C D : ND ℂ) : Prop :=
  ∀ s < d, ∀ a < p i, ∀ b < q i, D.val [s, a, b] = (lam i a : ℂ) * C.val [s, a, b] * (rho i b : ℂ)

theorem F2Ctx.wt_ok (c : F2Ctx L d x ls rs E N vL l r p q k lam rho) (hi : i < x.data.length) {C : ND ℂ} (hC : C.shape = [d, p i, q i]) :
    ∃ D, FMPS.weighted ls rs i C = .ok D ∧ D.shape = [d, p i, q i] ∧ c.Wt i C D := by
  have hs := c.site i hi
  obtain ⟨t, e1, ht, htv⟩ := diag_mul_left hs.hl hC hs.hlv
  obtain ⟨D, e2, hD, hDv⟩ := diag_mul_right ht hs.hr hs.hrv
  refine ⟨D, ?_, hD, ?_⟩
  · unfold FMPS.weighted
    rw [hs.el, ok_bind, hs.er, ok_bind, e1, ok_bind, e2]
  · intro s _ a ha b hb
    rw [hDv s a b hb, htv s a ha b]

theorem F2Ctx.dual_ok (c : F2Ctx L d x ls rs E N vL l r p q k lam rho) (hi : i < x.data.length) {U : ND ℂ} (hU : U.shape = [d, p i, q i]) :
    ∃ D, FMPS.weighted ls rs i U.conj = .ok D ∧ D.shape = [d, p i, q i] ∧ c.Dual i U D := by
  obtain ⟨D, e, h1, h2⟩ := c.wt_ok hi (C := U.conj) hU
  exact ⟨D, e, h1, h2⟩

/-- `pr(i)` applied to a weighted tensor -/
theorem F2Ctx.chFix (c : F2Ctx L d x ls rs E N vL l r p q k lam rho) (hi : i < x.data.length) {C D pr : ND ℂ} (hp : PrFix d (p i) (q i) x.data[i] (lam i) pr)
    (hC : c.Tan i C) (hD : c.Wt i C D) {s a g : ℕ} (hs : s < d) (ha : a < p i) (hg : g < q i) :
    ∑ u ∈ range d, ∑ f ∈ range (p i), pr.val [s, a, u, f] * D.val [u, f, g] = C.val [s, a, g] * (rho i g : ℂ) := by
  have h := hC.2 hi
  rw [(c.site i hi).gauge_iff] at h
  rw [← hp.fix (fun s a => C.val [s, a, g]) (fun c' hc' => h c' hc' g hg) s hs a ha, Finset.sum_mul]
  refine Finset.sum_congr rfl fun u hu => ?_
  rw [Finset.sum_mul]
  refine Finset.sum_congr rfl fun f hf => ?_
  rw [hD u (Finset.mem_range.1 hu) f (Finset.mem_range.1 hf) g hg]
  ring

/-- what `G` is contracted to, `i < j` -/
def F2Ctx.Pairs (c : F2Ctx L d x ls rs E N vL l r p q k lam rho) (G : ND ℂ) (i j n : ℕ) (z : ℂ) : Prop :=
  ∀ U W C Di Dj Dk : ND ℂ, c.Tan i U → c.Tan j W → c.Tan n C → c.Dual i U Di → c.Dual j W Dj → c.Wt n C Dk →
    sumIdx [d, p i, q i] (fun u => sumIdx [d, p j, q j] fun v => sumIdx [d, p n, q n] fun w =>
      G.val (u ++ v ++ w) * Di.val u * Dj.val v * Dk.val w) =
      z * pairing (List.replicate L d) (psi ((x.data.set i U).set j W)) (psi (x.data.set n C))

theorem F2Ctx.chOpen (c : F2Ctx L d x ls rs E N vL l r p q k lam rho) {inv : ND ℂ → Py (ND ℂ)} (hinv : InvLaw inv) (O : SetOrder)
    (hprs : ∀ i < L, pyGet prs i = .ok (pr i)) (hP : ∀ i (hi : i < x.data.length), PrFix d (p i) (q i) x.data[i] (lam i) (pr i))
    (hij : i < j) (hj : j < L) (hn : n < L) :
    ∃ G, FMPS.chOpen inv O x rs prs i j n = .ok G ∧ G.shape = [d, p i, q i] ++ [d, p j, q j] ++ [d, p n, q n] ∧ c.Pairs G i j n 1 := by
  have hl := c.len
  have si := c.site i (by omega)
  have hd : x.d = d := by
    have := c.hx.d
    rw [this]
    obtain ⟨L', rfl⟩ : ∃ L', L = L' + 1 := ⟨L - 1, by omega⟩
    rfl
  unfold FMPS.chOpen
  rw [pyGet_ok (by omega : i < x.data.length), ok_bind, pyGet_ok (by omega : j < x.data.length), ok_bind, pyGet_ok (by omega : n < x.data.length), ok_bind, hd,
    dim1 si.hA, dim2 si.hA, si.hA, (c.site j (by omega)).hA, (c.site n (by omega)).hA]
  by_cases hz : j = i ∨ i ≠ n ∨ d * p i = q i
  · rw [if_pos hz]
    refine ⟨_, rfl, rfl, ?_⟩
    intro U W C Di Dj Dk hU hW hC _ _ _
    have e : pairing (List.replicate L d) (psi ((x.data.set i U).set j W)) (psi (x.data.set n C)) = 0 := by
      rcases hz with h | h | h
      · omega
      · exact c.chVanish hij (by omega) (by omega) (Ne.symm h) hU.1 hW.1 hC.1 (hU.2 _) (hC.2 _)
      · exact c.chFull hij (by omega) h hU.1 hW.1 (hU.2 _) _
    rw [e, mul_zero]
    simp [zerosND, sumIdx_zero]
  · rw [if_neg hz]
    push Not at hz
    obtain ⟨-, rfl, -⟩ := hz
    obtain ⟨Rs, T, e1, e2, hT, hTv⟩ := c.chRs O (n0 := i) le_rfl hij (by omega) (hprs j hj) (hP j (by omega))
    obtain ⟨ri, e3, hri, hriv⟩ := c.invR hinv (i := i) (by omega)
    rw [e1, ok_bind, hprs i (by omega), ok_bind, e2, ok_bind, si.er, ok_bind, e3, ok_bind]
    obtain ⟨G, e4, hG, hGv⟩ := nc_eval O (AA := [pr i, T, ri, ri]) (v := [[-1, -2, -7, -8], [1, 2, -4, -5, -6], [1, -9], [2, -3]])
      (dimOf [(1, q i), (2, q i), (-1, d), (-2, p i), (-3, q i), (-4, d), (-5, p j), (-6, q j), (-7, d), (-8, p i), (-9, q i)]) [1, 2]
      [-1, -2, -3, -4, -5, -6, -7, -8, -9]
      ⟨by simp, by simp [(hP i (by omega)).shape, hT, hri, dimOf, List.lookup], by simp, by simp, by decide, by decide, by decide, by decide, by decide⟩
      (by decide) (by decide)
    refine ⟨G, e4, by rw [hG]; simp [dimOf, List.lookup], ?_⟩
    have hval : ∀ s a b t a' e u f g, b < q i → g < q i → G.val [s, a, b, t, a', e, u, f, g] =
        (pr i).val [s, a, u, f] * T.val [g, b, t, a', e] * ((rho i g : ℂ)⁻¹ * (rho i b : ℂ)⁻¹) := by
      intro s a b t a' e u f g hb hg
      rw [hGv _ rfl]
      simp [labelSum, netTerm, assign, dimOf, List.lookup, Function.update]
      rw [Finset.sum_eq_single g, Finset.sum_eq_single b]
      · rw [hriv g hg g hg, if_pos rfl, hriv b hb b hb, if_pos rfl]
        ring
      · intro b' hb' h
        rw [hriv b' (Finset.mem_range.1 hb') b hb, if_neg h]
        ring
      · intro h
        exact absurd (Finset.mem_range.2 hb) h
      · intro g' hg' h
        refine Finset.sum_eq_zero fun b' _ => ?_
        rw [hriv g' (Finset.mem_range.1 hg') g hg, if_neg h]
        ring
      · intro h
        exact absurd (Finset.mem_range.2 hg) h
    intro U W C Di Dj Dk hU hW hC hDi hDj hDk
    rw [← c.chSum hij hj (z := 1) (by simpa only [one_mul] using hTv W hW.1 (hW.2 _)) hU.1 hW.1 hC.1
      (G := fun s a b t a' e => ∑ u ∈ range d, ∑ f ∈ range (p i), ∑ g ∈ range (q i), G.val [s, a, b, t, a', e, u, f, g] * Dk.val [u, f, g]) ?_]
    · simp only [sumIdx_cons, sumIdx_nil, List.cons_append, List.nil_append]
      refine Finset.sum_congr rfl fun s hs => Finset.sum_congr rfl fun a ha => Finset.sum_congr rfl fun b hb => Finset.sum_congr rfl fun t ht =>
        Finset.sum_congr rfl fun a' ha' => Finset.sum_congr rfl fun e he => ?_
      simp only [Finset.mem_range] at hs ha hb ht ha' he
      rw [hDi s hs a ha b hb, hDj t ht a' ha' e he]
      simp only [Finset.mul_sum]
      exact Finset.sum_congr rfl fun u _ => Finset.sum_congr rfl fun f _ => Finset.sum_congr rfl fun g _ => by ring
    · intro s hs a ha b hb t ht a' ha' e he
      rw [sum_swap2]
      refine Finset.sum_congr rfl fun g hg => ?_
      have hg := Finset.mem_range.1 hg
      have hne : (rho i g : ℂ) ≠ 0 := by exact_mod_cast (si.pos' g hg).ne'
      have h := c.chFix (i := i) (by omega) (hP i (by omega)) hC hDk hs ha hg
      calc _ = (∑ u ∈ range d, ∑ f ∈ range (p i), (pr i).val [s, a, u, f] * Dk.val [u, f, g]) * (T.val [g, b, t, a', e] * ((rho i g : ℂ)⁻¹ * (rho i b : ℂ)⁻¹)) := by
            simp only [Finset.sum_mul]
            refine Finset.sum_congr rfl fun u _ => Finset.sum_congr rfl fun f _ => ?_
            rw [hval s a b t a' e u f g hb hg]
            ring
        _ = _ := by
            rw [h]
            field_simp

/-- the same for a tensor contracted with the third index -/
def F2Ctx.Pairs2 (c : F2Ctx L d x ls rs E N vL l r p q k lam rho) (G : ND ℂ) (i j n : ℕ) (C : ND ℂ) (z : ℂ) : Prop :=
  ∀ U W Di Dj : ND ℂ, c.Tan i U → c.Tan j W → c.Dual i U Di → c.Dual j W Dj →
    sumIdx [d, p i, q i] (fun u => sumIdx [d, p j, q j] fun v => G.val (u ++ v) * Di.val u * Dj.val v) =
      z * pairing (List.replicate L d) (psi ((x.data.set i U).set j W)) (psi (x.data.set n C))

theorem F2Ctx.chClosed_gen (c : F2Ctx L d x ls rs E N vL l r p q k lam rho) {inv : ND ℂ → Py (ND ℂ)} (hinv : InvLaw inv) (O : SetOrder)
    (hprs : ∀ i < L, pyGet prs i = .ok (pr i)) (hP : ∀ i (hi : i < x.data.length), PrFix d (p i) (q i) x.data[i] (lam i) (pr i))
    {cache : FMPS.DACache} (hij : i < j) (hj : j < L) (hn : n < L) {T : ND ℂ} {z : ℂ} (e1 : FMPS.chEnv O x cache prs i j = .ok T)
    (hT : T.shape = [q i, q i, d, p j, q j])
    (hTv : ∀ W : ND ℂ, W.shape = [d, p j, q j] → LeftGauge d (p j) (q j) (leftEnv ((List.replicate L d).take j) (x.data.take j)) (x.data[j]'(by rw [c.len]; exact hj)) W →
      ∀ g < q i, ∀ b < q i, ∑ t ∈ range d, ∑ a ∈ range (p j), ∑ e ∈ range (q j), (lam j a : ℂ) * star (W.val [t, a, e]) * (rho j e : ℂ) * T.val [g, b, t, a, e] =
        z * mixR ((List.replicate L d).drop (i + 1)) (tailV x.data j (i + 1) W) (x.data.drop (i + 1)) g b)
    {C M : ND ℂ} (hC : c.Tan n C) (hM : M.shape = [d, p n, q n]) (hMv : c.Wt n C M) :
    ∃ G, FMPS.chClosed inv O x cache rs prs i j n M = .ok G ∧ G.shape = [d, p i, q i] ++ [d, p j, q j] ∧ c.Pairs2 G i j n C z := by
  have hl := c.len
  have si := c.site i (by omega)
  have hd : x.d = d := by
    have := c.hx.d
    rw [this]
    obtain ⟨L', rfl⟩ : ∃ L', L = L' + 1 := ⟨L - 1, by omega⟩
    rfl
  unfold FMPS.chClosed
  rw [pyGet_ok (by omega : i < x.data.length), ok_bind, pyGet_ok (by omega : j < x.data.length), ok_bind, hd,
    dim1 si.hA, dim2 si.hA, si.hA, (c.site j (by omega)).hA]
  by_cases hz : j = i ∨ i ≠ n ∨ d * p i = q i
  · rw [if_pos hz]
    refine ⟨_, rfl, rfl, ?_⟩
    intro U W Di Dj hU hW _ _
    have e : pairing (List.replicate L d) (psi ((x.data.set i U).set j W)) (psi (x.data.set n C)) = 0 := by
      rcases hz with h | h | h
      · omega
      · exact c.chVanish hij (by omega) (by omega) (Ne.symm h) hU.1 hW.1 hC.1 (hU.2 _) (hC.2 _)
      · exact c.chFull hij (by omega) h hU.1 hW.1 (hU.2 _) _
    rw [e, mul_zero]
    simp [zerosND, sumIdx_zero]
  · rw [if_neg hz]
    push Not at hz
    obtain ⟨-, rfl, -⟩ := hz
    obtain ⟨ri, e3, hri, hriv⟩ := c.invR hinv (i := i) (by omega)
    obtain ⟨Mr, e5, hMr, hMrv⟩ := diag_mul_right hM hri hriv
    rw [e1, ok_bind, hprs i (by omega), ok_bind, si.er, ok_bind, e3, ok_bind, e5, ok_bind]
    obtain ⟨G, e4, hG, hGv⟩ := nc_eval O (AA := [pr i, Mr, T, ri]) (v := [[-1, -2, 1, 2], [1, 2, 3], [3, 4, -4, -5, -6], [4, -3]])
      (dimOf [(1, d), (2, p i), (3, q i), (4, q i), (-1, d), (-2, p i), (-3, q i), (-4, d), (-5, p j), (-6, q j)]) [1, 2, 3, 4]
      [-1, -2, -3, -4, -5, -6]
      ⟨by simp, by simp [(hP i (by omega)).shape, hT, hri, hMr, dimOf, List.lookup], by simp, by simp, by decide, by decide, by decide, by decide, by decide⟩
      (by decide) (by decide)
    refine ⟨G, e4, by rw [hG]; simp [dimOf, List.lookup], ?_⟩
    intro U W Di Dj hU hW hDi hDj
    rw [← c.chSum hij hj (hTv W hW.1 (hW.2 _)) hU.1 hW.1 hC.1 (G := fun s a b t a' e => G.val [s, a, b, t, a', e]) ?_]
    · simp only [sumIdx_cons, sumIdx_nil, List.cons_append, List.nil_append]
      refine Finset.sum_congr rfl fun s hs => Finset.sum_congr rfl fun a ha => Finset.sum_congr rfl fun b hb => Finset.sum_congr rfl fun t ht =>
        Finset.sum_congr rfl fun a' ha' => Finset.sum_congr rfl fun e he => ?_
      simp only [Finset.mem_range] at hs ha hb ht ha' he
      rw [hDi s hs a ha b hb, hDj t ht a' ha' e he]
      ring
    · intro s hs a ha b hb t ht a' ha' e he
      have hval : G.val [s, a, b, t, a', e] = ∑ u ∈ range d, ∑ f ∈ range (p i), ∑ g ∈ range (q i),
          (pr i).val [s, a, u, f] * M.val [u, f, g] * ((rho i g : ℂ)⁻¹ * (T.val [g, b, t, a', e] * (rho i b : ℂ)⁻¹)) := by
        rw [hGv _ rfl]
        simp [labelSum, netTerm, assign, dimOf, List.lookup, Function.update]
        refine Finset.sum_congr rfl fun u _ => Finset.sum_congr rfl fun f _ => Finset.sum_congr rfl fun g hg => ?_
        rw [Finset.sum_eq_single b]
        · rw [hriv b hb b hb, if_pos rfl, hMrv u f g (Finset.mem_range.1 hg)]
          ring
        · intro b' hb' h
          rw [hriv b' (Finset.mem_range.1 hb') b hb, if_neg h]
          ring
        · intro h
          exact absurd (Finset.mem_range.2 hb) h
      rw [hval, sum_swap2]
      refine Finset.sum_congr rfl fun g hg => ?_
      have hg := Finset.mem_range.1 hg
      have hne : (rho i g : ℂ) ≠ 0 := by exact_mod_cast (si.pos' g hg).ne'
      have h := c.chFix (i := i) (by omega) (hP i (by omega)) hC hMv hs ha hg
      simp only [← Finset.sum_mul]
      rw [h]
      field_simp

theorem F2Ctx.chClosed (c : F2Ctx L d x ls rs E N vL l r p q k lam rho) {inv : ND ℂ → Py (ND ℂ)} (hinv : InvLaw inv) (O : SetOrder)
    (hprs : ∀ i < L, pyGet prs i = .ok (pr i)) (hP : ∀ i (hi : i < x.data.length), PrFix d (p i) (q i) x.data[i] (lam i) (pr i))
    {cache : FMPS.DACache} (hcache : ∀ j Rs, cache j = some Rs → FMPS.chTransfer O x prs 0 j = .ok Rs)
    (hij : i < j) (hj : j < L) (hn : n < L) {C M : ND ℂ} (hC : c.Tan n C) (hM : M.shape = [d, p n, q n]) (hMv : c.Wt n C M) :
    ∃ G, FMPS.chClosed inv O x cache rs prs i j n M = .ok G ∧ G.shape = [d, p i, q i] ++ [d, p j, q j] ∧ c.Pairs2 G i j n C 1 := by
  have hl := c.len
  obtain ⟨T, e1, hT, hTv⟩ : ∃ T, FMPS.chEnv O x cache prs i j = .ok T ∧ T.shape = [q i, q i, d, p j, q j] ∧
      ∀ W : ND ℂ, W.shape = [d, p j, q j] → LeftGauge d (p j) (q j) (leftEnv ((List.replicate L d).take j) (x.data.take j)) (x.data[j]'(by omega)) W →
        ∀ g < q i, ∀ b < q i, ∑ t ∈ range d, ∑ a ∈ range (p j), ∑ e ∈ range (q j),
        (lam j a : ℂ) * star (W.val [t, a, e]) * (rho j e : ℂ) * T.val [g, b, t, a, e] =
          mixR ((List.replicate L d).drop (i + 1)) (tailV x.data j (i + 1) W) (x.data.drop (i + 1)) g b := by
    unfold FMPS.chEnv
    cases hc : cache j with
    | none =>
      obtain ⟨Rs, T, e1, e2, h1, h2⟩ := c.chRs O (n0 := i) le_rfl hij (by omega) (hprs j hj) (hP j (by omega))
      exact ⟨T, by simp only [e1, ok_bind, e2], h1, h2⟩
    | some Rs =>
      obtain ⟨Rs', T, e1, e2, h1, h2⟩ := c.chRs O (n0 := 0) (by omega) hij (by omega) (hprs j hj) (hP j (by omega))
      rw [hcache j Rs hc] at e1
      obtain rfl : Rs = Rs' := by simpa using e1
      exact ⟨T, e2, h1, h2⟩
  exact c.chClosed_gen hinv O hprs hP hij hj hn (z := 1) e1 hT (by simpa only [one_mul] using hTv) hC hM hMv

/-- the change to coordinates -/
theorem F2Ctx.ungauge (c : F2Ctx L d x ls rs E N vL l r p q k lam rho) {chol : ND ℂ → Py (ND ℂ)} (hchol : CholTriLaw chol) (O : SetOrder)
    (hi : i < L) (hj : j < L) {G C : ND ℂ} {z : ℂ} (hG : G.shape = [d, p i, q i] ++ [d, p j, q j]) (hv : c.Pairs2 G i j n C z) :
    ∃ R, FMPS.ungauge chol O ls rs ((List.range L).map vL) G i j = .ok R ∧ R.shape = [k i, q i, k j, q j] ∧
      ∀ a < k i, ∀ b < q i, ∀ a' < k j, ∀ e < q j, R.val [a, b, a', e] =
        z * pairing (List.replicate L d) (psi ((x.data.set i (c.unit i a b)).set j (c.unit j a' e))) (psi (x.data.set n C)) := by
  have hl := c.len
  have si := c.site i (by omega)
  have sj := c.site j (by omega)
  obtain ⟨li, e1, hli, hliv⟩ := chol_diag hchol si.hl si.hlv si.pos
  obtain ⟨rii, e2, hri, hriv⟩ := chol_diag hchol si.hr si.hrv si.pos'
  obtain ⟨lj, e3, hlj, hljv⟩ := chol_diag hchol sj.hl sj.hlv sj.pos
  obtain ⟨rj, e4, hrj, hrjv⟩ := chol_diag hchol sj.hr sj.hrv sj.pos'
  obtain ⟨ui, e5, hui, huiv⟩ := diag_mul_left (V := (vL i).conj) hli si.basis.shape hliv
  obtain ⟨uj, e6, huj, hujv⟩ := diag_mul_left (V := (vL j).conj) hlj sj.basis.shape hljv
  unfold FMPS.ungauge
  rw [si.el, ok_bind, e1, ok_bind, c.vs hi, ok_bind, e5, ok_bind, si.er, ok_bind, e2, ok_bind]
  obtain ⟨T1, f1, hT1, hT1v⟩ := nc_eval O (AA := [G, rii]) (v := [[-1, -2, 1, -4, -5, -6], [1, -3]])
    (dimOf [(1, q i), (-1, d), (-2, p i), (-3, q i), (-4, d), (-5, p j), (-6, q j)]) [1] [-1, -2, -3, -4, -5, -6]
    ⟨by simp, by simp [hG, hri, dimOf, List.lookup], by simp, by simp, by decide, by decide, by decide, by decide, by decide⟩ (by decide) (by decide)
  have hT1 : T1.shape = [d, p i, q i, d, p j, q j] := by rw [hT1]; simp [dimOf, List.lookup]
  rw [f1, ok_bind]
  obtain ⟨T2, f2, hT2, hT2v⟩ := nc_eval O (AA := [ui, T1]) (v := [[1, 2, -1], [1, 2, -2, -3, -4, -5]])
    (dimOf [(1, d), (2, p i), (-1, k i), (-2, q i), (-3, d), (-4, p j), (-5, q j)]) [1, 2] [-1, -2, -3, -4, -5]
    ⟨by simp, by simp [hui, hT1, dimOf, List.lookup], by simp, by simp, by decide, by decide, by decide, by decide, by decide⟩ (by decide) (by decide)
  have hT2 : T2.shape = [k i, q i, d, p j, q j] := by rw [hT2]; simp [dimOf, List.lookup]
  rw [f2, ok_bind, sj.el, ok_bind, e3, ok_bind, c.vs hj, ok_bind, e6, ok_bind, sj.er, ok_bind, e4, ok_bind]
  obtain ⟨T3, f3, hT3, hT3v⟩ : ∃ R, T2.matmul52 rj = .ok R ∧ R.shape = [k i, q i, d, p j, q j] ∧
      ∀ s t u a b, R.val [s, t, u, a, b] = ∑ e ∈ range (q j), T2.val [s, t, u, a, e] * rj.val [e, b] :=
    ⟨_, by simp [ND.matmul52, hT2, hrj]; rfl, rfl, fun _ _ _ _ _ => rfl⟩
  rw [f3, ok_bind]
  obtain ⟨T4, f4, hT4, hT4v⟩ := nc_eval O (AA := [uj, T3]) (v := [[1, 2, -3], [-1, -2, 1, 2, -4]])
    (dimOf [(1, d), (2, p j), (-1, k i), (-2, q i), (-3, k j), (-4, q j)]) [1, 2] [-1, -2, -3, -4]
    ⟨by simp, by simp [huj, hT3, dimOf, List.lookup], by simp, by simp, by decide, by decide, by decide, by decide, by decide⟩ (by decide) (by decide)
  refine ⟨T4, f4, by rw [hT4]; simp [dimOf, List.lookup], ?_⟩
  intro a ha b hb a' ha' e he
  have v1 : ∀ s al t ga ep, T1.val [s, al, b, t, ga, ep] = G.val [s, al, b, t, ga, ep] * ((Real.sqrt (rho i b) : ℝ) : ℂ) := by
    intro s al t ga ep
    rw [hT1v _ rfl]
    simp [labelSum, netTerm, assign, dimOf, List.lookup, Function.update]
    rw [Finset.sum_eq_single b]
    · rw [hriv b hb b hb, if_pos rfl]
    · intro b' hb' h
      rw [hriv b' (Finset.mem_range.1 hb') b hb, if_neg h, mul_zero]
    · intro h
      exact absurd (Finset.mem_range.2 hb) h
  have v2 : ∀ t ga ep, T2.val [a, b, t, ga, ep] = ∑ s ∈ range d, ∑ al ∈ range (p i),
      ((Real.sqrt (lam i al) : ℝ) : ℂ) * star ((vL i).val [s, al, a]) * (G.val [s, al, b, t, ga, ep] * ((Real.sqrt (rho i b) : ℝ) : ℂ)) := by
    intro t ga ep
    rw [hT2v _ rfl]
    simp [labelSum, netTerm, assign, dimOf, List.lookup, Function.update]
    refine Finset.sum_congr rfl fun s _ => Finset.sum_congr rfl fun al hal => ?_
    rw [huiv s al (Finset.mem_range.1 hal) a, v1]
    simp [ND.conj]
  have v3 : ∀ t ga, T3.val [a, b, t, ga, e] = T2.val [a, b, t, ga, e] * ((Real.sqrt (rho j e) : ℝ) : ℂ) := by
    intro t ga
    rw [hT3v, Finset.sum_eq_single e]
    · rw [hrjv e he e he, if_pos rfl]
    · intro b' hb' h
      rw [hrjv b' (Finset.mem_range.1 hb') e he, if_neg h, mul_zero]
    · intro h
      exact absurd (Finset.mem_range.2 he) h
  have v4 : T4.val [a, b, a', e] = ∑ t ∈ range d, ∑ ga ∈ range (p j), ∑ s ∈ range d, ∑ al ∈ range (p i),
      (((Real.sqrt (lam i al) : ℝ) : ℂ) * star ((vL i).val [s, al, a]) * ((Real.sqrt (rho i b) : ℝ) : ℂ)) *
      (((Real.sqrt (lam j ga) : ℝ) : ℂ) * star ((vL j).val [t, ga, a']) * ((Real.sqrt (rho j e) : ℝ) : ℂ)) * G.val [s, al, b, t, ga, e] := by
    rw [hT4v _ rfl]
    simp [labelSum, netTerm, assign, dimOf, List.lookup, Function.update]
    refine Finset.sum_congr rfl fun t _ => Finset.sum_congr rfl fun ga hga => ?_
    rw [hujv t ga (Finset.mem_range.1 hga) a', v3, v2]
    simp only [Finset.sum_mul, Finset.mul_sum]
    refine Finset.sum_congr rfl fun s _ => Finset.sum_congr rfl fun al _ => ?_
    simp [ND.conj]
    ring
  have tan : ∀ m < L, ∀ a1 < k m, ∀ b1, c.Tan m (c.unit m a1 b1) := fun m hm a1 ha1 b1 => ⟨rfl, fun _ => c.gauge hm ha1 b1⟩
  have dual : ∀ m < L, ∀ a1, ∀ b1 < q m, c.Dual m (c.unit m a1 b1) ⟨[d, p m, q m], fun
      | [s, al, be] => if be = b1 then ((Real.sqrt (lam m al) : ℝ) : ℂ) * star ((vL m).val [s, al, a1]) * ((Real.sqrt (rho m b1) : ℝ) : ℂ) else 0
      | _ => 0⟩ := by
    intro m hm a1 b1 hb1 s _ al hal be _
    have sm := c.site m (by omega)
    show (if be = b1 then _ else 0) = _ * star ((tanUnit d (p m) (q m) (vL m) (lam m) (rho m) a1 b1).val [s, al, be]) * _
    rw [tanUnit_star]
    by_cases h : be = b1
    · subst h
      rw [if_pos rfl, if_pos rfl]
      have h1 := sm.sqi hal
      have h2 := sm.sqi' hb1
      have h3 := sm.sq hal
      have h4 := sm.sq' hb1
      rw [← h3, ← h4]
      linear_combination (-(((Real.sqrt (lam m al) : ℝ) : ℂ) * star ((vL m).val [s, al, a1]) * ((Real.sqrt (rho m be) : ℝ) : ℂ))) *
        (((((Real.sqrt (rho m be) : ℝ) : ℂ)) * ((((Real.sqrt (rho m be))⁻¹ : ℝ) : ℂ))) * h1 + h2)
    · rw [if_neg h, if_neg h]
      ring
  rw [v4, ← hv _ _ _ _ (tan i hi a ha b) (tan j hj a' ha' e) (dual i hi a b hb) (dual j hj a' e he)]
  simp only [sumIdx_cons, sumIdx_nil, List.cons_append, List.nil_append]
  rw [sum_swap2]
  refine Finset.sum_congr rfl fun s _ => ?_
  rw [sum_swap2]
  refine Finset.sum_congr rfl fun al _ => ?_
  symm
  rw [Finset.sum_eq_single b]
  · refine Finset.sum_congr rfl fun t _ => Finset.sum_congr rfl fun ga _ => ?_
    rw [Finset.sum_eq_single e]
    · rw [if_pos rfl, if_pos rfl]
      ring
    · intro e' _ h
      rw [if_neg h, mul_zero]
    · intro h
      exact absurd (Finset.mem_range.2 he) h
  · intro b' _ h
    refine Finset.sum_eq_zero fun t _ => Finset.sum_eq_zero fun ga _ => Finset.sum_eq_zero fun ep _ => ?_
    rw [if_neg h]
    ring
  · intro h
    exact absurd (Finset.mem_range.2 hb) h

end

end Xmps
