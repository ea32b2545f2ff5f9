import Verif.Model.JacFix
import Verif.Props.JacSymplectic
import Verif.Props.MatchGauge

/-!
# Property C95 (`jac` of a state with `old_vL`)

`jac` turns its null vectors towards those of the step before.  They stay an orthonormal basis of the same space, their overlaps with the old ones become
a positive semidefinite matrix, and the matrix `jac` returns is still Hamiltonian.
-/

namespace Xmps

open Finset Spec Xmps.Ncon

theorem NullBasis.rotate {d p q k : ℕ} {A : ND ℂ} {lam : ℕ → ℝ} {v v' U : ND ℂ} (hb : NullBasis d p q k A lam v) (hU : IsUnitary U k)
    (hs : v'.shape = [d, p, k]) (hv : ∀ s a c, v'.val [s, a, c] = ∑ e ∈ range k, v.val [s, a, e] * U.val [e, c]) : NullBasis d p q k A lam v' := by
  have uc := hU.cols
  have ur := hU.rows
  simp only [ColsOrtho, ND.dim, hU.shape, List.getD_cons_zero, List.getD_cons_succ] at uc
  simp only [RowsOrtho, ND.dim, hU.shape, List.getD_cons_zero, List.getD_cons_succ] at ur
  have inner : ∀ (w : ℕ → ℕ → ℂ) (c : ℕ), ∑ s ∈ range d, ∑ a ∈ range p, star (v'.val [s, a, c]) * w s a =
      ∑ e ∈ range k, star (U.val [e, c]) * ∑ s ∈ range d, ∑ a ∈ range p, star (v.val [s, a, e]) * w s a := by
    intro w c
    simp only [hv, star_sum, star_mul', Finset.sum_mul, Finset.mul_sum]
    rw [sum_swap2]
    exact Finset.sum_congr rfl fun e _ => Finset.sum_congr rfl fun s _ => Finset.sum_congr rfl fun a _ => by ring
  refine ⟨hs, ?_, ?_, ?_⟩
  · intro k1 h1 k2 h2
    rw [inner (fun s a => v'.val [s, a, k2]) k1]
    have e1 : ∀ e ∈ range k, ∑ s ∈ range d, ∑ a ∈ range p, star (v.val [s, a, e]) * v'.val [s, a, k2] = U.val [e, k2] := by
      intro e he
      simp only [hv, Finset.mul_sum]
      rw [sum_swap2, Finset.sum_eq_single e]
      · rw [Finset.sum_congr rfl fun s _ => Finset.sum_congr rfl fun a _ =>
          show star (v.val [s, a, e]) * (v.val [s, a, e] * U.val [e, k2]) = (star (v.val [s, a, e]) * v.val [s, a, e]) * U.val [e, k2] by ring]
        simp only [← Finset.sum_mul]
        rw [hb.orth e (mem_range.1 he) e (mem_range.1 he), if_pos rfl, one_mul]
      · intro f hf hne
        rw [Finset.sum_congr rfl fun s _ => Finset.sum_congr rfl fun a _ =>
          show star (v.val [s, a, e]) * (v.val [s, a, f] * U.val [f, k2]) = (star (v.val [s, a, e]) * v.val [s, a, f]) * U.val [f, k2] by ring]
        simp only [← Finset.sum_mul]
        rw [hb.orth e (mem_range.1 he) f (mem_range.1 hf), if_neg (Ne.symm hne), zero_mul]
      · intro h
        exact absurd he h
    rw [Finset.sum_congr rfl fun e he => by rw [e1 e he]]
    exact uc k1 h1 k2 h2
  · intro c hc k1 h1
    simp only [hv, Finset.mul_sum]
    rw [sum_swap2]
    refine Finset.sum_eq_zero fun e he => ?_
    rw [Finset.sum_congr rfl fun s _ => Finset.sum_congr rfl fun a _ =>
      show star (A.val [s, a, c]) * (Real.sqrt (lam a) : ℝ) * (v.val [s, a, e] * U.val [e, k1]) =
        (star (A.val [s, a, c]) * (Real.sqrt (lam a) : ℝ) * v.val [s, a, e]) * U.val [e, k1] by ring]
    simp only [← Finset.sum_mul]
    rw [hb.null c hc e (mem_range.1 he), zero_mul]
  · intro w hw s hs a ha
    rw [Finset.sum_congr rfl fun c _ => by rw [inner w c]]
    simp only [hv]
    rw [hb.complete w hw s hs a ha]
    set z : ℕ → ℂ := fun e => ∑ t ∈ range d, ∑ b ∈ range p, star (v.val [t, b, e]) * w t b with hz
    show ∑ e ∈ range k, v.val [s, a, e] * z e = ∑ c ∈ range k, (∑ e ∈ range k, v.val [s, a, e] * U.val [e, c]) * ∑ f ∈ range k, star (U.val [f, c]) * z f
    simp only [Finset.sum_mul, Finset.mul_sum]
    rw [Finset.sum_comm]
    refine Finset.sum_congr rfl fun e he => ?_
    rw [Finset.sum_comm, Finset.sum_eq_single e]
    · rw [Finset.sum_congr rfl fun c _ => show v.val [s, a, e] * U.val [e, c] * (star (U.val [e, c]) * z e) =
        (U.val [e, c] * star (U.val [e, c])) * (v.val [s, a, e] * z e) by ring, ← Finset.sum_mul, ur e (mem_range.1 he) e (mem_range.1 he), if_pos rfl, one_mul]
    · intro f hf hne
      rw [Finset.sum_congr rfl fun c _ => show v.val [s, a, f] * U.val [f, c] * (star (U.val [e, c]) * z e) =
        (U.val [f, c] * star (U.val [e, c])) * (v.val [s, a, f] * z e) by ring, ← Finset.sum_mul, ur f (mem_range.1 hf) e (mem_range.1 he), if_neg hne, zero_mul]
    · intro h
      exact absurd he h

theorem NullBasis.congr_lam {d p q k : ℕ} {A : ND ℂ} {lam lam' : ℕ → ℝ} {v : ND ℂ} (hb : NullBasis d p q k A lam v) (h : ∀ a < p, lam' a = lam a) :
    NullBasis d p q k A lam' v := by
  have e : ∀ (f : ℕ → ℕ → ℂ) (g : ℕ → ℕ → ℂ), ∑ s ∈ range d, ∑ a ∈ range p, f s a * (Real.sqrt (lam' a) : ℝ) * g s a =
      ∑ s ∈ range d, ∑ a ∈ range p, f s a * (Real.sqrt (lam a) : ℝ) * g s a := fun f g =>
    Finset.sum_congr rfl fun s _ => Finset.sum_congr rfl fun a ha => by rw [h a (mem_range.1 ha)]
  refine ⟨hb.shape, hb.orth, ?_, ?_⟩
  · intro c hc k1 h1
    rw [e (fun s a => star (A.val [s, a, c])) (fun s a => v.val [s, a, k1])]
    exact hb.null c hc k1 h1
  · intro w hw
    refine hb.complete w fun c hc => ?_
    rw [← e (fun s a => star (A.val [s, a, c])) w]
    exact hw c hc

/-- the overlaps of two families of null vectors -/
noncomputable def nullOverlap (d p : ℕ) (v w : ND ℂ) (k1 k2 : ℕ) : ℂ := ∑ s ∈ range d, ∑ a ∈ range p, star (v.val [s, a, k1]) * w.val [s, a, k2]

theorem fixNull_ok {polar : ND ℂ → Py (ND ℂ × ND ℂ)} (hpol : PolarLaw polar) {d p q k i : ℕ} {A v w : ND ℂ} {lam : ℕ → ℝ} {old : List (ND ℂ)}
    (hA : A.shape = [d, p, q]) (hb : NullBasis d p q k A lam v) (hk : k + q = d * p) (hold : d * p ≠ q → pyGet old i = .ok w ∧ w.shape = [d, p, k]) :
    ∃ v', fixNull polar old A v i = .ok v' ∧ NullBasis d p q k A lam v' ∧ PosSemi k (nullOverlap d p v' w) := by
  unfold fixNull
  have h0 : A.dim 0 = d := by simp [ND.dim, hA]
  rw [h0, dim1 hA, dim2 hA]
  by_cases hq : d * p = q
  · rw [if_pos hq]
    have : k = 0 := by omega
    subst this
    exact ⟨v, rfl, hb, ⟨fun i hi => absurd hi (by omega), fun v => by simp⟩⟩
  · rw [if_neg hq]
    obtain ⟨e1, hw⟩ := hold hq
    obtain ⟨b1, b2⟩ := hc3 hb.shape
    obtain ⟨t, et, ht, vt⟩ := ND.matmul33 b1 hw
    obtain ⟨S, eS, hS, vS⟩ := sum0_ok ht
    obtain ⟨U, P, eU, hU, hP, uc, ur, pp, hprod⟩ := hpol S k hS (by omega)
    obtain ⟨v', ev, hv', vv⟩ := ND.matmul32 hb.shape hU
    refine ⟨v', ?_, hb.rotate ⟨hU, uc, ur⟩ hv' vv, ?_⟩
    · rw [e1, ok_bind, et, ok_bind, eS, ok_bind, eU, ok_bind]
      exact ev
    · refine PosSemi.congr pp fun k1 h1 k2 h2 => ?_
      have uc' := uc
      simp only [ColsOrtho, ND.dim, hU, List.getD_cons_zero, List.getD_cons_succ] at uc'
      have e2 : nullOverlap d p v' w k1 k2 = ∑ e ∈ range k, star (U.val [e, k1]) * S.val [e, k2] := by
        unfold nullOverlap
        have e3 : ∀ e, S.val [e, k2] = ∑ s ∈ range d, ∑ a ∈ range p, v.hc.val [s, e, a] * w.val [s, a, k2] := fun e =>
          (vS e k2).trans (Finset.sum_congr rfl fun s hs => vt s (mem_range.1 hs) e k2)
        simp only [e3, vv, star_sum, star_mul', Finset.sum_mul, Finset.mul_sum]
        rw [sum_swap2]
        refine Finset.sum_congr rfl fun e _ => Finset.sum_congr rfl fun s _ => Finset.sum_congr rfl fun a _ => ?_
        rw [b2]
        ring
      rw [e2, Finset.sum_congr rfl fun e he => by rw [hprod e (mem_range.1 he) k2 h2, Finset.mul_sum], Finset.sum_comm]
      rw [Finset.sum_congr rfl fun f hf => show _ = if k1 = f then P.val [f, k2] else 0 by
        rw [Finset.sum_congr rfl fun e _ => show _ = (star (U.val [e, k1]) * U.val [e, f]) * P.val [f, k2] by ring, ← Finset.sum_mul,
          uc' k1 h1 f (mem_range.1 hf)]
        split <;> simp]
      rw [Finset.sum_ite_eq, if_pos (mem_range.2 h1)]

section
variable {L d : ℕ} {x : FMPS ℂ} {ls rs : List (ND ℂ)} {E : FMPS.InvEnvs} {N : ℝ} {vL l r : ℕ → ND ℂ} {p q k : ℕ → ℕ} {lam rho : ℕ → ℕ → ℝ}
  (c : F2Ctx L d x ls rs E N vL l r p q k lam rho)
include c

theorem F2Ctx.rebase {v : ℕ → ND ℂ} (h : ∀ i (hi : i < x.data.length), NullBasis d (p i) (q i) (k i) x.data[i] (lam i) (v i)) :
    F2Ctx L d x ls rs E N v l r p q k lam rho :=
  { c with site := fun i hi => { c.site i hi with basis := h i hi } }

theorem F2Ctx.dAdtWith {chol inv : ND ℂ → Py (ND ℂ)} (hchol : CholTriLaw chol) (hinv : InvLaw inv) (O : SetOrder)
    (e : x.getEnvs = .ok (ls, rs)) (hf : FullEnvs (List.replicate L d) x.data)
    {H : List (ND ℂ)} (hL : H.length < L) (hH : ∀ h ∈ H, h.shape = [d * d, d * d]) {pr : ℕ → ND ℂ}
    (hpr : ∀ i < L, FMPS.projector chol inv O (vL i) (l i) = .ok (pr i)) :
    ∃ y, FMPS.dAdtWith inv O x ls rs ((List.range L).map pr) H = .ok y ∧ y.data.length = L ∧ ∀ i (hi : i < y.data.length), c.Tan i y.data[i] := by
  have hl := c.len
  obtain ⟨ls', rs', e', hcut⟩ := getEnvs_full c.hx hf
  rw [e] at e'
  obtain ⟨rfl, rfl⟩ : ls = ls' ∧ rs = rs' := by simpa using e'
  obtain ⟨Bs, y, e1, e2, hy, hyl, hsf⟩ := dAdt_sites hinv O c.hx hL hH (ls := ls) (rs := rs) (prs := (List.range L).map pr) (pr := pr) (p := p) (q := q) (k := k)
    (U := fun i s a k1 => (((Real.sqrt (lam i a))⁻¹ : ℝ) : ℂ) * (vL i).val [s, a, k1]) (lam := lam)
    (fun k hk p hp => hcut k (by simpa using hk) p hp) (by
      intro i hi
      rw [pyGet_ok (by simp; omega)]
      simp) (by
      intro i hi
      have hs := c.site i hi
      obtain ⟨pr', e3, hp'⟩ := projector_ok hchol hinv O hs.hl hs.hlv hs.pos hs.basis
      rw [hpr i (by omega)] at e3
      obtain rfl : pr i = pr' := by simpa using e3
      refine ⟨hs.hp, hs.hA, ?_, hs.hn, hs.left, hs.pos, hp'⟩
      obtain ⟨p', q', g1, g2, g3, g4⟩ := chain_site c.hx.chain (i := i) hi
      rw [hs.hA] at g2
      rw [show q i = q' from ((List.cons.inj (List.cons.inj (List.cons.inj g2).2).2).1)]
      exact g3)
  refine ⟨y, ?_, hyl, ?_⟩
  · unfold FMPS.dAdtWith
    rw [e1, ok_bind, e2]
  · intro i hi
    obtain ⟨p', q', k', U, pr', lam', rho', mu, h⟩ := hsf i (by omega) hi
    have h' := h.hA
    rw [(c.site i (by omega)).hA] at h'
    obtain ⟨e3, e4⟩ : p i = p' ∧ q i = q' := by simpa using h'
    subst e3 e4
    exact ⟨h.hB, fun _ => h.gauge⟩

end

section main
variable {polar : ND ℂ → Py (ND ℂ × ND ℂ)} {chol inv null : ND ℂ → Py (ND ℂ)} (hpol : PolarLaw polar) (hchol : CholTriLaw chol) (hinv : InvLaw inv) (hnull : NullLaw null) (O : SetOrder)
  {x : FMPS ℂ} {L m : ℕ} (hx : x.Holds (List.replicate L 2)) (hf : FullEnvs (List.replicate L 2) x.data) (hm : EmptyPrefix 2 x.data m)
  {H : List (ND ℂ)} (hL : H.length < L) (hH : ∀ h ∈ H, h.shape = [4, 4]) (hh : ∀ h ∈ H, ∀ a < 4, ∀ b < 4, star (h.val [b, a]) = h.val [a, b])
include hpol hchol hinv hnull hx hf hm hL hH hh

/-- **C95** For a state with `old_vL`, whose arrays have the shapes of the null vectors, `jac(H)` with Hermitian terms returns a real Hamiltonian matrix.
`new_vL` holds an orthonormal basis of the null space of each site, whose overlaps with the old vectors are a positive semidefinite matrix. -/
theorem FMPS.jac_fixed {old : List (ND ℂ)} (hold : ∀ i (hi : i < x.data.length), ∀ p q, x.data[i].shape = [2, p, q] → 2 * p ≠ q →
      (old.getD i (zerosND [])).shape = [2, p, 2 * p - q] ∧ i < old.length) :
    ∃ J vs, FMPS.jacFixed polar chol inv null O x (some old) H = .ok (J, vs) ∧ J.shape = [2 * tangentDim 2 x.data, 2 * tangentDim 2 x.data] ∧
      (∀ μ < 2 * tangentDim 2 x.data, ∀ ν < 2 * tangentDim 2 x.data, (J.val [μ, ν]).im = 0) ∧
      (∀ u v, symp (tangentDim 2 x.data) (applyMat J (2 * tangentDim 2 x.data) u) v + symp (tangentDim 2 x.data) u (applyMat J (2 * tangentDim 2 x.data) v) = 0) ∧
      ∃ hl : vs.length = x.data.length, ∀ i (hi : i < x.data.length) p q, x.data[i].shape = [2, p, q] →
        NullBasis 2 p q (2 * p - q) x.data[i] (fun a => (leftEnv ((List.replicate L 2).take i) (x.data.take i) a a).re) (vs[i]'(hl ▸ hi)) ∧
        PosSemi (2 * p - q) (nullOverlap 2 p (vs[i]'(hl ▸ hi)) (old.getD i (zerosND []))) := by
  obtain ⟨ls, rs, E, e, eE, pr, vL, l, r, p, q, k, lam, rho, hnl, epr, c⟩ := f2Ctx_gen chDiag_roots hchol hinv hnull O (by omega) hx hf
  have hl := c.len
  have hxL : x.L = L := by simpa using c.hx.len
  have hv : ∀ i, ∃ v', ∀ hi : i < x.data.length, fixNull polar old x.data[i] (vL i) i = .ok v' ∧
      NullBasis 2 (p i) (q i) (k i) x.data[i] (lam i) v' ∧ PosSemi (k i) (nullOverlap 2 (p i) v' (old.getD i (zerosND []))) := by
    intro i
    by_cases hi : i < x.data.length
    · have hs := c.site i hi
      obtain ⟨v', h⟩ := fixNull_ok hpol (w := old.getD i (zerosND [])) (old := old) (i := i) hs.hA hs.basis hs.count (by
        intro hq
        obtain ⟨h1, h2⟩ := hold i hi _ _ hs.hA hq
        rw [h1, show 2 * p i - q i = k i by have := hs.count; omega]
        rw [pyGet_ok h2, List.getD_eq_getElem _ _ h2]
        exact ⟨rfl, rfl⟩)
      exact ⟨v', fun _ => h⟩
    · exact ⟨zerosND [], fun h => absurd h hi⟩
  choose v hv using hv
  have c' := c.rebase (v := v) fun i hi => (hv i hi).2.1
  have hpr : ∀ i, ∃ pr', i < L → FMPS.projector chol inv O (v i) (l i) = .ok pr' := by
    intro i
    by_cases hi : i < L
    · have hs := c'.site i (by omega)
      obtain ⟨pr', e1, -⟩ := projector_ok hchol hinv O hs.hl hs.hlv hs.pos hs.basis
      exact ⟨pr', fun _ => e1⟩
    · exact ⟨zerosND [], fun h => absurd h hi⟩
  choose pr' hpr using hpr
  obtain ⟨y, ey, hyl, hyT⟩ := c'.dAdtWith hchol hinv O e hf hL hH hpr
  obtain ⟨J1, J2, G2, eJ, s1, s2, s3, hsym, hanti⟩ := c'.jac_sym O hL hH hm (c'.jacBlocks hchol hinv O hL hH eE hpr ey hyl hyT)
  obtain ⟨J, e1, e2, e3, e4⟩ := jacReal_hamiltonian s1 s2 s3 (fun μ hμ ν hν => congrArg₂ (· + ·) (hsym μ hμ ν hν).1 (hsym μ hμ ν hν).2) (hanti hh)
  refine ⟨J, (List.range L).map v, ?_, e2, e3, e4, by simp [hl], ?_⟩
  · unfold FMPS.jacFixed
    rw [e, ok_bind]
    simp only
    rw [epr, ok_bind]
    simp only [List.map_map]
    rw [show (Prod.snd ∘ fun n => (pr n, vL n)) = vL from rfl]
    have ef : x.fixNulls polar ((List.range L).map vL) (some old) = .ok ((List.range L).map v) := by
      unfold FMPS.fixNulls
      rw [hxL]
      refine mapM_ok ?_
      intro i hi
      have hi := List.mem_range.1 hi
      rw [pyGet_ok (by omega : i < x.data.length), ok_bind, c.vs hi, ok_bind, (hv i (by omega)).1]
    rw [ef, ok_bind, eJ, ok_bind]
    simp only
    rw [e1, ok_bind]
  · intro i hi p' q' hA
    have hs := c.site i hi
    obtain ⟨h1, h2, h3⟩ := hv i hi
    have hA' := hs.hA
    rw [hA] at hA'
    obtain ⟨rfl, rfl⟩ : p' = p i ∧ q' = q i := by simpa using hA'
    rw [show 2 * p i - q i = k i by have := hs.count; omega]
    simp only [List.getElem_map, List.getElem_range]
    refine ⟨h2.congr_lam ?_, h3⟩
    intro a ha
    rw [hs.left a ha a ha, if_pos rfl, Complex.ofReal_re]

end main

/-- without `old_vL`, `jacFixed` is `jac` -/
theorem FMPS.jacFixed_none {polar : ND ℂ → Py (ND ℂ × ND ℂ)} {chol inv null : ND ℂ → Py (ND ℂ)} {O : SetOrder} {x : FMPS ℂ} {H : List (ND ℂ)} :
    (FMPS.jacFixed polar chol inv null O x none H).map Prod.fst = FMPS.jac chol inv null O x H := by
  unfold FMPS.jacFixed FMPS.jac FMPS.jacParts FMPS.fixNulls
  cases x.getEnvs with
  | error _ => rfl
  | ok a =>
    rw [ok_bind, ok_bind]
    simp only
    cases (List.range x.L).mapM fun n => FMPS.leftNull chol inv null O x a.1 n with
    | error _ => rfl
    | ok b =>
      rw [ok_bind, ok_bind, ok_bind]
      cases FMPS.jacWith chol inv O x a.1 a.2 (b.map Prod.snd) H with
      | error _ => rfl
      | ok c =>
        rw [ok_bind, ok_bind]
        cases jacReal c.1 c.2.1 c.2.2 <;> rfl

/-! ### examples -/

section
variable {polar : ND ℂ → Py (ND ℂ × ND ℂ)} {chol inv null : ND ℂ → Py (ND ℂ)} (hpol : PolarLaw polar) (hchol : CholTriLaw chol) (hinv : InvLaw inv) (hnull : NullLaw null) (O : SetOrder)
include hpol hchol hinv hnull

/-- `2|00⟩` with the null vectors `i|1⟩` of a step before -/
example := FMPS.jac_fixed hpol hchol hinv hnull O (exScaled_holds (2 : ℝ)) (exScaled_full 2 two_ne_zero) (exScaled_prefix _) (H := [exPairTerm]) (by simp)
  (by simp [exPairTerm]) exPair_herm (old := [exUp.smul Complex.I, exUp.smul Complex.I]) (by
    intro i hi p q hA hq
    simp only [exScaled, List.length_cons, List.length_nil] at hi
    interval_cases i <;> simp [exScaled] at hA <;> obtain ⟨rfl, rfl⟩ := hA <;> simp [ND.smul, exUp])

end

end Xmps
