import Verif.Model.Otoc
import Verif.Spec.TfdAct
import Verif.Props.TrajReads
import Verif.Props.TdvpExact

/-!
# C114: `mps_OTOC`

Specification: `otocNow`, the out-of-time-order correlator `-⟨[W, V]²⟩` at time zero.
-/

namespace Xmps

open Spec Finset Xmps.Ncon

/-- `[W, V] f` for one-site operators `V`, `W` -/
def Spec.commAct (d : ℕ) (V W : ND ℂ × ℕ) (f : List ℕ → ℂ) (s : List ℕ) : ℂ :=
  siteAct d W.1 W.2 (siteAct d V.1 V.2 f) s - siteAct d V.1 V.2 (siteAct d W.1 W.2 f) s

/-- `-Re ⟨f|[W, V]²|f⟩ / ⟨f|f⟩` -/
noncomputable def Spec.otocNow (L d : ℕ) (V W : ND ℂ × ℕ) (f : List ℕ → ℂ) : ℝ :=
  -(pairing (List.replicate L d) f (commAct d V W (commAct d V W f)) / pairing (List.replicate L d) f f).re

/-- the length of a vector -/
noncomputable def Spec.vecLen (ds : List ℕ) (f : List ℕ → ℂ) : ℝ := Real.sqrt (pairing ds f f).re

/-- what an entry of the list that `mps_OTOC` returns is: `2` minus half the real part of the overlap of the normalised states `W|ψ⟩` and `WV|ψ⟩`, times
a phase that depends on the singular value decompositions -/
def Spec.OtocEntry (L d : ℕ) (V W : ND ℂ × ℕ) (f : List ℕ → ℂ) (v : ℂ) : Prop :=
  ∃ w : ℂ, ‖w‖ = 1 ∧ v = ((2 - (w * (pairing (List.replicate L d) (siteAct d W.1 W.2 (siteAct d V.1 V.2 f)) (siteAct d W.1 W.2 f) /
    (vecLen (List.replicate L d) (siteAct d W.1 W.2 (siteAct d V.1 V.2 f)) * vecLen (List.replicate L d) (siteAct d W.1 W.2 f)))).re / 2 : ℝ) : ℂ)

/-- a chain with an amplitude that is not zero has no bond of extent 0 -/
theorem posDims_of_amp : ∀ {ds : List ℕ} {As : List (ND ℂ)} {l r : ℕ} {s : List ℕ} {a b : ℕ}, MpsChain ds As l r → InB ds s → a < l →
    amp As s a b ≠ 0 → PosDims As
  | [], [], _, _, _, _, _, _, _, _, _ => by simp [PosDims]
  | d :: ds, A :: As, l, r, t :: s, a, b, ⟨m, hA, hc⟩, hs, ha, h => by
    rw [PosDims.cons]
    have hne : ∃ c ∈ range (A.dim 2), A.val [t, a, c] * amp As s c b ≠ 0 := by
      by_contra hcon
      push Not at hcon
      exact h (by rw [amp]; exact sum_eq_zero hcon)
    obtain ⟨c, hc', hne⟩ := hne
    have hcm : c < m := by simpa [ND.dim, hA] using hc'
    refine ⟨?_, posDims_of_amp hc hs.2 hcm (right_ne_zero_of_mul hne)⟩
    intro n hn
    rw [hA] at hn
    simp only [List.mem_cons, List.not_mem_nil, or_false] at hn
    rcases hn with rfl | rfl | rfl
    · exact Nat.zero_lt_of_lt hs.1
    · omega
    · omega

namespace Tdvp

/-- `copy().apply(op).left_canonicalise()`: the normalised state, up to a phase, and its norm -/
theorem applyCanon_ok {svd : Svd} {eig : Eig} (hsvd : SVDLaw svd) (heig : EigOrthoLaw eig) {x : FMPS ℂ} {L d : ℕ} (hx : x.Holds (List.replicate L d))
    {op : ND ℂ} {i : ℕ} (hi : i < L) (ho : op.shape = [d, d]) (hnz : ∃ s, InB (List.replicate L d) s ∧ siteAct d op i (psi x.data) s ≠ 0) :
    ∃ y R, applyCanon svd eig x (op, i) = .ok y ∧ y.Holds (List.replicate L d) ∧ getNorm y = .ok R ∧
      braket (List.replicate L d) y.data y.data = 1 ∧
      ∃ c : ℂ, c ≠ 0 ∧ ‖c‖ = ‖R.val [0, 0]‖ ∧ ∀ s, InB (List.replicate L d) s → siteAct d op i (psi x.data) s = c * psi y.data s := by
  obtain ⟨x', e1, d1, h1, -⟩ := init_holds hx.chain hx.ne none (Or.inl rfl)
  obtain ⟨z, e2, h2, hv⟩ := FMPS.apply_state h1 (site := i) (d' := d) (op := op) (by simpa using hi) (by simpa using ho)
  have hset : (List.replicate L d).set i d = List.replicate L d := by
    apply List.ext_getElem (by simp)
    intro k h1 h2
    rw [List.getElem_set]
    split_ifs <;> simp
  rw [hset] at h2 hv
  have hv' : ∀ s, InB (List.replicate L d) s → psi z.data s = siteAct d op i (psi x.data) s := by
    intro s hs
    rw [hv s hs, List.getElem_replicate, d1]
    rfl
  obtain ⟨s0, hs0, hne0⟩ := hnz
  have hne : psi z.data s0 ≠ 0 := by rw [hv' s0 hs0]; exact hne0
  have hp : PosDims z.data := by
    rw [Holds.psi_amp h2 hs0] at hne
    exact posDims_of_amp h2.chain hs0 one_pos hne
  have hu : ∀ t ∈ List.replicate L d, t = z.d := by
    intro t ht
    rw [h2.d, List.eq_of_mem_replicate ht]
    cases L with
    | zero => omega
    | succ L => simp [List.replicate_succ]
  obtain ⟨y, Ls, R, w, f1, f2, -, -, f3, -, f4, f5, f6, -, f7, -⟩ :=
    FMPS.leftCanonicalise_spec hsvd heig h2 hu hp none (by simp) fun _ => ⟨s0, hs0, hne⟩
  refine ⟨y, R, ?_, f2, by simp [getNorm, f4], f3, w * R.val [0, 0], ?_, by rw [norm_mul, f6, one_mul], fun s hs => ?_⟩
  · have e1 : x.copy = .ok x' := e1
    unfold applyCanon
    simp only [e1, ok_bind, e2, f1]
  · intro h0
    exact hne (by rw [f7 rfl s0 hs0, h0, zero_mul])
  · rw [← hv' s hs, f7 rfl s hs]

theorem siteAct_smul {d : ℕ} {op : ND ℂ} {i L : ℕ} {f g : List ℕ → ℂ} {c : ℂ} (hi : i < L)
    (h : ∀ s, InB (List.replicate L d) s → f s = c * g s) {s : List ℕ} (hs : InB (List.replicate L d) s) :
    siteAct d op i f s = c * siteAct d op i g s := by
  unfold siteAct
  rw [mul_sum]
  refine sum_congr rfl fun p hp => ?_
  rw [h _ (InB.set hs (by simp [List.getElem?_replicate, hi]) (mem_range.1 hp))]
  ring

theorem scaleFirst_ok {x : FMPS ℂ} {ds : List ℕ} (hx : x.Holds ds) (m n : ND ℂ) :
    ∃ y, scaleFirst x m n = .ok y ∧ y.Holds ds ∧ ∀ s, InB ds s → psi y.data s = m.val [0, 0] * n.val [0, 0] * psi x.data s := by
  have hc := hx.chain
  obtain ⟨A, As, eA⟩ := List.exists_cons_of_ne_nil hx.data_ne
  obtain ⟨d, ds', rfl⟩ := List.exists_cons_of_ne_nil hx.ne
  rw [eA] at hc
  obtain ⟨k, hA, hc⟩ := hc
  have hy : FMPS.Holds { x with data := x.data.set 0 (A.smul (m.val [0, 0] * n.val [0, 0])) } (d :: ds') :=
    ⟨by simp only [eA, List.set_cons_zero]; exact ⟨k, hA, hc⟩, hx.ne, hx.len, hx.d⟩
  refine ⟨_, by simp [scaleFirst, eA, pyGet]; rfl, by simpa [eA] using hy, fun s hs => ?_⟩
  rw [eA, List.set_cons_zero] at hy
  rw [Holds.psi_amp hy hs, Holds.psi_amp hx hs, eA]
  obtain ⟨t, s', rfl⟩ : ∃ t s', s = t :: s' := by
    cases s with
    | nil => exact absurd hs (by simp)
    | cons t s' => exact ⟨t, s', rfl⟩
  simp only [List.set_cons_zero, amp, mul_sum]
  refine sum_congr rfl fun c _ => ?_
  simp only [ND.smul]
  ring

theorem apply_of_canon {svd : Svd} {eig : Eig} {x y : FMPS ℂ} {op : ND ℂ × ℕ} (h : applyCanon svd eig x op = .ok y) :
    ∃ z r, x.apply op.1 op.2 = .ok z ∧ z.leftCanonicalise svd eig = .ok r := by
  unfold applyCanon at h
  obtain ⟨x', e1, h⟩ := bind_eq_ok h
  obtain ⟨z, e2, h⟩ := bind_eq_ok h
  obtain ⟨r, e3, -⟩ := bind_eq_ok h
  refine ⟨z, r, ?_, e3⟩
  have hd : x'.data = x.data := by
    simp only [FMPS.copy, FMPS.init] at e1
    obtain ⟨_, -, e1⟩ := bind_eq_ok e1
    obtain ⟨_, -, e1⟩ := bind_eq_ok e1
    obtain ⟨_, -, e1⟩ := bind_eq_ok e1
    injection e1 with e1
    rw [← e1]
  unfold FMPS.apply at e2 ⊢
  rwa [hd] at e2

theorem evolve2_zero (a b : FMPS ℂ) : evolve2 0 a b = .ok (a, b) := by simp [evolve2]

theorem vecLen_smul {ds : List ℕ} {f : List ℕ → ℂ} {y : List (ND ℂ)} {c : ℂ} (h : ∀ s, InB ds s → f s = c * psi y s) (hy : braket ds y y = 1) :
    vecLen ds f = ‖c‖ := by
  unfold vecLen
  rw [pairing_congr (f' := fun s => c * psi y s) (g' := fun s => c * psi y s) h h, pairing_smul_left, pairing_smul]
  have : pairing ds (psi y) (psi y) = 1 := hy
  rw [this, mul_one, Complex.star_def, ← Complex.normSq_eq_conj_mul_self, Complex.ofReal_re, Complex.normSq_eq_norm_sq, Real.sqrt_sq (norm_nonneg _)]

section
variable {svd : Svd} {eig : Eig} (hsvd : SVDLaw svd) (heig : EigOrthoLaw eig) (O : SetOrder) {L d : ℕ} {V W : ND ℂ × ℕ}
  (hV : V.2 < L) (hW : W.2 < L) (sV : V.1.shape = [d, d]) (sW : W.1.shape = [d, d]) {f : List ℕ → ℂ}
  (nW : ∃ s, InB (List.replicate L d) s ∧ siteAct d W.1 W.2 f s ≠ 0)
  (nWV : ∃ s, InB (List.replicate L d) s ∧ siteAct d W.1 W.2 (siteAct d V.1 V.2 f) s ≠ 0)
  (nVW : ∃ s, InB (List.replicate L d) s ∧ siteAct d V.1 V.2 (siteAct d W.1 W.2 f) s ≠ 0)
include hsvd heig hV hW sV sW nW nWV nVW

theorem otocStep_ok {n20 : ND ℂ} (hn20 : n20.val [0, 0] ≠ 0) {p1 p2 : FMPS ℂ} (h1 : p1.Holds (List.replicate L d)) (h2 : p2.Holds (List.replicate L d))
    {c1 : ℂ} (c1n : c1 ≠ 0) (e1 : ∀ s, InB (List.replicate L d) s → psi p1.data s = c1 * f s)
    (k2 : ∃ c : ℂ, c ≠ 0 ∧ ∀ s, InB (List.replicate L d) s → psi p2.data s = c * siteAct d V.1 V.2 f s) (acc : List ℂ) :
    ∃ q1 q2 v, otocStep svd eig O V W n20 (p1, p2, acc) 0 = .ok (q1, q2, acc ++ [v]) ∧ q1.Holds (List.replicate L d) ∧ q2.Holds (List.replicate L d) ∧
      (∃ c : ℂ, c ≠ 0 ∧ ‖c‖ = ‖c1‖ ^ 3 * vecLen (List.replicate L d) (siteAct d W.1 W.2 f) ^ 2 ∧
        ∀ s, InB (List.replicate L d) s → psi q1.data s = c * f s) ∧
      (∃ c : ℂ, c ≠ 0 ∧ ∀ s, InB (List.replicate L d) s → psi q2.data s = c * siteAct d V.1 V.2 f s) ∧ OtocEntry L d V W f v := by
  obtain ⟨c2, c2n, e2⟩ := k2
  have w1 := fun s hs => siteAct_smul (op := W.1) hW e1 (s := s) hs
  have w2 := fun s hs => siteAct_smul (op := W.1) hW e2 (s := s) hs
  obtain ⟨a, Ra, a1, a2, a3, a4, ca, a5, a6, a7⟩ := applyCanon_ok hsvd heig h1 hW sW (by
    obtain ⟨s, hs, hne⟩ := nW
    exact ⟨s, hs, by rw [w1 s hs]; exact mul_ne_zero c1n hne⟩)
  obtain ⟨b, Rb, b1, b2, b3, b4, cb, b5, b6, b7⟩ := applyCanon_ok hsvd heig h2 hW sW (by
    obtain ⟨s, hs, hne⟩ := nWV
    exact ⟨s, hs, by rw [w2 s hs]; exact mul_ne_zero c2n hne⟩)
  have ea : ∀ s, InB (List.replicate L d) s → siteAct d W.1 W.2 f s = c1⁻¹ * ca * psi a.data s := by
    intro s hs
    have := (w1 s hs).symm.trans (a7 s hs)
    rw [mul_assoc, ← this, inv_mul_cancel_left₀ c1n]
  have eb : ∀ s, InB (List.replicate L d) s → siteAct d W.1 W.2 (siteAct d V.1 V.2 f) s = c2⁻¹ * cb * psi b.data s := by
    intro s hs
    have := (w2 s hs).symm.trans (b7 s hs)
    rw [mul_assoc, ← this, inv_mul_cancel_left₀ c2n]
  have na : c1⁻¹ * ca ≠ 0 := mul_ne_zero (inv_ne_zero c1n) a5
  have nb : c2⁻¹ * cb ≠ 0 := mul_ne_zero (inv_ne_zero c2n) b5
  have ea' : ∀ s, InB (List.replicate L d) s → psi a.data s = (c1⁻¹ * ca)⁻¹ * siteAct d W.1 W.2 f s := by
    intro s hs
    rw [ea s hs, inv_mul_cancel_left₀ na]
  obtain ⟨x, -, x1, -⟩ := applyCanon_ok hsvd heig a2 hV sV (by
    obtain ⟨s, hs, hne⟩ := nVW
    exact ⟨s, hs, by rw [siteAct_smul (op := V.1) hV ea' hs]; exact mul_ne_zero (inv_ne_zero na) hne⟩)
  obtain ⟨z, r, z1, z2⟩ := apply_of_canon x1
  obtain ⟨q1, q11, q12, q13⟩ := scaleFirst_ok h1 Ra Ra
  obtain ⟨q2, q21, q22, q23⟩ := scaleFirst_ok h2 n20 Rb
  obtain ⟨Raa, o1, -, o2⟩ := FMPS.overlap_inner O a2 a2
  obtain ⟨Rbb, o3, -, o4⟩ := FMPS.overlap_inner O b2 b2
  obtain ⟨Rab, o5, -, o6⟩ := FMPS.overlap_inner O a2 b2
  have nRa : Ra.val [0, 0] ≠ 0 := by
    rw [← norm_ne_zero_iff, ← a6, norm_ne_zero_iff]; exact a5
  have nRb : Rb.val [0, 0] ≠ 0 := by
    rw [← norm_ne_zero_iff, ← b6, norm_ne_zero_iff]; exact b5
  refine ⟨q1, q2, Raa.val [] + Rbb.val [] - ((0.5 * (Rab.val []).re : ℝ) : ℂ), ?_, q12, q22, ⟨Ra.val [0, 0] * Ra.val [0, 0] * c1, mul_ne_zero (mul_ne_zero nRa nRa) c1n, ?_, fun s hs => ?_⟩,
    ⟨n20.val [0, 0] * Rb.val [0, 0] * c2, mul_ne_zero (mul_ne_zero hn20 nRb) c2n, fun s hs => ?_⟩, ?_⟩
  rotate_left
  · have hc : ‖c1‖ ≠ 0 := norm_ne_zero_iff.2 c1n
    rw [vecLen_smul ea a4, norm_mul, norm_mul, norm_mul, ← a6, norm_inv]
    field_simp
  · rw [q13 s hs, e1 s hs]; ring
  · rw [q23 s hs, e2 s hs]; ring
  rotate_left
  · unfold otocStep
    simp only [evolve2_zero, ok_bind, a1, b1, a3, b3, z1, z2, q11, q21, o1, o3, o5]
  · rw [o2, o4, o6, a4, b4]
    set A := c1⁻¹ * ca with hA
    set B := c2⁻¹ * cb with hB
    refine ⟨((‖B‖ * ‖A‖ : ℝ) : ℂ) / (star B * A), ?_, ?_⟩
    · rw [norm_div, norm_mul (star B), norm_star, Complex.norm_real, Real.norm_of_nonneg (by positivity), div_self]
      exact mul_ne_zero (norm_ne_zero_iff.2 nb) (norm_ne_zero_iff.2 na)
    · have hp : pairing (List.replicate L d) (siteAct d W.1 W.2 (siteAct d V.1 V.2 f)) (siteAct d W.1 W.2 f) =
          star B * (A * braket (List.replicate L d) b.data a.data) := by
        rw [pairing_congr (f' := fun s => B * psi b.data s) (g' := fun s => A * psi a.data s) eb ea, pairing_smul_left, pairing_smul]
        rfl
      have hval : ((‖B‖ * ‖A‖ : ℝ) : ℂ) / (star B * A) * (star B * (A * braket (List.replicate L d) b.data a.data) / (‖B‖ * ‖A‖ : ℂ)) =
          braket (List.replicate L d) b.data a.data := by
        have h1 : star B ≠ 0 := by simpa using nb
        have h3 : (‖A‖ : ℂ) ≠ 0 := by exact_mod_cast norm_ne_zero_iff.2 na
        have h4 : (‖B‖ : ℂ) ≠ 0 := by exact_mod_cast norm_ne_zero_iff.2 nb
        push_cast
        field_simp
      rw [hp, vecLen_smul eb b4, vecLen_smul ea a4, hval]
      push_cast
      ring

/-- the loop without any time step -/
theorem otocLoop_ok {n20 : ND ℂ} (hn20 : n20.val [0, 0] ≠ 0) : ∀ (steps : List ℤ), (∀ n ∈ steps, n = 0) → ∀ (p1 p2 : FMPS ℂ),
    p1.Holds (List.replicate L d) → p2.Holds (List.replicate L d) →
    ∀ c1 : ℂ, c1 ≠ 0 → (∀ s, InB (List.replicate L d) s → psi p1.data s = c1 * f s) →
    (∃ c : ℂ, c ≠ 0 ∧ ∀ s, InB (List.replicate L d) s → psi p2.data s = c * siteAct d V.1 V.2 f s) → ∀ acc : List ℂ,
    ∃ q1 q2 vs, steps.foldlM (otocStep svd eig O V W n20) (p1, p2, acc) = .ok (q1, q2, acc ++ vs) ∧ vs.length = steps.length ∧
      (∀ v ∈ vs, OtocEntry L d V W f v) ∧ q1.Holds (List.replicate L d) ∧
      ∃ c : ℂ, c ≠ 0 ∧ ‖c‖ = ‖c1‖ ^ 3 ^ steps.length * vecLen (List.replicate L d) (siteAct d W.1 W.2 f) ^ (3 ^ steps.length - 1) ∧
        ∀ s, InB (List.replicate L d) s → psi q1.data s = c * f s
  | [], _, p1, p2, h1, h2, c1, k0, k1, k2, acc => ⟨p1, p2, [], by simp [List.foldlM], rfl, by simp, h1, c1, k0, by simp, k1⟩
  | n :: steps, hz, p1, p2, h1, h2, c1, k0, k1, k2, acc => by
    obtain rfl : n = 0 := hz n (by simp)
    obtain ⟨q1, q2, v, e, g1, g2, ⟨c', j0, jn, j1⟩, j2, hv⟩ := otocStep_ok hsvd heig O hV hW sV sW nW nWV nVW hn20 h1 h2 k0 k1 k2 acc
    obtain ⟨r1, r2, vs, e', hl, hvs, g3, c'', g4, gn, g5⟩ :=
      otocLoop_ok hn20 steps (fun n hn => hz n (by simp [hn])) q1 q2 g1 g2 c' j0 j1 j2 (acc ++ [v])
    refine ⟨r1, r2, v :: vs, ?_, by simp [hl], ?_, g3, c'', g4, ?_, g5⟩
    rotate_left 2
    · have h3 : 1 ≤ 3 ^ steps.length := Nat.one_le_pow _ _ (by simp)
      rw [gn, jn, mul_pow, ← pow_mul, ← pow_mul, mul_assoc, ← pow_add, List.length_cons, pow_succ, mul_comm 3]
      congr 2
      omega
    · rw [List.foldlM_cons, e]
      simpa using e'
    · intro u hu
      rcases List.mem_cons.1 hu with rfl | hu
      · exact hv
      · exact hvs u hu

/-- **C114** when no interval is as long as a time step `mps_OTOC` returns, for every time, `2` minus half the real part of a phase times the overlap of
the normalised states `W|ψ⟩` and `WV|ψ⟩`; the state of the trajectory is left multiplied by a number of modulus `|W ψ|^(3^n - 1)` after `n` times. -/
theorem mpsOTOC_ok {x : FMPS ℂ} (hx : x.Holds (List.replicate L d)) (hf : f = psi x.data) {steps : List ℤ} (hz : ∀ n ∈ steps, n = 0) :
    ∃ vs y, mpsOTOC svd eig O true x V W steps = .ok (vs, y) ∧ vs.length = steps.length ∧ (∀ v ∈ vs, OtocEntry L d V W f v) ∧
      y.Holds (List.replicate L d) ∧ SameRay (List.replicate L d) y.data x.data ∧
      ∃ c : ℂ, ‖c‖ = vecLen (List.replicate L d) (siteAct d W.1 W.2 f) ^ (3 ^ steps.length - 1) ∧
        ∀ s, InB (List.replicate L d) s → psi y.data s = c * f s := by
  subst hf
  have nV : ∃ s, InB (List.replicate L d) s ∧ siteAct d V.1 V.2 (psi x.data) s ≠ 0 := by
    by_contra hcon
    push Not at hcon
    obtain ⟨s, hs, hne⟩ := nWV
    refine hne (sum_eq_zero fun p hp => ?_)
    rw [hcon _ (InB.set hs (by simp [List.getElem?_replicate, hW]) (mem_range.1 hp)), mul_zero]
  obtain ⟨y2, R, e1, h2, e2, -, c, hc, hcR, hv⟩ := applyCanon_ok hsvd heig hx hV sV nV
  have hR : R.val [0, 0] ≠ 0 := by
    rw [← norm_ne_zero_iff, ← hcR, norm_ne_zero_iff]; exact hc
  obtain ⟨q1, q2, vs, e3, hl, hvs, h3, c', h4, hn, h5⟩ := otocLoop_ok hsvd heig O hV hW sV sW nW nWV nVW hR steps hz x y2 hx h2 1 one_ne_zero (by simp)
    ⟨c⁻¹, inv_ne_zero hc, fun s hs => by rw [hv s hs, inv_mul_cancel_left₀ hc]⟩ []
  refine ⟨vs, q1, ?_, hl, hvs, h3, ⟨c', h4, h5⟩, c', by simpa using hn, h5⟩
  unfold mpsOTOC
  have e1 : applyCanon svd eig x V = .ok y2 := e1
  simp only [guardPy_true, ok_bind, e1, e2, e3, List.nil_append]

end

/-- Cauchy–Schwarz -/
theorem pairing_le (ds : List ℕ) (f g : List ℕ → ℂ) : ‖pairing ds f g‖ ≤ vecLen ds f * vecLen ds g := by
  have hre : ∀ f : List ℕ → ℂ, (pairing ds f f).re = sumIdx ds fun s => ‖f s‖ ^ 2 := by
    intro f
    have : pairing ds f f = ((sumIdx ds fun s => ‖f s‖ ^ 2 : ℝ) : ℂ) := by
      unfold pairing
      rw [sumIdx_ofReal]
      refine sumIdx_congr fun s _ => ?_
      rw [Complex.star_def, ← Complex.normSq_eq_conj_mul_self, Complex.normSq_eq_norm_sq]
    rw [this, Complex.ofReal_re]
  unfold vecLen
  rw [hre, hre, ← Real.sqrt_mul (sumIdx_nonneg (fun s => by positivity) _)]
  refine Real.le_sqrt_of_sq_le ?_
  unfold pairing
  rw [sumIdx_eq_range, sumIdx_eq_range, sumIdx_eq_range]
  refine (pow_le_pow_left₀ (norm_nonneg _) (norm_sum_le _ _) 2).trans ?_
  simp only [norm_mul, norm_star]
  exact sum_mul_sq_le_sq_mul_sq _ _ _

/-- **C114** every entry lies between `3/2` and `5/2`. -/
theorem otocEntry_range {L d : ℕ} {V W : ND ℂ × ℕ} {f : List ℕ → ℂ} {v : ℂ} (h : OtocEntry L d V W f v) : v.im = 0 ∧ 3 / 2 ≤ v.re ∧ v.re ≤ 5 / 2 := by
  obtain ⟨w, hw, rfl⟩ := h
  have hle := pairing_le (List.replicate L d) (siteAct d W.1 W.2 (siteAct d V.1 V.2 f)) (siteAct d W.1 W.2 f)
  set P := pairing (List.replicate L d) (siteAct d W.1 W.2 (siteAct d V.1 V.2 f)) (siteAct d W.1 W.2 f)
  set a := vecLen (List.replicate L d) (siteAct d W.1 W.2 (siteAct d V.1 V.2 f)) with ha
  set b := vecLen (List.replicate L d) (siteAct d W.1 W.2 f) with hb
  have ha0 : 0 ≤ a := Real.sqrt_nonneg _
  have hb0 : 0 ≤ b := Real.sqrt_nonneg _
  have hn : ‖w * (P / (a * b : ℂ))‖ ≤ 1 := by
    rw [norm_mul, hw, one_mul, norm_div, norm_mul, Complex.norm_real, Complex.norm_real, Real.norm_of_nonneg ha0, Real.norm_of_nonneg hb0]
    exact div_le_one_of_le₀ hle (mul_nonneg ha0 hb0)
  have := abs_le.1 ((Complex.abs_re_le_norm _).trans hn)
  refine ⟨Complex.ofReal_im _, ?_, ?_⟩ <;> rw [Complex.ofReal_re] <;> linarith [this.1, this.2]

/-- operators on different sites commute -/
theorem otocNow_zero {L d : ℕ} {V W : ND ℂ × ℕ} (hne : V.2 ≠ W.2) (f : List ℕ → ℂ) : otocNow L d V W f = 0 := by
  have hc : ∀ g : List ℕ → ℂ, commAct d V W g = fun _ => 0 := by
    intro g
    funext s
    unfold commAct siteAct
    rw [sub_eq_zero]
    simp only [mul_sum]
    rw [sum_comm]
    refine sum_congr rfl fun q _ => sum_congr rfl fun p _ => ?_
    have g1 : (s.set W.2 p).getD V.2 0 = s.getD V.2 0 := by simp [List.getD_eq_getElem?_getD, List.getElem?_set_ne hne.symm]
    have g2 : (s.set V.2 q).getD W.2 0 = s.getD W.2 0 := by simp [List.getD_eq_getElem?_getD, List.getElem?_set_ne hne]
    rw [g1, g2, List.set_comm _ _ hne]
    ring
  unfold otocNow
  rw [hc, pairing_zero]
  simp

theorem evolve2_pos {n : ℤ} (hn : 0 < n) (a b : FMPS ℂ) : evolve2 n a b = .error .nameError := by
  obtain ⟨k, hk⟩ : ∃ k, n.toNat = k + 1 := ⟨n.toNat - 1, by omega⟩
  unfold evolve2
  rw [if_neg (by omega), hk, List.range_succ_eq_map, List.foldlM_cons]
  rfl

/-- **C114** `mps_OTOC` returns only if no interval is as long as a time step. -/
theorem mpsOTOC_steps {svd : Svd} {eig : Eig} {O : SetOrder} {b : Bool} {x : FMPS ℂ} {V W : ND ℂ × ℕ} {steps : List ℤ} {r : List ℂ × FMPS ℂ}
    (h : mpsOTOC svd eig O b x V W steps = .ok r) : ∀ n ∈ steps, n = 0 := by
  have key : ∀ (n20 : ND ℂ) (steps : List ℤ) (s r : FMPS ℂ × FMPS ℂ × List ℂ), steps.foldlM (otocStep svd eig O V W n20) s = .ok r →
      ∀ n ∈ steps, n = 0 := by
    intro n20 steps
    induction steps with
    | nil => simp
    | cons n steps ih =>
      intro s r h
      rw [List.foldlM_cons] at h
      obtain ⟨s', e, h⟩ := bind_eq_ok h
      have hn : n = 0 := by
        obtain ⟨p, e', -⟩ := bind_eq_ok e
        rcases lt_trichotomy n 0 with h0 | h0 | h0
        · unfold evolve2 at e'
          rw [if_pos h0] at e'
          cases e'
        · exact h0
        · rw [evolve2_pos h0] at e'
          cases e'
      intro m hm
      rcases List.mem_cons.1 hm with rfl | hm
      · exact hn
      · exact ih s' r h m hm
  unfold mpsOTOC at h
  obtain ⟨_, -, h⟩ := bind_eq_ok h
  obtain ⟨_, -, h⟩ := bind_eq_ok h
  obtain ⟨n20, -, h⟩ := bind_eq_ok h
  obtain ⟨r', e, -⟩ := bind_eq_ok h
  exact key n20 steps _ r' e

/-- **C114** with a first interval of at least one time step it raises `NameError`. -/
theorem mpsOTOC_name {svd : Svd} {eig : Eig} (hsvd : SVDLaw svd) (heig : EigOrthoLaw eig) (O : SetOrder) {L d : ℕ} {x : FMPS ℂ}
    (hx : x.Holds (List.replicate L d)) {V : ND ℂ × ℕ} (W : ND ℂ × ℕ) (hV : V.2 < L) (sV : V.1.shape = [d, d])
    (nV : ∃ s, InB (List.replicate L d) s ∧ siteAct d V.1 V.2 (psi x.data) s ≠ 0) {n : ℤ} (hn : 0 < n) (steps : List ℤ) :
    mpsOTOC svd eig O true x V W (n :: steps) = .error .nameError := by
  obtain ⟨y2, R, e1, h2, e2, -⟩ := applyCanon_ok hsvd heig hx hV sV nV
  have e1 : applyCanon svd eig x V = .ok y2 := e1
  have e3 : otocStep svd eig O V W R (x, y2, []) n = .error .nameError := by
    unfold otocStep
    rw [evolve2_pos hn]
    rfl
  unfold mpsOTOC
  simp only [guardPy_true, ok_bind, e1, e2, List.foldlM_cons, e3, err_bind]

/-- **C114** for operators on different sites, which commute, every entry is at least `3/2` while the correlator is `0`. -/
theorem mpsOTOC_wrong {svd : Svd} {eig : Eig} (hsvd : SVDLaw svd) (heig : EigOrthoLaw eig) (O : SetOrder) {L d : ℕ} {x : FMPS ℂ} {V W : ND ℂ × ℕ}
    (hx : x.Holds (List.replicate L d)) (hV : V.2 < L) (hW : W.2 < L) (hne : V.2 ≠ W.2) (sV : V.1.shape = [d, d]) (sW : W.1.shape = [d, d])
    (nW : ∃ s, InB (List.replicate L d) s ∧ siteAct d W.1 W.2 (psi x.data) s ≠ 0)
    (nWV : ∃ s, InB (List.replicate L d) s ∧ siteAct d W.1 W.2 (siteAct d V.1 V.2 (psi x.data)) s ≠ 0)
    (nVW : ∃ s, InB (List.replicate L d) s ∧ siteAct d V.1 V.2 (siteAct d W.1 W.2 (psi x.data)) s ≠ 0) :
    ∃ v y, mpsOTOC svd eig O true x V W [0] = .ok ([v], y) ∧ 3 / 2 ≤ v.re ∧ otocNow L d V W (psi x.data) = 0 := by
  obtain ⟨vs, y, e, hl, hvs, -⟩ := mpsOTOC_ok hsvd heig O hV hW sV sW nW nWV nVW hx rfl (steps := [0]) (by simp)
  match vs, hl with
  | [v], _ => exact ⟨v, y, e, (otocEntry_range (hvs v (by simp))).2.1, otocNow_zero hne _⟩

/-- the Pauli matrix `X` -/
def flipX : ND ℂ := ⟨[2, 2], fun
  | [i, j] => if i = j then 0 else 1
  | _ => 0⟩

/-- the hypotheses: `X` on either site of `|00⟩` -/
example {svd : Svd} {eig : Eig} (hsvd : SVDLaw svd) (heig : EigOrthoLaw eig) (O : SetOrder) :
    ∃ v y, mpsOTOC svd eig O true exZZ (flipX, 0) (flipX, 1) [0] = .ok ([v], y) ∧ 3 / 2 ≤ v.re ∧
      otocNow 2 2 (flipX, 0) (flipX, 1) (psi exZZ.data) = 0 := by
  have hpsi : ∀ s t, psi exZZ.data [s, t] = if s = 0 ∧ t = 0 then 1 else 0 := by
    intro s t
    by_cases hs : s = 0 <;> by_cases ht : t = 0 <;> simp [psi, exZZ, ND.dim, pathProd, sumIdx, hs, ht]
  refine mpsOTOC_wrong hsvd heig O exZZ_holds (by simp) (by simp) (by simp) rfl rfl ⟨[0, 1], by simp [InB, List.replicate_succ], ?_⟩
    ⟨[1, 1], by simp [InB, List.replicate_succ], ?_⟩ ⟨[1, 1], by simp [InB, List.replicate_succ], ?_⟩ <;>
  simp [siteAct, sum_range_succ, hpsi, flipX]

end Tdvp

end Xmps
