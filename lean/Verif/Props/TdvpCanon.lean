import Verif.Props.Tdvp
import Verif.Props.Isometry

/-!
# `dA_dt` after a canonicalisation; best approximation (C64)
-/

namespace Xmps

open Finset Spec Xmps.Ncon

/-- `‖f - g‖²` -/
noncomputable def Spec.distSq (ds : List ℕ) (f g : List ℕ → ℂ) : ℝ := (pairing ds (fun s => f s - g s) (fun s => f s - g s)).re

theorem pairing_sub (ds : List ℕ) (f g h : List ℕ → ℂ) : pairing ds f (fun s => g s - h s) = pairing ds f g - pairing ds f h := by
  have : pairing ds f (fun s => g s - h s) + pairing ds f h = pairing ds f g := by
    unfold pairing
    rw [← sumIdx_add]
    exact sumIdx_congr fun s _ => by ring
  rw [← this]
  ring

theorem pairing_sub_left (ds : List ℕ) (f g h : List ℕ → ℂ) : pairing ds (fun s => g s - h s) f = pairing ds g f - pairing ds h f := by
  rw [← pairing_star, pairing_sub, star_sub, pairing_star, pairing_star]

theorem pairing_self_nonneg (ds : List ℕ) (f : List ℕ → ℂ) : 0 ≤ (pairing ds f f).re := by
  have : pairing ds f f = ((sumIdx ds fun s => ‖f s‖ ^ 2 : ℝ) : ℂ) := by
    rw [sumIdx_ofReal]
    exact sumIdx_congr fun s _ => by rw [star_mul_norm]
  rw [this, Complex.ofReal_re]
  exact sumIdx_nonneg (fun s => by positivity) ds

/-- a vector `b` with `b - v` orthogonal to `f` and `b` is closer to `v` than `f` -/
theorem distSq_le {ds : List ℕ} {f b v : List ℕ → ℂ} (h1 : pairing ds f b = pairing ds f v) (h2 : pairing ds b b = pairing ds b v) :
    distSq ds b v ≤ distSq ds f v := by
  have h := pairing_self_nonneg ds (fun s => f s - b s)
  unfold distSq
  have e : ∀ f v, pairing ds (fun s => f s - v s) (fun s => f s - v s) = pairing ds f f - pairing ds f v - pairing ds v f + pairing ds v v := by
    intro f v
    rw [pairing_sub, pairing_sub_left, pairing_sub_left]
    ring
  have h3 : pairing ds b f = pairing ds v f := by rw [← pairing_star, h1, pairing_star]
  have h4 : pairing ds b b = pairing ds v b := by rw [← pairing_star ds b b, h2, pairing_star]
  rw [e] at h
  rw [e, e]
  have h5 : (pairing ds f f - pairing ds f v - pairing ds v f + pairing ds v v).re =
      (pairing ds f f - pairing ds f b - pairing ds b f + pairing ds b b).re + (pairing ds b b - pairing ds b v - pairing ds v b + pairing ds v v).re := by
    rw [← Complex.add_re]
    congr 1
    rw [h1, h3, ← h2, ← h4]
    ring
  rw [h5]
  linarith

section
variable {chol inv null : ND ℂ → Py (ND ℂ)} (hchol : CholTriLaw chol) (hinv : InvLaw inv) (hnull : NullLaw null) (O : SetOrder)
include hchol hinv hnull

/-- **C64** among all tangent vectors in the left gauge the one of `dA_dt(H)` is the closest to `-i H ψ`. -/
theorem FMPS.dAdt_best {x : FMPS ℂ} {L d : ℕ} (hd : 0 < d) (hx : x.Holds (List.replicate L d)) (hf : FullEnvs (List.replicate L d) x.data)
    {H : List (ND ℂ)} (hL : H.length < L) (hH : ∀ h ∈ H, h.shape = [d * d, d * d]) {y : FMPS ℂ} (e : FMPS.dAdt chol inv null O x H = .ok y)
    {Ws : List (ND ℂ)} (hWl : Ws.length = x.data.length)
    (hW : ∀ i (hi : i < x.data.length) (hi' : i < Ws.length), ∀ p q, x.data[i].shape = [d, p, q] → Ws[i].shape = [d, p, q] ∧
      LeftGauge d p q (leftEnv ((List.replicate L d).take i) (x.data.take i)) x.data[i] Ws[i]) :
    distSq (List.replicate L d) (tangentPsi x.data y.data) (fun s => -Complex.I * hamAct d H (psi x.data) s) ≤
      distSq (List.replicate L d) (tangentPsi x.data Ws) (fun s => -Complex.I * hamAct d H (psi x.data) s) := by
  obtain ⟨y', e', hy, hg⟩ := FMPS.dAdt_gauge hchol hinv hnull O hd hx hf hL hH
  rw [e] at e'
  injection e' with e'
  subst e'
  exact distSq_le (FMPS.dAdt_project hchol hinv hnull O hd hx hf hL hH e hWl hW)
    (FMPS.dAdt_project hchol hinv hnull O hd hx hf hL hH e (by rw [hy.chain.length_eq, hx.chain.length_eq]) hg)

end

/-- after `left_canonicalise()` the environments are diagonal with positive entries -/
theorem FMPS.fullEnvs_leftCanonicalise {svd : Svd} {eig : Eig} (hsvd : SVDLaw svd) (heig : EigOrthoLaw eig) {x : FMPS ℂ} {ds : List ℕ}
    (hx : x.Holds ds) (hu : ∀ t ∈ ds, t = x.d) (hp : PosDims x.data) (D : Option ℕ) (hD : ∀ D0, D = some D0 → 0 < D0)
    (hnz : D = none → ∃ s, InB ds s ∧ psi x.data s ≠ 0) :
    ∃ y Ls, x.leftCanonicalise svd eig D = .ok (y, some Ls) ∧ y.Holds ds ∧ FullEnvs ds y.data := by
  obtain ⟨y, Ls, R, z, e, hy, -, hi, -, -, -, -, -, -, -, -, hm, -⟩ := FMPS.leftCanonicalise_spec hsvd heig hx hu hp D hD hnz
  have hlen := hy.chain.length_eq
  refine ⟨y, Ls, e, hy, ?_⟩
  intro m hm' p hp'
  obtain ⟨-, lam, -, -, hs, h1, h2⟩ := hm m hm'
  have hleft : ∀ a < p, ∀ b < p, leftEnv (ds.take m) (y.data.take m) a b = if a = b then (((fun _ => 1 : ℕ → ℝ) a : ℝ) : ℂ) else 0 := by
    intro a ha b hb
    rw [leftEnv_iso hp' (fun A hA => hi A (List.mem_of_mem_take hA)) a ha b hb]
    simp
  rcases Nat.lt_or_ge m ds.length with hlt | hge
  · have hpl : p = lam.length := by
      rw [← h1 _ (pyGet_ok (by omega))]
      obtain ⟨q, c1, c2⟩ := chain_cut hy.chain m
      obtain rfl := chain_bond_unique c1 hp'
      rw [List.drop_eq_getElem_cons hlt, List.drop_eq_getElem_cons (show m < y.data.length by omega)] at c2
      obtain ⟨r, c3, -⟩ := c2
      rw [dim1 c3]
    subst hpl
    refine ⟨fun _ => 1, fun a => lam.getD a 0, fun a ha => ⟨one_pos, ?_⟩, fun a ha b hb => ⟨hleft a ha b hb, h2 a ha b hb⟩⟩
    show 0 < lam.getD a 0
    rw [List.getD_eq_getElem _ _ ha]
    exact hs.1 _ (List.getElem_mem ha)
  · obtain rfl : m = ds.length := by omega
    rw [List.take_of_length_le (by omega), List.take_of_length_le (by omega)] at hp'
    obtain rfl := chain_bond_unique hy.chain hp'
    refine ⟨fun _ => 1, fun _ => 1, fun a ha => ⟨one_pos, one_pos⟩, fun a ha b hb => ⟨hleft a ha b hb, ?_⟩⟩
    obtain rfl : a = 0 := by omega
    obtain rfl : b = 0 := by omega
    rw [List.drop_length, ← hlen, List.drop_length]
    simp [rightEnv_nil]

/-- **C64** `x.left_canonicalise()` followed by `dA_dt(H)`, for any state that is not zero: both succeed, every tensor of the result is in the left
gauge, neither the norm nor the energy changes to first order, and among all tangent vectors in the left gauge the result is the closest to `-i H ψ`. -/
theorem FMPS.dAdt_leftCanonicalise {svd : Svd} {eig : Eig} (hsvd : SVDLaw svd) (heig : EigOrthoLaw eig) {chol inv null : ND ℂ → Py (ND ℂ)}
    (hchol : CholTriLaw chol) (hinv : InvLaw inv) (hnull : NullLaw null) (O : SetOrder) {x : FMPS ℂ} {d L : ℕ} (hd : 0 < d)
    (hx : x.Holds (List.replicate L d)) (hp : PosDims x.data) (hnz : ∃ s, InB (List.replicate L d) s ∧ psi x.data s ≠ 0)
    {H : List (ND ℂ)} (hL : H.length < L) (hH : ∀ h ∈ H, h.shape = [d * d, d * d]) :
    ∃ y Ls z, x.leftCanonicalise svd eig none = .ok (y, some Ls) ∧ FMPS.dAdt chol inv null O y H = .ok z ∧ z.Holds (List.replicate L d) ∧
      (∀ i (hi : i < y.data.length) (hi' : i < z.data.length), ∀ p q, y.data[i].shape = [d, p, q] → z.data[i].shape = [d, p, q] ∧
        LeftGauge d p q (leftEnv ((List.replicate L d).take i) (y.data.take i)) y.data[i] z.data[i]) ∧
      pairing (List.replicate L d) (psi y.data) (tangentPsi y.data z.data) = 0 ∧
      (pairing (List.replicate L d) (tangentPsi y.data z.data) (hamAct d H (psi y.data))).re = 0 ∧
      ∀ Ws : List (ND ℂ), Ws.length = y.data.length →
        (∀ i (hi : i < y.data.length) (hi' : i < Ws.length), ∀ p q, y.data[i].shape = [d, p, q] → Ws[i].shape = [d, p, q] ∧
          LeftGauge d p q (leftEnv ((List.replicate L d).take i) (y.data.take i)) y.data[i] Ws[i]) →
        distSq (List.replicate L d) (tangentPsi y.data z.data) (fun s => -Complex.I * hamAct d H (psi y.data) s) ≤
          distSq (List.replicate L d) (tangentPsi y.data Ws) (fun s => -Complex.I * hamAct d H (psi y.data) s) := by
  obtain ⟨y, Ls, e, hy, hf⟩ := FMPS.fullEnvs_leftCanonicalise hsvd heig hx (by intro t ht; rw [hx.d]; exact replicate_headI ht) hp none (by simp)
    (fun _ => hnz)
  obtain ⟨z, e', hz, hg⟩ := FMPS.dAdt_gauge hchol hinv hnull O hd hy hf hL hH
  exact ⟨y, Ls, z, e, e', hz, hg, FMPS.dAdt_norm hchol hinv hnull O hd hy hf hL hH e', FMPS.dAdt_energy hchol hinv hnull O hd hy hf hL hH e',
    fun Ws h1 h2 => FMPS.dAdt_best hchol hinv hnull O hd hy hf hL hH e' h1 h2⟩

/-! ### the hypotheses can be met -/

/-- `|00⟩ + |11⟩` -/
def exBellState : FMPS ℂ := ⟨[⟨[2, 1, 2], fun
  | [s, _, c] => if s = c then 1 else 0
  | _ => 0⟩, ⟨[2, 2, 1], fun
  | [s, a, _] => if s = a then 1 else 0
  | _ => 0⟩], 2, 2, 2, false, false, none, none⟩

theorem exBellState_holds : exBellState.Holds (List.replicate 2 2) := ⟨⟨2, rfl, 1, rfl, rfl⟩, by simp, rfl, rfl⟩

theorem exBellState_full : FullEnvs (List.replicate 2 2) exBellState.data := by
  intro k hk p hp
  match k, hk with
  | 0, _ =>
    obtain rfl := chain_bond_unique hp rfl
    refine ⟨fun _ => 1, fun _ => 2, by simp, ?_⟩
    intro a ha b hb
    obtain rfl : a = 0 := by omega
    obtain rfl : b = 0 := by omega
    simp [leftEnv, rightEnv, exBellState, amp, ND.dim, Finset.sum_range_succ]
    norm_num
  | 1, _ =>
    obtain rfl := chain_bond_unique hp ⟨2, rfl, rfl⟩
    refine ⟨fun _ => 1, fun _ => 1, by simp, ?_⟩
    intro a ha b hb
    interval_cases a <;> interval_cases b <;> simp [leftEnv, rightEnv, exBellState, amp, ND.dim, Finset.sum_range_succ]
  | 2, _ =>
    obtain rfl := chain_bond_unique hp ⟨2, rfl, 1, rfl, rfl⟩
    refine ⟨fun _ => 2, fun _ => 1, by simp, ?_⟩
    intro a ha b hb
    obtain rfl : a = 0 := by omega
    obtain rfl : b = 0 := by omega
    simp [leftEnv, rightEnv, exBellState, amp, ND.dim, Finset.sum_range_succ]
    norm_num

example {chol inv null : ND ℂ → Py (ND ℂ)} (hchol : CholTriLaw chol) (hinv : InvLaw inv) (hnull : NullLaw null) (O : SetOrder) :=
  FMPS.dAdt_gauge hchol hinv hnull O (d := 2) (L := 2) (by omega) exBellState_holds exBellState_full (H := [eyeND 4]) (by simp) (by simp [eyeND])

/-- the laws can be met together and `W = 0` and the result itself are in the left gauge -/
example (O : SetOrder) : ∃ chol inv null, CholTriLaw chol ∧ InvLaw inv ∧ NullLaw null ∧
    ∃ y, FMPS.dAdt chol inv null O exBellState [eyeND 4] = .ok y ∧
      pairing (List.replicate 2 2) (tangentPsi exBellState.data y.data) (tangentPsi exBellState.data y.data) =
        pairing (List.replicate 2 2) (tangentPsi exBellState.data y.data) (fun s => -Complex.I * hamAct 2 [eyeND 4] (psi exBellState.data) s) := by
  obtain ⟨chol, hchol⟩ := cholTriLaw_exists
  obtain ⟨inv, hinv⟩ := invLaw_exists
  obtain ⟨null, hnull⟩ := nullLaw_exists
  refine ⟨chol, inv, null, hchol, hinv, hnull, ?_⟩
  obtain ⟨y, e, hy, hg⟩ := FMPS.dAdt_gauge hchol hinv hnull O (d := 2) (L := 2) (by omega) exBellState_holds exBellState_full (H := [eyeND 4])
    (by simp) (by simp [eyeND])
  exact ⟨y, e, FMPS.dAdt_project hchol hinv hnull O (by omega) exBellState_holds exBellState_full (by simp) (by simp [eyeND]) e
    (by rw [hy.chain.length_eq]; rfl) hg⟩

example {svd : Svd} {eig : Eig} (hsvd : SVDLaw svd) (heig : EigOrthoLaw eig) {chol inv null : ND ℂ → Py (ND ℂ)}
    (hchol : CholTriLaw chol) (hinv : InvLaw inv) (hnull : NullLaw null) (O : SetOrder) :=
  FMPS.dAdt_leftCanonicalise hsvd heig hchol hinv hnull O (d := 2) (by omega) (exTwo_holds 2) (exTwo_pos 2) exTwo_nonzero (H := [eyeND 4]) (by simp)
    (by simp [eyeND])

end Xmps
