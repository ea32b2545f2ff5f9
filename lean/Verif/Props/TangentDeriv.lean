import Verif.Props.TdvpExact
import Verif.Props.Rk4
import Verif.Lemmas.F1Value
import Mathlib.Analysis.Calculus.Deriv.Star
import Mathlib.Analysis.Calculus.Deriv.Mul
import Mathlib.Analysis.Calculus.Deriv.Inv
import Mathlib.Analysis.Calculus.Deriv.Add
import Mathlib.Analysis.Complex.RealDeriv

/-!
# What one small step `A + c dt B` does to state, norm and energy (C64, C119)

`tangentPsi` is the derivative of the state along `A + t B`.
-/

namespace Xmps

open Spec Finset Xmps.Ncon

/-! ### the derivative of an amplitude -/

/-- the tensors `A + c B` -/
def lineData (c : ℂ) : List (ND ℂ) → List (ND ℂ) → List (ND ℂ)
  | A :: As, B :: Bs => ⟨A.shape, fun i => A.val i + c * B.val i⟩ :: lineData c As Bs
  | _, _ => []

/-- the derivative of `amp` in the direction of `Bs` -/
def tamp : List (ND ℂ) → List (ND ℂ) → List ℕ → ℕ → ℕ → ℂ
  | A :: As, B :: Bs, s :: ss, a, b =>
    ∑ c ∈ range (A.dim 2), (B.val [s, a, c] * amp As ss c b + A.val [s, a, c] * tamp As Bs ss c b)
  | _, _, _, _, _ => 0

theorem lineData_zero : ∀ {As Bs : List (ND ℂ)}, As.length = Bs.length → lineData 0 As Bs = As
  | [], [], _ => rfl
  | A :: As, B :: Bs, h => by
    simp only [lineData, zero_mul, add_zero]
    rw [lineData_zero (by simpa using h)]

theorem lineData_shape {c : ℂ} : ∀ {As Bs : List (ND ℂ)}, As.length = Bs.length → (lineData c As Bs).map ND.shape = As.map ND.shape
  | [], [], _ => rfl
  | A :: As, B :: Bs, h => by
    simp only [lineData, List.map_cons]
    rw [lineData_shape (by simpa using h)]

theorem amp_line_deriv (c : ℂ) : ∀ {As Bs : List (ND ℂ)} {s : List ℕ}, As.length = Bs.length → s.length = As.length → ∀ a b,
    HasDerivAt (fun t : ℝ => amp (lineData (c * t) As Bs) s a b) (c * tamp As Bs s a b) 0
  | [], [], [], _, _, a, b => by
    simp only [lineData, tamp, mul_zero]
    exact hasDerivAt_const _ _
  | A :: As, B :: Bs, s :: ss, h, hs, a, b => by
    have hl : As.length = Bs.length := by simpa using h
    simp only [lineData, tamp, amp_cons, Finset.mul_sum]
    have hd : ∀ t : ℝ, (⟨A.shape, fun i => A.val i + c * t * B.val i⟩ : ND ℂ).dim 2 = A.dim 2 := fun _ => rfl
    simp only [hd]
    apply HasDerivAt.fun_sum
    intro k _
    have h1 : HasDerivAt (fun t : ℝ => A.val [s, a, k] + c * (t : ℂ) * B.val [s, a, k]) (c * B.val [s, a, k]) 0 := by
      have := ((Complex.ofRealCLM.hasDerivAt (x := (0 : ℝ))).const_mul c).mul_const (B.val [s, a, k])
      simpa using this.const_add (A.val [s, a, k])
    have h2 := amp_line_deriv c hl (by simpa using hs : ss.length = As.length) k b
    have := h1.fun_mul h2
    simp only [Complex.ofReal_zero, mul_zero, zero_mul, add_zero, lineData_zero hl] at this
    refine this.congr_deriv ?_
    ring

theorem tamp_eq : ∀ {As Bs : List (ND ℂ)} {s : List ℕ}, As.map ND.shape = Bs.map ND.shape → s.length = As.length → ∀ a b,
    ∑ i ∈ range As.length, amp (swapIn As i (Bs.getD i ⟨[], fun _ => 0⟩)) s a b = tamp As Bs s a b
  | [], [], [], _, _, a, b => by simp [tamp]
  | A :: As, B :: Bs, s :: ss, h, hs, a, b => by
    simp only [List.map_cons, List.cons.injEq] at h
    rw [List.length_cons, Finset.sum_range_succ']
    simp only [swapIn, List.getD_cons_succ, List.getD_cons_zero, List.set_cons_succ, List.set_cons_zero, amp_cons, tamp]
    rw [Finset.sum_comm, show B.dim 2 = A.dim 2 by simp [ND.dim, h.1], ← Finset.sum_add_distrib]
    refine Finset.sum_congr rfl fun c _ => ?_
    rw [← Finset.mul_sum]
    have := tamp_eq h.2 (by simpa using hs : ss.length = As.length) c b
    simp only [swapIn] at this
    rw [this]
    ring
  | [], _ :: _, _, h, _, _, _ => by simp at h
  | _ :: _, [], _, h, _, _, _ => by simp at h

/-- the state along `A + t c B` has the derivative `c` times the tangent vector -/
theorem psi_line_deriv (c : ℂ) {ds : List ℕ} {As Bs : List (ND ℂ)} (hc : MpsChain ds As 1 1) (hne : As ≠ [])
    (hsh : As.map ND.shape = Bs.map ND.shape) {s : List ℕ} (hs : s.length = ds.length) :
    HasDerivAt (fun t : ℝ => psi (lineData (c * t) As Bs) s) (c * tangentPsi As Bs s) 0 := by
  have hl : As.length = Bs.length := by simpa using congrArg List.length hsh
  have hla := hc.length_eq
  have e1 : (fun t : ℝ => psi (lineData (c * t) As Bs) s) = fun t : ℝ => amp (lineData (c * t) As Bs) s 0 0 := by
    funext t
    have hc' : MpsChain ds (lineData (c * t) As Bs) 1 1 := Tdvp.chain_shapes hc (lineData_shape hl)
    refine psi_eq_amp hc' ?_ hs
    intro h0
    have := congrArg List.length (lineData_shape (c := c * t) hl)
    rw [h0] at this
    simp only [List.map_nil, List.length_nil, List.length_map] at this
    exact hne (List.length_eq_zero_iff.1 this.symm)
  have e2 : tangentPsi As Bs s = tamp As Bs s 0 0 := by
    rw [← tamp_eq hsh (by omega)]
    refine Finset.sum_congr rfl fun i hi => ?_
    have hi := Finset.mem_range.1 hi
    rw [List.getD_eq_getElem _ _ (by omega : i < Bs.length), swapIn]
    refine psi_eq_amp (chain_set hi hc ?_) (by simpa using hne) hs
    have := congrArg (·[i]?) hsh
    simp only [List.getElem?_map, List.getElem?_eq_getElem hi, List.getElem?_eq_getElem (show i < Bs.length by omega), Option.map_some,
      Option.some.injEq] at this
    exact this.symm
  rw [e1, e2]
  exact amp_line_deriv c hl (by omega) 0 0

/-! ### the step of the code -/

theorem arrays_line (c : ℂ) {As Bs : List (ND ℂ)} (hsh : As.map ND.shape = Bs.map ND.shape) :
    Tdvp.arrays (As.map ND.shape) (Tdvp.vals As + c • Tdvp.vals Bs) = lineData c As Bs := by
  have hl : As.length = Bs.length := by simpa using congrArg List.length hsh
  have hg : ∀ {As Bs : List (ND ℂ)}, As.length = Bs.length → ∀ i (h1 : i < (lineData c As Bs).length) (h2 : i < As.length) (h3 : i < Bs.length),
      (lineData c As Bs)[i] = ⟨As[i].shape, fun j => As[i].val j + c * Bs[i].val j⟩ := by
    intro As
    induction As with
    | nil => intro Bs _ i _ h2; simp at h2
    | cons A As ih =>
      intro Bs hl i h1 h2 h3
      cases Bs with
      | nil => simp at h3
      | cons B Bs =>
        cases i with
        | zero => rfl
        | succ i =>
          simp only [lineData, List.getElem_cons_succ]
          exact ih (by simpa using hl) i _ _ _
  have hlen : (lineData c As Bs).length = As.length := by
    simpa using congrArg List.length (lineData_shape (c := c) hl)
  apply List.ext_getElem
  · simp [Tdvp.arrays, hlen]
  · intro i h1 h2
    rw [hg hl i h2 (by omega) (by omega)]
    have ha : i < As.length := by omega
    have hb : i < Bs.length := by omega
    simp [Tdvp.arrays, Tdvp.vals, ha, hb]
    rfl

/-- `x + c*y` for two objects with the same shapes: it succeeds, and the tensors are `A + c B`. -/
theorem FMPS.step_line {x y : FMPS ℂ} {ds : List ℕ} (hx : x.Holds ds) (hy : y.Holds ds) (hsh : x.data.map ND.shape = y.data.map ND.shape) (c : ℂ) :
    ∃ w z, y.mulItem c = .ok w ∧ x.addItem w = .ok z ∧ z.Holds ds ∧ z.data = lineData c x.data y.data := by
  have h1 : Tdvp.Has ds (x.data.map ND.shape) x (Tdvp.vals x.data) := ⟨hx, (Tdvp.arrays_vals _).symm⟩
  have h2 : Tdvp.Has ds (x.data.map ND.shape) y (Tdvp.vals y.data) := ⟨hy, by rw [hsh]; exact (Tdvp.arrays_vals _).symm⟩
  obtain ⟨w, e1, hw⟩ := Tdvp.mulItem_has h2 c
  obtain ⟨z, e2, hz⟩ := Tdvp.addItem_has h1 hw
  exact ⟨w, z, e1, e2, hz.holds, by rw [hz.data, arrays_line c hsh]⟩

/-! ### norm and energy along the line -/

theorem sumIdx_deriv {F : List ℕ → ℝ → ℂ} {F' : List ℕ → ℂ} : ∀ {ds : List ℕ}, (∀ s, InB ds s → HasDerivAt (F s) (F' s) 0) →
    HasDerivAt (fun t => sumIdx ds fun s => F s t) (sumIdx ds F') 0 := by
  intro ds
  induction ds generalizing F F' with
  | nil => intro h; simpa using h [] (by simp)
  | cons d ds ih =>
    intro h
    simp only [sumIdx_cons]
    apply HasDerivAt.fun_sum
    intro k hk
    exact ih (F := fun s => F (k :: s)) (F' := fun s => F' (k :: s)) fun s hs => h _ (by simpa using ⟨Finset.mem_range.1 hk, hs⟩)

/-- `⟨f|g⟩` along two paths of vectors -/
theorem pairing_deriv {ds : List ℕ} {f g : ℝ → List ℕ → ℂ} {f' g' : List ℕ → ℂ} (hf : ∀ s, InB ds s → HasDerivAt (fun t => f t s) (f' s) 0)
    (hg : ∀ s, InB ds s → HasDerivAt (fun t => g t s) (g' s) 0) :
    HasDerivAt (fun t => pairing ds (f t) (g t)) (pairing ds f' (g 0) + pairing ds (f 0) g') 0 := by
  unfold pairing
  rw [← sumIdx_add]
  exact sumIdx_deriv (F := fun s t => star (f t s) * g t s) fun s hs => (hf s hs).star.mul (hg s hs)

theorem hamAct_deriv {L d : ℕ} {H : List (ND ℂ)} (hL : H.length < L) {f : ℝ → List ℕ → ℂ} {f' : List ℕ → ℂ}
    (hf : ∀ s, InB (List.replicate L d) s → HasDerivAt (fun t => f t s) (f' s) 0) :
    ∀ s, InB (List.replicate L d) s → HasDerivAt (fun t => hamAct d H (f t) s) (hamAct d H f' s) 0 := by
  intro s hs
  unfold hamAct gateAct
  apply HasDerivAt.fun_sum
  intro m hm
  have hm := Finset.mem_range.1 hm
  apply HasDerivAt.fun_sum
  intro p hp
  apply HasDerivAt.fun_sum
  intro q hq
  refine HasDerivAt.const_mul _ (hf _ ?_)
  refine InB.set (InB.set hs (d := d) ?_ (Finset.mem_range.1 hp)) (d := d) ?_ (Finset.mem_range.1 hq)
  · rw [List.getElem?_replicate, if_pos (by omega)]
  · rw [List.getElem?_replicate, if_pos (by omega)]

/-- one term of the energy as an inner product -/
theorem opExpect_gate {L d m : ℕ} (hm : m + 1 < L) (As : List (ND ℂ)) (h : ND ℂ) :
    opExpect (List.replicate L d) As m 2 (matElem [d, d] h) = pairing (List.replicate L d) (psi As) (gateAct d h m (m + 1) (psi As)) := by
  unfold opExpect pairing gateAct
  refine sumIdx_congr fun s hs => ?_
  have hl := hs.length_eq
  rw [List.length_replicate] at hl
  have e1 : ((List.replicate L d).drop m).take 2 = [d, d] := by
    rw [List.drop_replicate, List.take_replicate, show min 2 (L - m) = 2 by omega]
    rfl
  have e2 : (s.drop m).take 2 = [s.getD m 0, s.getD (m + 1) 0] := by
    rw [List.drop_eq_getElem_cons (by omega), List.drop_eq_getElem_cons (by omega : m + 1 < s.length),
      List.getD_eq_getElem _ _ (by omega : m < s.length), List.getD_eq_getElem _ _ (by omega : m + 1 < s.length)]
    rfl
  rw [e1, e2]
  simp only [sumIdx_cons, sumIdx_nil, Finset.mul_sum]
  refine Finset.sum_congr rfl fun p _ => Finset.sum_congr rfl fun q _ => ?_
  have e3 : s.take m ++ ([p, q] ++ s.drop (m + 2)) = (s.set m p).set (m + 1) q := by
    have hc : s = s.take m ++ s[m] :: s[m + 1] :: s.drop (m + 2) := by
      conv_lhs => rw [← List.take_append_drop m s, List.drop_eq_getElem_cons (by omega), List.drop_eq_getElem_cons (by omega : m + 1 < s.length)]
    have hst : ∀ (a b : List ℕ) (x y : ℕ), a.length = m → ((a ++ x :: y :: b).set m p).set (m + 1) q = a ++ ([p, q] ++ b) := by
      intro a b x y ha
      rw [List.set_append, if_neg (by omega), List.set_append, if_neg (by omega), ha]
      simp
    have := hst _ (s.drop (m + 2)) s[m] s[m + 1] (by rw [List.length_take]; omega : (s.take m).length = m)
    rw [← hc] at this
    exact this.symm
  rw [e3]
  simp [matElem, ravel]

theorem energyPerSite_eq {L d : ℕ} {H : List (ND ℂ)} (hL : H.length < L) (As : List (ND ℂ)) :
    energyPerSite (List.replicate L d) As d H =
      (pairing (List.replicate L d) (psi As) (hamAct d H (psi As))).re / (pairing (List.replicate L d) (psi As) (psi As)).re / L := by
  have him : (pairing (List.replicate L d) (psi As) (psi As)).im = 0 := Complex.conj_eq_iff_im.1 (pairing_star _ _ _)
  have hre : pairing (List.replicate L d) (psi As) (psi As) = (((pairing (List.replicate L d) (psi As) (psi As)).re : ℝ) : ℂ) :=
    Complex.ext (by simp) (by simp [him])
  unfold energyPerSite
  rw [List.length_replicate]
  congr 1
  have hb : braket (List.replicate L d) As As = pairing (List.replicate L d) (psi As) (psi As) := rfl
  have hh : pairing (List.replicate L d) (psi As) (hamAct d H (psi As)) =
      ∑ m ∈ range H.length, pairing (List.replicate L d) (psi As) (gateAct d (H.getD m ⟨[], fun _ => 0⟩) m (m + 1) (psi As)) := by
    unfold hamAct
    rw [pairing_sum]
  rw [hb, hre, hh, Complex.re_sum, Finset.sum_div, Complex.ofReal_re]
  refine Finset.sum_congr rfl fun m hm => ?_
  have hm := Finset.mem_range.1 hm
  rw [opExpect_gate (by omega), List.getD_eq_getElem _ _ hm, List.getD_eq_getElem _ _ hm, Complex.div_ofReal_re]

/-! ### the step keeps the overlap with the state -/

theorem lineData_getElem {c : ℂ} : ∀ {As Bs : List (ND ℂ)} (i : ℕ) (h1 : i < (lineData c As Bs).length) (h2 : i < As.length) (h3 : i < Bs.length),
    (lineData c As Bs)[i] = ⟨As[i].shape, fun j => As[i].val j + c * Bs[i].val j⟩
  | A :: As, B :: Bs, 0, _, _, _ => rfl
  | A :: As, B :: Bs, i + 1, h1, h2, h3 => by
    simp only [lineData, List.getElem_cons_succ]
    exact lineData_getElem i _ _ _
  | [], _, _, _, h2, _ => by simp at h2
  | _ :: _, [], _, _, _, h3 => by simp at h3

theorem crossEnv_snoc {ds : List ℕ} {As Zs : List (ND ℂ)} {A Z : ND ℂ} {d m n : ℕ} (h : MpsChain ds As 1 m) (hz : MpsChain ds Zs 1 m)
    (hA : A.shape = [d, m, n]) (hZ : Z.shape = [d, m, n]) (b b' : ℕ) (hb : b < n) (hb' : b' < n) :
    (sumIdx (ds ++ [d]) fun s => star (amp (As ++ [A]) s 0 b) * amp (Zs ++ [Z]) s 0 b') =
      ∑ s ∈ range d, ∑ a ∈ range m, ∑ a' ∈ range m, star (A.val [s, a, b]) * (sumIdx ds fun s => star (amp As s 0 a) * amp Zs s 0 a') * Z.val [s, a', b'] := by
  rw [sumIdx_append]
  calc _ = sumIdx ds fun s1 => ∑ s ∈ range d, ∑ a ∈ range m, ∑ a' ∈ range m,
        star (A.val [s, a, b]) * (star (amp As s1 0 a) * amp Zs s1 0 a') * Z.val [s, a', b'] := by
        refine sumIdx_congr fun s1 h1 => ?_
        simp only [sumIdx_cons, sumIdx_nil]
        refine Finset.sum_congr rfl fun s _ => ?_
        rw [amp_append h h1.length_eq 0 b (by omega), amp_append hz h1.length_eq 0 b' (by omega), star_sum, Finset.sum_mul]
        refine Finset.sum_congr rfl fun a _ => ?_
        rw [Finset.mul_sum]
        refine Finset.sum_congr rfl fun a' _ => ?_
        rw [amp_single _ _ _ _ (by rw [dim2 hA]; exact hb), amp_single _ _ _ _ (by rw [dim2 hZ]; exact hb'), star_mul']
        ring
    _ = _ := by
        simp only [sumIdx_finset_sum, ← sumIdx_mul_left, ← sumIdx_mul_right]

/-- tensors in the left gauge do not change the overlap with the state, whatever their size -/
theorem line_overlap {L d : ℕ} {As Bs : List (ND ℂ)} (hc : MpsChain (List.replicate L d) As 1 1) (hne : As ≠ []) (hBl : Bs.length = As.length)
    (hB : ∀ i (hi : i < As.length) (hi' : i < Bs.length), ∀ p q, As[i].shape = [d, p, q] → Bs[i].shape = [d, p, q] ∧
      LeftGauge d p q (leftEnv ((List.replicate L d).take i) (As.take i)) As[i] Bs[i]) (c : ℂ) :
    pairing (List.replicate L d) (psi As) (psi (lineData c As Bs)) = pairing (List.replicate L d) (psi As) (psi As) := by
  have hlen := hc.length_eq
  rw [List.length_replicate] at hlen
  have hzl : (lineData c As Bs).length = As.length := by
    simpa using congrArg List.length (lineData_shape (c := c) hBl.symm)
  have hzc : MpsChain (List.replicate L d) (lineData c As Bs) 1 1 := Tdvp.chain_shapes hc (lineData_shape hBl.symm)
  have key : ∀ k ≤ L, ∀ p, MpsChain ((List.replicate L d).take k) (As.take k) 1 p → ∀ a < p, ∀ b < p,
      (sumIdx ((List.replicate L d).take k) fun s => star (amp (As.take k) s 0 a) * amp ((lineData c As Bs).take k) s 0 b) =
        leftEnv ((List.replicate L d).take k) (As.take k) a b := by
    intro k
    induction k with
    | zero => intro _ p _ a _ b _; simp [leftEnv]
    | succ k ih =>
      intro hk p hp a ha b hb
      obtain ⟨m, q, h1, h2, h3, h4⟩ := chain_site hc (show k < As.length by omega)
      obtain rfl := chain_bond_unique h3 hp
      have hz1 : MpsChain ((List.replicate L d).take k) ((lineData c As Bs).take k) 1 m := by
        refine Tdvp.chain_shapes h1 ?_
        rw [List.map_take, List.map_take, lineData_shape hBl.symm]
      have et : (List.replicate L d).take (k + 1) = (List.replicate L d).take k ++ [d] := by
        rw [List.take_succ_eq_append_getElem (by simp; omega)]
        simp
      rw [et, List.take_succ_eq_append_getElem (show k < As.length by omega), List.take_succ_eq_append_getElem (show k < (lineData c As Bs).length by omega),
        lineData_getElem k _ (by omega) (by omega), crossEnv_snoc h1 hz1 h2 (by exact h2) a b ha hb, leftEnv_snoc h1 h2 a b ha hb]
      obtain ⟨-, g⟩ := hB k (by omega) (by omega) m q h2
      have g := g a ha b hb
      calc _ = ∑ s ∈ range d, ∑ a' ∈ range m, ∑ b' ∈ range m, (star (As[k].val [s, a', a]) * leftEnv ((List.replicate L d).take k) (As.take k) a' b' *
              As[k].val [s, b', b] + c * (star (As[k].val [s, a', a]) * leftEnv ((List.replicate L d).take k) (As.take k) a' b' * Bs[k].val [s, b', b])) := by
            refine Finset.sum_congr rfl fun s _ => Finset.sum_congr rfl fun a' ha' => Finset.sum_congr rfl fun b' hb' => ?_
            rw [ih (by omega) m h1 a' (Finset.mem_range.1 ha') b' (Finset.mem_range.1 hb')]
            ring
        _ = _ := by
            simp only [Finset.sum_add_distrib, ← Finset.mul_sum]
            rw [g, mul_zero, add_zero]
  have h := key L le_rfl 1 (by rw [List.take_of_length_le (by simp), List.take_of_length_le (by omega)]; exact hc) 0 (by omega) 0 (by omega)
  rw [List.take_of_length_le (by simp), List.take_of_length_le (by omega), List.take_of_length_le (by omega)] at h
  unfold pairing
  have hzne : lineData c As Bs ≠ [] := by
    intro h0
    rw [h0] at hzl
    exact hne (List.length_eq_zero_iff.1 hzl.symm)
  calc _ = _ := sumIdx_congr fun s hs => by rw [psi_eq_amp hc hne hs.length_eq, psi_eq_amp hzc hzne hs.length_eq]
    _ = _ := h
    _ = _ := (sumIdx_congr fun s hs => by rw [psi_eq_amp hc hne hs.length_eq]).symm

/-! ### `dA_dt` -/

section

variable {chol inv null : ND ℂ → Py (ND ℂ)} (hchol : CholTriLaw chol) (hinv : InvLaw inv) (hnull : NullLaw null) (O : SetOrder) {x : FMPS ℂ} {L d : ℕ}
  (hd : 0 < d) (hx : x.Holds (List.replicate L d)) (hf : FullEnvs (List.replicate L d) x.data) {H : List (ND ℂ)} (hL : H.length < L)
  (hH : ∀ h ∈ H, h.shape = [d * d, d * d])
include hchol hinv hnull hd hx hf hL hH

/-- **C64** the object `x + c t dA_dt(H)`: it has the shapes of `x`, the tangent vector of `dA_dt` times `c` is its derivative at `t = 0`, and its
overlap with the state is the norm of the state for every `t`, so that it is never the zero state. -/
theorem FMPS.dAdt_line {y : FMPS ℂ} (e : FMPS.dAdt chol inv null O x H = .ok y) (c : ℂ) :
    ∃ z : ℝ → FMPS ℂ, (∀ t : ℝ, ∃ w, y.mulItem (c * t) = .ok w ∧ x.addItem w = .ok (z t)) ∧ (∀ t, (z t).Holds (List.replicate L d)) ∧
      (∀ t, (z t).data.map ND.shape = x.data.map ND.shape) ∧ (z 0).data = x.data ∧
      (∀ t, braket (List.replicate L d) x.data (z t).data = braket (List.replicate L d) x.data x.data) ∧
      ∀ s, InB (List.replicate L d) s → HasDerivAt (fun t => psi (z t).data s) (c * tangentPsi x.data y.data s) 0 := by
  obtain ⟨y', e', hy, hg⟩ := FMPS.dAdt_gauge hchol hinv hnull O hd hx hf hL hH
  rw [e] at e'
  injection e' with e'
  subst e'
  have hl : y.data.length = x.data.length := by rw [hy.chain.length_eq, hx.chain.length_eq]
  have hsh : x.data.map ND.shape = y.data.map ND.shape := by
    apply List.ext_getElem
    · simp [hl]
    · intro i h1 h2
      simp only [List.length_map] at h1 h2
      obtain ⟨p, q, -, hA, -, -⟩ := chain_site hx.chain h1
      rw [List.getElem_map, List.getElem_map, hA, (hg i h1 h2 p q hA).1]
  choose w z e1 e2 hz hzd using fun t : ℝ => FMPS.step_line hx hy hsh (c * t)
  have hne : x.data ≠ [] := by
    intro h0
    have := hx.chain.length_eq
    rw [h0] at this
    exact hx.ne (List.length_eq_zero_iff.1 this.symm)
  refine ⟨z, fun t => ⟨w t, e1 t, e2 t⟩, hz, ?_, ?_, ?_, ?_⟩
  · intro t
    rw [hzd, lineData_shape hl.symm]
  · rw [hzd, Complex.ofReal_zero, mul_zero, lineData_zero hl.symm]
  · intro t
    rw [hzd]
    exact line_overlap hx.chain hne hl hg _
  · intro s hs
    simp only [hzd]
    exact psi_line_deriv c hx.chain hne hsh hs.length_eq

/-- **C64** norm and energy along `x + c t dA_dt(H)` for Hermitian terms: the norm is stationary, and the energy per site has the derivative
`2 Im c ‖T‖²/(‖ψ‖² L)` with the tangent vector `T` of `dA_dt`: zero for real `c`, growth for `c = i`, decrease for `c = -i`. -/
theorem FMPS.dAdt_line_energy (hh : ∀ h ∈ H, ∀ a < d * d, ∀ b < d * d, star (h.val [b, a]) = h.val [a, b])
    (hnz : ∃ s, InB (List.replicate L d) s ∧ psi x.data s ≠ 0) {y : FMPS ℂ} (e : FMPS.dAdt chol inv null O x H = .ok y) (c : ℂ) {z : ℝ → FMPS ℂ}
    (hz : ∀ t : ℝ, ∃ w, y.mulItem (c * t) = .ok w ∧ x.addItem w = .ok (z t)) :
    HasDerivAt (fun t => (braket (List.replicate L d) (z t).data (z t).data).re) 0 0 ∧
      HasDerivAt (fun t => energyPerSite (List.replicate L d) (z t).data d H)
        (2 * c.im * (pairing (List.replicate L d) (tangentPsi x.data y.data) (tangentPsi x.data y.data)).re /
          ((braket (List.replicate L d) x.data x.data).re * L)) 0 := by
  obtain ⟨z', hz', -, -, h0, -, hder⟩ := FMPS.dAdt_line hchol hinv hnull O hd hx hf hL hH e c
  obtain rfl : z = z' := by
    funext t
    obtain ⟨w, w1, w2⟩ := hz t
    obtain ⟨w', w1', w2'⟩ := hz' t
    rw [w1] at w1'
    injection w1' with w1'
    subst w1'
    rw [w2] at w2'
    injection w2'
  have hT0 := FMPS.dAdt_norm hchol hinv hnull O hd hx hf hL hH e
  have hTH : pairing (List.replicate L d) (tangentPsi x.data y.data) (hamAct d H (psi x.data)) =
      Complex.I * pairing (List.replicate L d) (tangentPsi x.data y.data) (tangentPsi x.data y.data) := by
    obtain ⟨y', e', hy, hg⟩ := FMPS.dAdt_gauge hchol hinv hnull O hd hx hf hL hH
    rw [e] at e'
    injection e' with e'
    subst e'
    rw [FMPS.dAdt_project hchol hinv hnull O hd hx hf hL hH e (Ws := y.data) (by rw [hy.chain.length_eq, hx.chain.length_eq]) hg, pairing_smul,
      ← mul_assoc]
    simp
  set T := tangentPsi x.data y.data with hT
  have him : (pairing (List.replicate L d) T T).im = 0 := Complex.conj_eq_iff_im.1 (pairing_star _ _ _)
  have hn := pairing_deriv (ds := List.replicate L d) (f := fun t => psi (z t).data) (g := fun t => psi (z t).data) hder hder
  have hn' : HasDerivAt (fun t => (pairing (List.replicate L d) (psi (z t).data) (psi (z t).data)).re) 0 0 := by
    have := Complex.reCLM.hasFDerivAt.comp_hasDerivAt (0 : ℝ) hn
    refine this.congr_deriv ?_
    simp only [h0]
    rw [pairing_smul, pairing_smul_left, ← pairing_star _ (psi x.data) T, hT0]
    simp
  have he := pairing_deriv (ds := List.replicate L d) (f := fun t => psi (z t).data) (g := fun t => hamAct d H (psi (z t).data)) hder
    (hamAct_deriv hL hder)
  have he' : HasDerivAt (fun t => (pairing (List.replicate L d) (psi (z t).data) (hamAct d H (psi (z t).data))).re)
      (2 * c.im * (pairing (List.replicate L d) T T).re) 0 := by
    have := Complex.reCLM.hasFDerivAt.comp_hasDerivAt (0 : ℝ) he
    refine this.congr_deriv ?_
    simp only [h0]
    rw [← pairing_ham_star hL hh (fun s => c * T s) (psi x.data), pairing_smul_left, hTH]
    simp [him]
    ring
  have hpos : (pairing (List.replicate L d) (psi x.data) (psi x.data)).re ≠ 0 := by
    intro h
    obtain ⟨s, hs, hne⟩ := hnz
    exact hne (eq_of_distSq (ds := List.replicate L d) (f := psi x.data) (g := fun _ => 0) (by unfold distSq; simpa using h) hs)
  refine ⟨hn', ?_⟩
  simp only [energyPerSite_eq hL]
  have := (he'.fun_div hn' (by simpa only [h0] using hpos)).div_const (L : ℝ)
  refine this.congr_deriv ?_
  simp only [h0, mul_zero, sub_zero]
  show _ = _ / ((pairing (List.replicate L d) (psi x.data) (psi x.data)).re * L)
  field_simp

end

/-! ### the hypotheses can be met -/

example {chol inv null : ND ℂ → Py (ND ℂ)} (hchol : CholTriLaw chol) (hinv : InvLaw inv) (hnull : NullLaw null) (O : SetOrder) {y : FMPS ℂ}
    (e : FMPS.dAdt chol inv null O exBellState [eyeND 4] = .ok y) :=
  FMPS.dAdt_line hchol hinv hnull O (d := 2) (L := 2) (by omega) exBellState_holds exBellState_full (H := [eyeND 4]) (by simp) (by simp [eyeND]) e Complex.I

example {chol inv null : ND ℂ → Py (ND ℂ)} (hchol : CholTriLaw chol) (hinv : InvLaw inv) (hnull : NullLaw null) (O : SetOrder) : ∃ (y : FMPS ℂ) (z : ℝ → FMPS ℂ),
    FMPS.dAdt chol inv null O exBellState [eyeND 4] = .ok y ∧ (∀ t : ℝ, ∃ w, y.mulItem (1 * t) = .ok w ∧ exBellState.addItem w = .ok (z t)) ∧
    HasDerivAt (fun t => (braket (List.replicate 2 2) (z t).data (z t).data).re) 0 0 := by
  obtain ⟨y, e, -, -⟩ := FMPS.dAdt_gauge hchol hinv hnull O (d := 2) (L := 2) (by omega) exBellState_holds exBellState_full (H := [eyeND 4])
    (by simp) (by simp [eyeND])
  obtain ⟨z, hz, -⟩ := FMPS.dAdt_line hchol hinv hnull O (d := 2) (L := 2) (by omega) exBellState_holds exBellState_full (H := [eyeND 4]) (by simp)
    (by simp [eyeND]) e 1
  refine ⟨y, z, e, hz, (FMPS.dAdt_line_energy hchol hinv hnull O (d := 2) (L := 2) (by omega) exBellState_holds exBellState_full (H := [eyeND 4]) (by simp)
    (by simp [eyeND]) ?_ ⟨[0, 0], by simp [List.replicate], ?_⟩ e 1 hz).1⟩
  · intro h hh a _ b _
    simp only [List.mem_singleton] at hh
    subst hh
    simp only [eyeND]
    rw [apply_ite star, star_one, star_zero]
    exact if_congr eq_comm rfl rfl
  · simp [psi, exBellState, pathProd, ND.dim, Finset.sum_range_succ]

end Xmps
