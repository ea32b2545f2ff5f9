import Mathlib.Analysis.Complex.Exponential
import Mathlib.LinearAlgebra.Span.Basic
import Mathlib.Tactic.Module
import Mathlib.Tactic.FieldSimp
import Verif.Model.Tdvp
import Verif.Lemmas.FmpsExamples
import Verif.Props.FmpsArith

/-! # Property C36: the `rk4` steps of `fTDVP` and `iTDVP` on linear vector fields -/

namespace Xmps.Tdvp

open Xmps.Spec

variable {K : Type}

/-- The entries of a list of arrays: site, multi-index. -/
abbrev Vals (K : Type) := ℕ → List ℕ → K

/-- The list of arrays with shapes `S` and entries `v`. -/
def arrays (S : List (List ℕ)) (v : Vals K) : List (ND K) := S.mapIdx fun i s => ⟨s, v i⟩

theorem arrays_shape (S : List (List ℕ)) (v : Vals K) : (arrays S v).map ND.shape = S := by
  apply List.ext_getElem <;> simp [arrays]

/-- The entries of an object. -/
def vals [Zero K] (data : List (ND K)) : Vals K := fun i => ((data[i]?).map ND.val).getD fun _ => 0

theorem arrays_vals [Zero K] (data : List (ND K)) : arrays (data.map ND.shape) (vals data) = data := by
  apply List.ext_getElem
  · simp [arrays]
  · intro i h1 h2
    simp [arrays, vals, h2]

theorem chain_shapes : ∀ {ds : List ℕ} {As Bs : List (ND K)} {l r : ℕ}, MpsChain ds As l r →
    Bs.map ND.shape = As.map ND.shape → MpsChain ds Bs l r
  | [], [], [], _, _, h, _ => h
  | [], [], _ :: _, _, _, _, h2 => by simp at h2
  | _ :: _, A :: As, [], _, _, _, h2 => by simp at h2
  | d :: ds, A :: As, B :: Bs, l, r, h, h2 => by
    obtain ⟨m, hA, hc⟩ := h
    simp only [List.map_cons, List.cons.injEq] at h2
    exact ⟨m, h2.1.trans hA, chain_shapes hc h2.2⟩
  | [], _ :: _, _, _, _, h, _ => by simp at h
  | _ :: _, [], _, _, _, h, _ => by simp at h

section steps

variable [Field K] {ds : List ℕ} {S : List (List ℕ)}

/-- The object `y` is a chain with shapes `S` and entries `v`. -/
structure Has (ds : List ℕ) (S : List (List ℕ)) (y : FMPS K) (v : Vals K) : Prop where
  holds : y.Holds ds
  data : y.data = arrays S v

theorem mulItem_has {y : FMPS K} {v : Vals K} (h : Has ds S y v) (c : K) : ∃ w, y.mulItem c = .ok w ∧ Has ds S w (c • v) := by
  obtain ⟨w, h1, h2, h3, -⟩ := FMPS.mulItem_state h.holds c
  refine ⟨w, h1, h2, ?_⟩
  rw [h3, h.data]
  apply List.ext_getElem <;> simp [arrays, ND.smul]
  exact fun _ _ => rfl

theorem truediv_has {y : FMPS K} {v : Vals K} (h : Has ds S y v) (c : K) : ∃ w, y.truediv c = .ok w ∧ Has ds S w (c⁻¹ • v) :=
  mulItem_has h c⁻¹

omit [Field K] in
theorem mapM_zip {α β γ : Type} {f : α × β → Py γ} : ∀ {l : List α} {m : List β} {n : List γ}, l.length = m.length → l.length = n.length →
    (∀ i (h1 : i < l.length) (h2 : i < m.length) (h3 : i < n.length), f (l[i], m[i]) = .ok n[i]) → (l.zip m).mapM f = .ok n
  | [], [], [], _, _, _ => rfl
  | a :: l, b :: m, c :: n, h1, h2, h => by
    have h0 := h 0 (by simp) (by simp) (by simp)
    have ih := mapM_zip (l := l) (m := m) (n := n) (f := f) (by simpa using h1) (by simpa using h2)
      (fun i a b c => h (i + 1) (by simpa using a) (by simpa using b) (by simpa using c))
    simp only [List.getElem_cons_zero] at h0
    simp only [List.zip_cons_cons, List.mapM_cons, h0, ok_bind, ih]
    rfl

theorem addItem_has {y z : FMPS K} {v w : Vals K} (h : Has ds S y v) (h' : Has ds S z w) :
    ∃ x, y.addItem z = .ok x ∧ Has ds S x (v + w) := by
  have hc : MpsChain ds (arrays S (v + w)) 1 1 := chain_shapes h.holds.chain (by rw [h.data, arrays_shape, arrays_shape])
  obtain ⟨x, h1, h2, h3, -⟩ := init_holds hc h.holds.ne none (Or.inl rfl)
  refine ⟨x, ?_, h3, h2⟩
  unfold FMPS.addItem
  rw [mapM_zip (n := arrays S (v + w)) (by simp [h.data, h'.data, arrays]) (by simp [h.data, arrays])]
  · exact h1
  · intro i h1 h2 h3
    simp only [h.data, h'.data, ND.zipNd, arrays, List.getElem_mapIdx, if_true]
    rfl

/-- The vector field computed by `f` on chains of shape `S` is `Λ`. -/
def VField (ds : List ℕ) (S : List (List ℕ)) (f : FMPS K → Py (FMPS K)) (Λ : Vals K → Vals K) : Prop :=
  ∀ y v, Has ds S y v → ∃ w, f y = .ok w ∧ Has ds S w (Λ v)

/-- One step of the classical Runge-Kutta scheme for `v' = Λ v`. -/
def rk4Spec (Λ : Vals K → Vals K) (h : K) (v : Vals K) : Vals K :=
  let k1 := Λ v
  let k2 := Λ (v + (h / 2) • k1)
  let k3 := Λ (v + (h / 2) • k2)
  let k4 := Λ (v + h • k3)
  v + (h / 6) • (k1 + (2 : K) • k2 + (2 : K) • k3 + k4)

theorem rk4Spec_eq (Λ : Vals K → Vals K) (h : K) (v : Vals K) :
    rk4Spec Λ h v = v + (6 : K)⁻¹ • (h • Λ v + (2 : K) • h • Λ (v + (2 : K)⁻¹ • h • Λ v) +
      (2 : K) • h • Λ (v + (2 : K)⁻¹ • h • Λ (v + (2 : K)⁻¹ • h • Λ v)) +
      h • Λ (v + h • Λ (v + (2 : K)⁻¹ • h • Λ (v + (2 : K)⁻¹ • h • Λ v)))) := by
  have e : ∀ u : Vals K, (2 : K)⁻¹ • h • u = (h / 2) • u := fun u => by rw [smul_smul, div_eq_inv_mul]
  simp only [e, rk4Spec]
  generalize Λ (v + h • Λ (v + (h / 2) • Λ (v + (h / 2) • Λ v))) = x4
  generalize Λ (v + (h / 2) • Λ (v + (h / 2) • Λ v)) = x3
  generalize Λ (v + (h / 2) • Λ v) = x2
  generalize Λ v = x1
  funext i idx
  simp only [Pi.add_apply, Pi.smul_apply, smul_eq_mul]
  ring

/-- **C36**: for every vector field, `rk4` computes the classical Runge-Kutta step before it canonicalises. -/
theorem rk4_scheme {f canon : FMPS K → Py (FMPS K)} {Λ : Vals K → Vals K} (hf : VField ds S f Λ) {mps : FMPS K} {v : Vals K}
    (hm : Has ds S mps v) (h : K) : ∃ y, rk4 f canon mps h = canon y ∧ Has ds S y (rk4Spec Λ h v) := by
  obtain ⟨a1, e1, p1⟩ := hf _ _ hm
  obtain ⟨k1, e1', q1⟩ := mulItem_has p1 h
  obtain ⟨b1, f1, r1⟩ := truediv_has q1 2
  obtain ⟨c1, g1, s1⟩ := addItem_has hm r1
  obtain ⟨a2, e2, p2⟩ := hf _ _ s1
  obtain ⟨k2, e2', q2⟩ := mulItem_has p2 h
  obtain ⟨b2, f2, r2⟩ := truediv_has q2 2
  obtain ⟨c2, g2, s2⟩ := addItem_has hm r2
  obtain ⟨a3, e3, p3⟩ := hf _ _ s2
  obtain ⟨k3, e3', q3⟩ := mulItem_has p3 h
  obtain ⟨c3, g3, s3⟩ := addItem_has hm q3
  obtain ⟨a4, e4, p4⟩ := hf _ _ s3
  obtain ⟨k4, e4', q4⟩ := mulItem_has p4 h
  obtain ⟨t1, u1, w1⟩ := mulItem_has q2 2
  obtain ⟨t2, u2, w2⟩ := addItem_has q1 w1
  obtain ⟨t3, u3, w3⟩ := mulItem_has q3 2
  obtain ⟨t4, u4, w4⟩ := addItem_has w2 w3
  obtain ⟨t5, u5, w5⟩ := addItem_has w4 q4
  obtain ⟨t6, u6, w6⟩ := truediv_has w5 6
  obtain ⟨t7, u7, w7⟩ := addItem_has hm w6
  refine ⟨t7, by unfold rk4; rw [e1, ok_bind, e1', ok_bind, f1, ok_bind, g1, ok_bind, e2, ok_bind, e2', ok_bind, f2, ok_bind, g2, ok_bind, e3, ok_bind, e3', ok_bind, g3, ok_bind, e4, ok_bind, e4', ok_bind, u1, ok_bind, u2, ok_bind, u3, ok_bind, u4, ok_bind, u5, ok_bind, u6, ok_bind, u7, ok_bind], ?_⟩
  rw [rk4Spec_eq]
  exact w7

/-- **C36**: on a linear vector field one step is multiplication by the fourth Taylor polynomial of the exponential. -/
theorem rk4_linear [CharZero K] {f canon : FMPS K → Py (FMPS K)} {Λ : Vals K →ₗ[K] Vals K} (hf : VField ds S f Λ) {mps : FMPS K}
    {v : Vals K} (hm : Has ds S mps v) (h : K) :
    ∃ y, rk4 f canon mps h = canon y ∧
      Has ds S y (v + h • Λ v + (h ^ 2 / 2) • Λ (Λ v) + (h ^ 3 / 6) • Λ (Λ (Λ v)) + (h ^ 4 / 24) • Λ (Λ (Λ (Λ v)))) := by
  obtain ⟨y, h1, h2⟩ := rk4_scheme (canon := canon) hf hm h
  refine ⟨y, h1, ?_⟩
  convert h2 using 1
  simp only [rk4Spec, map_add, map_smul]
  generalize Λ (Λ (Λ (Λ v))) = v4
  generalize Λ (Λ (Λ v)) = v3
  generalize Λ (Λ v) = v2
  generalize Λ v = v1
  funext i idx
  simp only [Pi.add_apply, Pi.smul_apply, smul_eq_mul]
  field_simp
  ring

/-- **C36**: for `A -> z A` the step multiplies every tensor by `1 + hz + (hz)²/2 + (hz)³/6 + (hz)⁴/24`. -/
theorem rk4_scalar [CharZero K] {f canon : FMPS K → Py (FMPS K)} {z : K}
    (hf : ∀ y : FMPS K, y.Holds ds → ∃ w, f y = .ok w ∧ w.Holds ds ∧ w.data = y.data.map (ND.smul z)) {mps : FMPS K}
    (hm : mps.Holds ds) (h : K) :
    ∃ y, rk4 f canon mps h = canon y ∧ y.Holds ds ∧
      y.data = mps.data.map (ND.smul (1 + h * z + (h * z) ^ 2 / 2 + (h * z) ^ 3 / 6 + (h * z) ^ 4 / 24)) := by
  have hF : VField ds (mps.data.map ND.shape) f (z • LinearMap.id : Vals K →ₗ[K] Vals K) := by
    intro y v hy
    obtain ⟨w, h1, h2, h3⟩ := hf y hy.holds
    refine ⟨w, h1, h2, ?_⟩
    rw [h3, hy.data]
    apply List.ext_getElem <;> simp [arrays, ND.smul]
    exact fun _ _ => rfl
  obtain ⟨y, h1, h2⟩ := rk4_linear (canon := canon) hF ⟨hm, (arrays_vals _).symm⟩ h
  refine ⟨y, h1, h2.holds, ?_⟩
  rw [h2.data]
  conv_rhs => rw [← arrays_vals mps.data]
  apply List.ext_getElem
  · simp [arrays]
  · intro i _ _
    simp only [arrays, ND.smul, List.getElem_mapIdx, List.getElem_map, ND.mk.injEq, true_and]
    funext idx
    simp only [LinearMap.smul_apply, LinearMap.id_coe, id_eq, Pi.add_apply, Pi.smul_apply, smul_eq_mul]
    ring

/-- `euler` is the Euler step for every vector field. -/
theorem euler_scheme {f canon : FMPS K → Py (FMPS K)} {Λ : Vals K → Vals K} (hf : VField ds S f Λ) {mps : FMPS K} {v : Vals K}
    (hm : Has ds S mps v) (h : K) : ∃ y, euler f canon mps h = canon y ∧ Has ds S y (v + h • Λ v) := by
  obtain ⟨a1, e1, p1⟩ := hf _ _ hm
  obtain ⟨k1, e1', q1⟩ := mulItem_has p1 h
  obtain ⟨c1, g1, s1⟩ := addItem_has hm q1
  exact ⟨c1, by simp only [euler, e1, e1', g1, ok_bind], s1⟩

/-- What `iTDVP.rk4` computes for `A -> z A`. -/
theorem rk4i_scheme {f canon : FMPS K → Py (FMPS K)} {Λ : Vals K → Vals K} (hf : VField ds S f Λ) {mps : FMPS K} {v : Vals K}
    (hm : Has ds S mps v) (h : K) : ∃ y, rk4i f canon mps h = canon y ∧
      Has ds S y (
        let k1 := Λ v
        let k2 := Λ (v + (h / 2) • k1)
        let k3 := h • Λ (v + (h / 2) • k2)
        let k4 := Λ (v + h • k3)
        v + (h / 6) • (k1 + (2 : K) • k2 + (2 : K) • k3 + k4)) := by
  obtain ⟨k1, e1, q1⟩ := hf _ _ hm
  obtain ⟨b1, f1, r1⟩ := truediv_has q1 2
  obtain ⟨b1', f1', r1'⟩ := mulItem_has r1 h
  obtain ⟨c1, g1, s1⟩ := addItem_has hm r1'
  obtain ⟨k2, e2, q2⟩ := hf _ _ s1
  obtain ⟨b2, f2, r2⟩ := truediv_has q2 2
  obtain ⟨b2', f2', r2'⟩ := mulItem_has r2 h
  obtain ⟨c2, g2, s2⟩ := addItem_has hm r2'
  obtain ⟨a3, e3, p3⟩ := hf _ _ s2
  obtain ⟨k3, e3', q3⟩ := mulItem_has p3 h
  obtain ⟨b3, f3, r3⟩ := mulItem_has q3 h
  obtain ⟨c3, g3, s3⟩ := addItem_has hm r3
  obtain ⟨k4, e4, q4⟩ := hf _ _ s3
  obtain ⟨t1, u1, w1⟩ := mulItem_has q2 2
  obtain ⟨t2, u2, w2⟩ := addItem_has q1 w1
  obtain ⟨t3, u3, w3⟩ := mulItem_has q3 2
  obtain ⟨t4, u4, w4⟩ := addItem_has w2 w3
  obtain ⟨t5, u5, w5⟩ := addItem_has w4 q4
  obtain ⟨t6, u6, w6⟩ := mulItem_has w5 h
  obtain ⟨t6', u6', w6'⟩ := truediv_has w6 6
  obtain ⟨t7, u7, w7⟩ := addItem_has hm w6'
  refine ⟨t7, by unfold rk4i; rw [e1, ok_bind, f1, ok_bind, f1', ok_bind, g1, ok_bind, e2, ok_bind, f2, ok_bind, f2', ok_bind, g2, ok_bind, e3, ok_bind, e3', ok_bind, f3, ok_bind, g3, ok_bind, e4, ok_bind, u1, ok_bind, u2, ok_bind, u3, ok_bind, u4, ok_bind, u5, ok_bind, u6, ok_bind, u6', ok_bind, u7, ok_bind], ?_⟩
  convert w7 using 1
  simp only [smul_smul, div_eq_mul_inv, mul_comm (6 : K)⁻¹]

/-- **C36** (violated by `iTDVP`): the amplification factor of `iTDVP.rk4` for `A -> z A`. -/
theorem rk4i_scalar [CharZero K] {f canon : FMPS K → Py (FMPS K)} {z : K}
    (hf : ∀ y : FMPS K, y.Holds ds → ∃ w, f y = .ok w ∧ w.Holds ds ∧ w.data = y.data.map (ND.smul z)) {mps : FMPS K}
    (hm : mps.Holds ds) (h : K) :
    ∃ y, rk4i f canon mps h = canon y ∧ y.Holds ds ∧
      y.data = mps.data.map (ND.smul (1 + h / 6 * z * (4 + h * z + h * (2 + h * z) * (1 + h * z / 2 + (h * z) ^ 2 / 4)))) := by
  have hF : VField ds (mps.data.map ND.shape) f (fun v => z • v) := by
    intro y v hy
    obtain ⟨w, h1, h2, h3⟩ := hf y hy.holds
    refine ⟨w, h1, h2, ?_⟩
    rw [h3, hy.data]
    apply List.ext_getElem <;> simp [arrays, ND.smul]
    exact fun _ _ => rfl
  obtain ⟨y, h1, h2⟩ := rk4i_scheme (canon := canon) hF ⟨hm, (arrays_vals _).symm⟩ h
  refine ⟨y, h1, h2.holds, ?_⟩
  rw [h2.data]
  conv_rhs => rw [← arrays_vals mps.data]
  apply List.ext_getElem
  · simp [arrays]
  · intro i _ _
    simp only [arrays, ND.smul, List.getElem_mapIdx, List.getElem_map, ND.mk.injEq, true_and]
    funext idx
    simp only [Pi.add_apply, Pi.smul_apply, smul_eq_mul]
    ring

end steps

/-- **C36**: the local error of `rk4` on `A -> z A`: the factor agrees with `exp(hz)` to fourth order. -/
theorem rk4_order {w : ℂ} (hw : ‖w‖ ≤ 1) : ‖Complex.exp w - (1 + w + w ^ 2 / 2 + w ^ 3 / 6 + w ^ 4 / 24)‖ ≤ ‖w‖ ^ 5 / 100 := by
  have h := Complex.exp_bound hw (n := 5) (by norm_num)
  norm_num [Finset.sum_range_succ, Nat.factorial] at h
  calc _ ≤ _ := h
    _ = _ := by ring

/-- **C36** (violated by `iTDVP`): with `z = 1`, `h = 1/10` the factor of `iTDVP.rk4` is about 1.072 instead of 1.105. -/
theorem rk4i_wrong : (1 + (1 / 10 : ℚ) / 6 * 1 * (4 + 1 / 10 * 1 + 1 / 10 * (2 + 1 / 10 * 1) * (1 + 1 / 10 * 1 / 2 + (1 / 10 * 1) ^ 2 / 4))) < 1073 / 1000 ∧
    (1105 / 1000 : ℚ) < 1 + 1 / 10 * 1 + (1 / 10 * 1) ^ 2 / 2 + (1 / 10 * 1) ^ 3 / 6 + (1 / 10 * 1) ^ 4 / 24 := by
  norm_num

example := rk4_scalar (f := fun y => y.mulItem Complex.I) (canon := fun y => .ok y)
  (fun _ hy => let ⟨w, h1, h2, h3, _⟩ := FMPS.mulItem_state hy Complex.I; ⟨w, h1, h2, h3⟩) (exTwo_holds 3) (1 / 10)
example := rk4i_scalar (f := fun y => y.mulItem Complex.I) (canon := fun y => .ok y)
  (fun _ hy => let ⟨w, h1, h2, h3, _⟩ := FMPS.mulItem_state hy Complex.I; ⟨w, h1, h2, h3⟩) (exTwo_holds 3) (1 / 10)

end Xmps.Tdvp
