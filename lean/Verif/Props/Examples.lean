import Verif.Model.Examples
import Verif.Spec.Examples
import Verif.Props.Canonicalise
import Mathlib.Tactic.IntervalCases

/-!
# C77: the example states of `mps_examples.py`
-/

namespace Xmps.Examples

open Finset Spec

theorem init_two {m0 m1 : ND ℂ} {D : ℕ} (h0 : m0.shape = [2, 1, D]) (h1 : m1.shape = [2, D, 1]) :
    ∃ x, FMPS.init [m0, m1] (some 2) = .ok x ∧ x.data = [m0, m1] ∧ x.d = 2 ∧ x.Holds [2, 2] := by
  have hm : ∀ a b : ℕ, pyMax [a, b] = .ok (max a b) := fun a b => by simp [pyMax]
  refine ⟨{ data := [m0, m1], L := 2, d := 2, D := max (max 1 D) (max D 1) }, ?_, rfl, rfl, ?_⟩
  · simp [FMPS.init, FMPS.bondDimension, h0, h1, hm]
  · refine ⟨?_, by simp, rfl, ?_⟩
    · simp [h0, h1]
    · simp

/-- `fMPS(matrices, 2).left_canonicalise()` of two tensors that represent `f` -/
theorem finish_state {svd : Svd} {eig : Eig} (hsvd : SVDLaw svd) (heig : EigOrthoLaw eig) {m0 m1 : ND ℂ} {D : ℕ} (hD : 0 < D)
    (h0 : m0.shape = [2, 1, D]) (h1 : m1.shape = [2, D, 1]) {f : ℕ → ℕ → ℂ} {c : ℂ} (hc : c ≠ 0)
    (hf : ∀ s < 2, ∀ t < 2, psi [m0, m1] [s, t] = c * f s t) (hnz : ∃ s < 2, ∃ t < 2, f s t ≠ 0) :
    ∃ y, finish svd eig [m0, m1] = .ok y ∧ y.Holds [2, 2] ∧ (∀ A ∈ y.data, LeftIso A) ∧ IsState y.data f := by
  obtain ⟨x, e, ex, ed, hx⟩ := init_two h0 h1
  obtain ⟨s0, hs0, t0, ht0, hne⟩ := hnz
  obtain ⟨y, Ls, R, z, h1, h2, h3, h4, h5, -, -, -, hz, -, h6, -⟩ :=
    FMPS.leftCanonicalise_spec hsvd heig hx (by simp [ed]) (by
      rw [ex]
      intro A hA n hn
      simp only [List.mem_cons, List.not_mem_nil, or_false] at hA
      rcases hA with rfl | rfl
      · rw [h0] at hn; simp at hn; omega
      · rw [h1] at hn; simp at hn; omega) none (by simp)
      fun _ => ⟨[s0, t0], by simp [InB, hs0, ht0], by rw [ex, hf s0 hs0 t0 ht0]; exact mul_ne_zero hc hne⟩
  have h6 := h6 rfl
  rw [ex] at h6
  have hR : z * R.val [0, 0] ≠ 0 := by
    intro h
    have := h6 [s0, t0] (by simp [InB, hs0, ht0])
    rw [h, zero_mul, hf s0 hs0 t0 ht0] at this
    exact mul_ne_zero hc hne this
  refine ⟨y, by simp [finish, e, h1], h2, h4, ⟨c / (z * R.val [0, 0]), div_ne_zero hc hR, fun s hs t ht => ?_⟩, h5⟩
  have := h6 [s, t] (by simp [InB, hs, ht])
  rw [hf s hs t ht] at this
  rw [div_mul_eq_mul_div, eq_div_iff hR, this]
  ring

theorem psi_pair {m0 m1 : ND ℂ} {D : ℕ} (h0 : m0.shape = [2, 1, D]) (s t : ℕ) :
    psi [m0, m1] [s, t] = ∑ b ∈ range D, m0.val [s, 0, b] * m1.val [t, b, 0] := by
  simp [psi, pathProd, ND.dim, h0]

/-- **C77, `bell`**: for `i = 1, 2, 3, 4` the Bell state of the docstring, normalised and left canonical. -/
theorem bell_spec {svd : Svd} {eig : Eig} (hsvd : SVDLaw svd) (heig : EigOrthoLaw eig) {i : ℤ} (h1 : 1 ≤ i) (h4 : i ≤ 4) :
    ∃ y, bell svd eig i = .ok (some y) ∧ y.Holds [2, 2] ∧ (∀ A ∈ y.data, LeftIso A) ∧ IsState y.data (bellDoc i) := by
  have key : ∀ (x0 x1 y0 y1 : ℂ) (c : ℂ), c ≠ 0 →
      (∀ s < 2, ∀ t < 2, psi [setPage (setPage (zerosND [2, 1, 2]) 0 (row 0 1)) 1 (row 1 0),
        setPage (setPage (zerosND [2, 2, 1]) 0 (col x0 x1)) 1 (col y0 y1)] [s, t] = c * bellDoc i s t) →
      ∃ y, (do let y ← finish svd eig [setPage (setPage (zerosND [2, 1, 2]) 0 (row 0 1)) 1 (row 1 0),
        setPage (setPage (zerosND [2, 2, 1]) 0 (col x0 x1)) 1 (col y0 y1)]; .ok (some y) : Py (Option (FMPS ℂ))) = .ok (some y) ∧
        y.Holds [2, 2] ∧ (∀ A ∈ y.data, LeftIso A) ∧ IsState y.data (bellDoc i) := by
    intro x0 x1 y0 y1 c hc h
    obtain ⟨y, e, h2, h3, h4⟩ := finish_state hsvd heig (D := 2) (by omega) rfl rfl hc h (by
      obtain rfl | rfl | rfl | rfl : i = 1 ∨ i = 2 ∨ i = 3 ∨ i = 4 := by omega
      · exact ⟨0, by omega, 0, by omega, by simp [bellDoc]⟩
      · exact ⟨0, by omega, 0, by omega, by simp [bellDoc]⟩
      · exact ⟨0, by omega, 1, by omega, by simp [bellDoc]⟩
      · exact ⟨0, by omega, 1, by omega, by simp [bellDoc]⟩)
    exact ⟨y, by rw [e]; rfl, h2, h3, h4⟩
  obtain rfl | rfl | rfl | rfl : i = 1 ∨ i = 2 ∨ i = 3 ∨ i = 4 := by omega
  · exact key _ _ _ _ 1 one_ne_zero fun s hs t ht => by
      rw [psi_pair rfl]
      interval_cases s <;> interval_cases t <;> simp [setPage, row, col, bellDoc, Finset.sum_range_succ]
  · exact key _ _ _ _ (-1) (by simp) fun s hs t ht => by
      rw [psi_pair rfl]
      interval_cases s <;> interval_cases t <;> simp [setPage, row, col, bellDoc, Finset.sum_range_succ]
  · exact key _ _ _ _ 1 one_ne_zero fun s hs t ht => by
      rw [psi_pair rfl]
      interval_cases s <;> interval_cases t <;> simp [setPage, row, col, bellDoc, Finset.sum_range_succ]
  · exact key _ _ _ _ 1 one_ne_zero fun s hs t ht => by
      rw [psi_pair rfl]
      interval_cases s <;> interval_cases t <;> simp [setPage, row, col, bellDoc, Finset.sum_range_succ]

/-- `bell(i)` for any other `i` is `None` -/
theorem bell_none {svd : Svd} {eig : Eig} {i : ℤ} (h : i < 1 ∨ 4 < i) : bell svd eig i = .ok none := by
  unfold bell
  rw [if_neg (by omega), if_neg (by omega), if_neg (by omega), if_neg (by omega)]

theorem padBoth_ok {m0 m1 : ND ℂ} (h0 : m0.shape = [2, 1, 1]) (h1 : m1.shape = [2, 1, 1]) :
    ∃ p0 p1, padBoth m0 m1 = .ok [p0, p1] ∧ p0.shape = [2, 1, 2] ∧ p1.shape = [2, 2, 1] ∧
      ∀ s < 2, ∀ t < 2, psi [p0, p1] [s, t] = m0.val [s, 0, 0] * m1.val [t, 0, 0] := by
  refine ⟨⟨[2, 1, 2], fun idx => if InB m0.shape idx then m0.val idx else 0⟩,
    ⟨[2, 2, 1], fun idx => if InB m1.shape idx then m1.val idx else 0⟩, ?_, rfl, rfl, ?_⟩
  · simp [padBoth, FMPS.padEnd, h0, h1, ND.rank, guardPy]
  · intro s hs t ht
    rw [psi_pair rfl]
    simp [Finset.sum_range_succ, h0, h1, InB, hs, ht]

/-- **C77, `comp_z`**: for `i = 1, 2, 3, 4` the product state of the docstring, exactly (no factor) -/
theorem compZ_spec {i : ℤ} (h1 : 1 ≤ i) (h4 : i ≤ 4) : ∃ y, compZ i = .ok y ∧ y.Holds [2, 2] ∧
    ∀ s < 2, ∀ t < 2, psi y.data [s, t] = if (s, t) = compDoc i then 1 else 0 := by
  have key : ∀ m0 m1 : ND ℂ, m0.shape = [2, 1, 1] → m1.shape = [2, 1, 1] →
      (∀ s < 2, ∀ t < 2, m0.val [s, 0, 0] * m1.val [t, 0, 0] = if (s, t) = compDoc i then 1 else 0) →
      ∃ y, (do let ms ← padBoth m0 m1; FMPS.init ms (some 2) : Py (FMPS ℂ)) = .ok y ∧ y.Holds [2, 2] ∧
        ∀ s < 2, ∀ t < 2, psi y.data [s, t] = if (s, t) = compDoc i then 1 else 0 := by
    intro m0 m1 h0 h1 h
    obtain ⟨p0, p1, e, e0, e1, hp⟩ := padBoth_ok h0 h1
    obtain ⟨x, ex, ed, -, hx⟩ := init_two e0 e1
    exact ⟨x, by rw [e, ok_bind, ex], hx, fun s hs t ht => by rw [ed, hp s hs t ht, h s hs t ht]⟩
  obtain rfl | rfl | rfl | rfl : i = 1 ∨ i = 2 ∨ i = 3 ∨ i = 4 := by omega
  all_goals
    refine key _ _ rfl rfl fun s hs t ht => ?_
    interval_cases s <;> interval_cases t <;> simp [setPage, const, compDoc, zerosND]

/-- the state `comp_x(i)` is, as signs of the two spins along x -/
def compXActual : ℤ → ℕ × ℕ
  | 1 => (0, 0)
  | 2 => (0, 1)
  | 3 => (1, 0)
  | _ => (1, 1)

/-- what `comp_x` returns: the eigenstates of the two `X`, numbered as in `comp_z`, normalised and left canonical -/
theorem compX_spec {svd : Svd} {eig : Eig} (hsvd : SVDLaw svd) (heig : EigOrthoLaw eig) {i : ℤ} (h1 : 1 ≤ i) (h4 : i ≤ 4) :
    ∃ y, compX svd eig i = .ok y ∧ y.Holds [2, 2] ∧ (∀ A ∈ y.data, LeftIso A) ∧
      IsState y.data fun s t => plusMinus (compXActual i).1 s * plusMinus (compXActual i).2 t := by
  have hnz : ∃ s < 2, ∃ t < 2, plusMinus (compXActual i).1 s * plusMinus (compXActual i).2 t ≠ 0 :=
    ⟨0, by omega, 0, by omega, by simp [plusMinus]⟩
  have key : ∀ (m0 m1 : ND ℂ) (c : ℂ), c ≠ 0 → m0.shape = [2, 1, 1] → m1.shape = [2, 1, 1] →
      (∀ s < 2, ∀ t < 2, m0.val [s, 0, 0] * m1.val [t, 0, 0] = c * (plusMinus (compXActual i).1 s * plusMinus (compXActual i).2 t)) →
      ∃ y, (do let ms ← padBoth m0 m1; finish svd eig ms : Py (FMPS ℂ)) = .ok y ∧ y.Holds [2, 2] ∧ (∀ A ∈ y.data, LeftIso A) ∧
        IsState y.data fun s t => plusMinus (compXActual i).1 s * plusMinus (compXActual i).2 t := by
    intro m0 m1 c hc h0 h1 h
    obtain ⟨p0, p1, e, e0, e1, hp⟩ := padBoth_ok h0 h1
    obtain ⟨y, ey, h2, h3, h4⟩ := finish_state hsvd heig (D := 2) (by omega) e0 e1 hc
      (fun s hs t ht => by rw [hp s hs t ht, h s hs t ht]) hnz
    exact ⟨y, by rw [e, ok_bind, ey], h2, h3, h4⟩
  obtain rfl | rfl | rfl | rfl : i = 1 ∨ i = 2 ∨ i = 3 ∨ i = 4 := by omega
  · refine finish_state hsvd heig (D := 1) (by omega) rfl rfl (c := 1) one_ne_zero (fun s hs t ht => ?_) hnz
    rw [psi_pair rfl]
    interval_cases s <;> interval_cases t <;> simp [setBoth, setPage, const, plusMinus, compXActual]
  · refine key _ _ (-1) (by simp) rfl rfl fun s hs t ht => ?_
    interval_cases s <;> interval_cases t <;> simp [setBoth, setPage, const, plusMinus, compXActual]
  · refine key _ _ 1 (by simp) rfl rfl fun s hs t ht => ?_
    interval_cases s <;> interval_cases t <;> simp [setBoth, setPage, const, plusMinus, compXActual]
  · refine key _ _ 1 (by simp) rfl rfl fun s hs t ht => ?_
    interval_cases s <;> interval_cases t <;> simp [setBoth, setPage, const, plusMinus, compXActual]

/-- **C77 fails for `comp_x`**: the docstring has the states 2 and 3 exchanged; those returned are orthogonal to the documented ones.
For 1 and 4 the docstring is right. -/
theorem compX_doc {svd : Svd} {eig : Eig} (hsvd : SVDLaw svd) (heig : EigOrthoLaw eig) {i : ℤ} (h1 : 1 ≤ i) (h4 : i ≤ 4) :
    ∃ y, compX svd eig i = .ok y ∧
      (IsState y.data (fun s t => plusMinus (compXDoc i).1 s * plusMinus (compXDoc i).2 t) ↔ i = 1 ∨ i = 4) ∧
      (i = 2 ∨ i = 3 → ∑ s ∈ range 2, ∑ t ∈ range 2, star (plusMinus (compXDoc i).1 s * plusMinus (compXDoc i).2 t) * psi y.data [s, t] = 0) := by
  obtain ⟨y, e, -, -, hy⟩ := compX_spec hsvd heig h1 h4
  refine ⟨y, e, ⟨fun h => ?_, ?_⟩, ?_⟩
  · obtain ⟨⟨c, hc, hp⟩, -⟩ := hy
    obtain ⟨⟨c', hc', hp'⟩, -⟩ := h
    by_contra hn
    obtain rfl | rfl : i = 2 ∨ i = 3 := by omega
    all_goals
      have h00 := (hp 0 (by omega) 0 (by omega)).symm.trans (hp' 0 (by omega) 0 (by omega))
      have h01 := (hp 0 (by omega) 1 (by omega)).symm.trans (hp' 0 (by omega) 1 (by omega))
      simp [plusMinus, compXDoc, compXActual] at h00 h01
      subst h00
      first
        | exact hc (by linear_combination (1 / 2 : ℂ) * h01)
        | exact hc (by linear_combination (-1 / 2 : ℂ) * h01)
  · rintro (rfl | rfl) <;> exact hy
  · intro hi
    obtain ⟨⟨c, hc, hp⟩, -⟩ := hy
    obtain rfl | rfl := hi
    all_goals
      simp only [Finset.sum_range_succ, Finset.sum_range_zero]
      rw [hp 0 (by omega) 0 (by omega), hp 0 (by omega) 1 (by omega), hp 1 (by omega) 0 (by omega), hp 1 (by omega) 1 (by omega)]
      simp [plusMinus, compXDoc, compXActual]

/-- the four states of each family are orthogonal to each other -/
theorem state_orthogonal {As Bs : List (ND ℂ)} {f g : ℕ → ℕ → ℂ} (h : IsState As f) (h' : IsState Bs g)
    (ho : ∑ s ∈ range 2, ∑ t ∈ range 2, star (f s t) * g s t = 0) : braket [2, 2] As Bs = 0 := by
  obtain ⟨⟨c, hc, hp⟩, -⟩ := h
  obtain ⟨⟨c', hc', hp'⟩, -⟩ := h'
  have : braket [2, 2] As Bs = star c * c' * ∑ s ∈ range 2, ∑ t ∈ range 2, star (f s t) * g s t := by
    simp only [braket, sumIdx_cons, sumIdx_nil, Finset.mul_sum]
    refine Finset.sum_congr rfl fun s hs => Finset.sum_congr rfl fun t ht => ?_
    rw [hp s (Finset.mem_range.1 hs) t (Finset.mem_range.1 ht), hp' s (Finset.mem_range.1 hs) t (Finset.mem_range.1 ht), star_mul']
    ring
  rw [this, ho, mul_zero]

theorem bell_orthogonal {svd : Svd} {eig : Eig} (hsvd : SVDLaw svd) (heig : EigOrthoLaw eig) {i j : ℤ} (h1 : 1 ≤ i) (h4 : i ≤ 4)
    (h1' : 1 ≤ j) (h4' : j ≤ 4) (hij : i ≠ j) :
    ∃ x y, bell svd eig i = .ok (some x) ∧ bell svd eig j = .ok (some y) ∧ braket [2, 2] x.data y.data = 0 := by
  obtain ⟨x, ex, -, -, hx⟩ := bell_spec hsvd heig h1 h4
  obtain ⟨y, ey, -, -, hy⟩ := bell_spec hsvd heig h1' h4'
  refine ⟨x, y, ex, ey, state_orthogonal hx hy ?_⟩
  interval_cases i <;> interval_cases j <;> simp [bellDoc, Finset.sum_range_succ] at hij ⊢

/-- the contracts of the decompositions can be met -/
example : ∃ svd eig y, SVDLaw svd ∧ EigOrthoLaw eig ∧ compX svd eig 2 = .ok y ∧
    ¬ IsState y.data fun s t => plusMinus (compXDoc 2).1 s * plusMinus (compXDoc 2).2 t := by
  obtain ⟨svd, hsvd⟩ := svdLaw_exists
  obtain ⟨eig, heig⟩ := eigOrthoLaw_exists
  obtain ⟨y, e, h, -⟩ := compX_doc hsvd heig (i := 2) (by omega) (by omega)
  exact ⟨svd, eig, y, hsvd, heig, e, fun h' => by have := h.1 h'; omega⟩
example {svd : Svd} {eig : Eig} (hsvd : SVDLaw svd) (heig : EigOrthoLaw eig) := bell_spec hsvd heig (i := 4) (by omega) (by omega)
example {svd : Svd} {eig : Eig} (hsvd : SVDLaw svd) (heig : EigOrthoLaw eig) := bell_orthogonal hsvd heig (i := 4) (j := 1) (by omega) (by omega)
  (by omega) (by omega) (by omega)
example {svd : Svd} {eig : Eig} : bell svd eig 5 = .ok none := bell_none (by omega)
example := compZ_spec (i := 3) (by omega) (by omega)
example {svd : Svd} {eig : Eig} (hsvd : SVDLaw svd) (heig : EigOrthoLaw eig) := compX_spec hsvd heig (i := 3) (by omega) (by omega)

end Xmps.Examples
