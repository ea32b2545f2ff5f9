import Verif.Model.ExamplesCat
import Verif.Props.ExamplesAklt

/-!
# C134: `i_cat`

Specification: the amplitudes of the periodic chain of any length, the trace of the product of the matrices, and turning all spins over.
-/

namespace Xmps.Spec

/-- the amplitude of the spins `s` on a ring of as many sites -/
noncomputable def ringAmp (D : ℕ) (A : ND ℂ) (s : List ℕ) : ℂ := ((s.map (toM3 D D A)).prod).trace

/-- all spins turned over -/
def turned (s : List ℕ) : List ℕ := s.map (1 - ·)

end Xmps.Spec

namespace Xmps.Examples

open Finset Matrix Spec

/-- the exchange of the two states of the bond -/
def bondX : Matrix (Fin 2) (Fin 2) ℂ := !![0, 1; 1, 0]

theorem bondX_sq : bondX * bondX = 1 := by
  ext i j
  fin_cases i <;> fin_cases j <;> simp [bondX]

/-- what `i_cat` returns -/
theorem iCat_ok (ε : ℝ) : ∃ A, iCat ε = .ok ⟨[A], 1, 2, 2⟩ ∧ A.shape = [2, 2, 2] ∧
    toM3 2 2 A 0 = !![1, (ε : ℂ); (ε : ℂ), (ε : ℂ)] ∧ toM3 2 2 A 1 = !![(ε : ℂ), (ε : ℂ); (ε : ℂ), 1] := by
  refine ⟨_, rfl, rfl, ?_, ?_⟩
  · ext i j
    fin_cases i <;> fin_cases j <;> simp [setAt]
  · ext i j
    fin_cases i <;> fin_cases j <;> simp [setAt]

/-- **C134**: `i_cat(ϵ)` is unchanged, for every `ϵ` and on rings of every length, if all spins are turned over. -/
theorem iCat_flip (ε : ℝ) : ∃ A, iCat ε = .ok ⟨[A], 1, 2, 2⟩ ∧ ∀ s : List ℕ, (∀ a ∈ s, a < 2) → ringAmp 2 A (turned s) = ringAmp 2 A s := by
  obtain ⟨A, e, -, h0, h1⟩ := iCat_ok ε
  have hX : ∀ a < 2, toM3 2 2 A (1 - a) = bondX * toM3 2 2 A a * bondX := by
    intro a ha
    interval_cases a
    · rw [h0, h1]
      ext i j
      fin_cases i <;> fin_cases j <;> simp [bondX, Matrix.mul_apply, Fin.sum_univ_two]
    · rw [h0, h1]
      ext i j
      fin_cases i <;> fin_cases j <;> simp [bondX, Matrix.mul_apply, Fin.sum_univ_two]
  have hp : ∀ s : List ℕ, (∀ a ∈ s, a < 2) → ((turned s).map (toM3 2 2 A)).prod = bondX * (s.map (toM3 2 2 A)).prod * bondX := by
    intro s hs
    induction s with
    | nil => simp [turned, bondX_sq]
    | cons a s ih =>
      have := ih fun b hb => hs b (List.mem_cons_of_mem _ hb)
      unfold turned at this
      rw [turned, List.map_cons, List.map_cons, List.prod_cons, List.map_cons, List.prod_cons, this, hX a (hs a List.mem_cons_self)]
      calc bondX * toM3 2 2 A a * bondX * (bondX * (s.map (toM3 2 2 A)).prod * bondX)
          = bondX * toM3 2 2 A a * (bondX * bondX) * (s.map (toM3 2 2 A)).prod * bondX := by simp only [Matrix.mul_assoc]
        _ = _ := by rw [bondX_sq]; simp only [Matrix.mul_assoc, Matrix.mul_one]
  refine ⟨A, e, fun s hs => ?_⟩
  rw [ringAmp, hp s hs, Matrix.trace_mul_comm, ← Matrix.mul_assoc, bondX_sq, Matrix.one_mul, ringAmp]

/-- **C134**: `i_cat(0)` is the cat state: on rings of every length the spins are all up or all down, with the same amplitude. -/
theorem iCat_zero : ∃ A, iCat 0 = .ok ⟨[A], 1, 2, 2⟩ ∧ ∀ s : List ℕ, s ≠ [] → (∀ a ∈ s, a < 2) →
    ringAmp 2 A s = if (∀ a ∈ s, a = 0) ∨ ∀ a ∈ s, a = 1 then 1 else 0 := by
  obtain ⟨A, e, -, h0, h1⟩ := iCat_ok 0
  have hd : ∀ a < 2, toM3 2 2 A a = diagonal fun i : Fin 2 => if a = i then (1 : ℂ) else 0 := by
    intro a ha
    interval_cases a
    · rw [h0]
      ext i j
      fin_cases i <;> fin_cases j <;> simp
    · rw [h1]
      ext i j
      fin_cases i <;> fin_cases j <;> simp
  have hp : ∀ s : List ℕ, (∀ a ∈ s, a < 2) → (s.map (toM3 2 2 A)).prod = diagonal fun i : Fin 2 => if ∀ a ∈ s, a = i then (1 : ℂ) else 0 := by
    intro s hs
    induction s with
    | nil => simp
    | cons a s ih =>
      rw [List.map_cons, List.prod_cons, ih fun b hb => hs b (List.mem_cons_of_mem _ hb), hd a (hs a List.mem_cons_self), diagonal_mul_diagonal]
      congr 1
      funext i
      by_cases h1 : a = i <;> by_cases h2 : ∀ b ∈ s, b = (i : ℕ) <;> simp [h1, h2]
  refine ⟨A, e, fun s hne hs => ?_⟩
  rw [ringAmp, hp s hs, trace_diagonal, Fin.sum_univ_two]
  obtain ⟨a, l, rfl⟩ := List.exists_cons_of_ne_nil hne
  by_cases c0 : ∀ b ∈ a :: l, b = 0
  · have c1 : ¬ ∀ b ∈ a :: l, b = 1 := fun h => by
      have := c0 a List.mem_cons_self
      have := h a List.mem_cons_self
      omega
    rw [if_pos (by simpa using c0), if_neg (by simpa using c1), if_pos (Or.inl c0), add_zero]
  · by_cases c1 : ∀ b ∈ a :: l, b = 1
    · rw [if_neg (by simpa using c0), if_pos (by simpa using c1), if_pos (Or.inr c1), zero_add]
    · rw [if_neg (by simpa using c0), if_neg (by simpa using c1), if_neg (by tauto), add_zero]

/-- **C134**, other `ϵ`: spins that are not all equal have an amplitude, `2 ϵ + 2 ϵ²` for two sites -/
theorem iCat_mixed {ε : ℝ} (h0 : ε ≠ 0) (h1 : ε ≠ -1) : ∃ A, iCat ε = .ok ⟨[A], 1, 2, 2⟩ ∧ ringAmp 2 A [0, 1] = 2 * ε + 2 * ε ^ 2 ∧ ringAmp 2 A [0, 1] ≠ 0 := by
  obtain ⟨A, e, -, a0, a1⟩ := iCat_ok ε
  have h : ringAmp 2 A [0, 1] = 2 * ε + 2 * ε ^ 2 := by
    simp [ringAmp, a0, a1, Matrix.trace, Fin.sum_univ_two]
    ring
  refine ⟨A, e, h, ?_⟩
  rw [h, show (2 * ε + 2 * ε ^ 2 : ℂ) = ((2 * ε * (1 + ε) : ℝ) : ℂ) by push_cast; ring]
  rw [Complex.ofReal_ne_zero]
  exact mul_ne_zero (mul_ne_zero two_ne_zero h0) (fun h => h1 (by linarith))

example := iCat_mixed (ε := 1 / 100) (by norm_num) (by norm_num)
example : turned [0, 1, 1] = [1, 0, 0] := rfl

end Xmps.Examples
