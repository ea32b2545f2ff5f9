import Verif.Lemmas.SchmidtUnique
import Verif.Lemmas.Envs
import Mathlib.Analysis.Convex.SpecificFunctions.Basic
import Mathlib.Analysis.Convex.Jensen
import Mathlib.LinearAlgebra.Matrix.Rank

/-!
# Entropies of Schmidt weights, and the Schmidt rank of a chain
-/

namespace Xmps

open Finset Spec

/-- the entropy of weights -/
noncomputable def Spec.shannon (lam : List ℝ) : ℝ := -(lam.map fun x => x * Real.log x).sum

/-- the Rényi entropy of order 2 of weights -/
noncomputable def Spec.renyiTwo (lam : List ℝ) : ℝ := -Real.log (lam.map fun x => x ^ 2).sum

/-- Jensen's inequality for the logarithm -/
theorem jensen_log {lam : List ℝ} (hp : ∀ x ∈ lam, 0 < x) (h1 : lam.sum = 1) {f : ℝ → ℝ} (hf : ∀ x ∈ lam, 0 < f x) :
    (lam.map fun x => x * Real.log (f x)).sum ≤ Real.log (lam.map fun x => x * f x).sum := by
  rw [sum_map_getD, sum_map_getD]
  have mem : ∀ a ∈ range lam.length, lam.getD a 0 ∈ lam := by
    intro a ha
    rw [List.getD_eq_getElem _ _ (by simpa using ha)]
    exact List.getElem_mem _
  have := strictConcaveOn_log_Ioi.concaveOn.le_map_sum (t := range lam.length) (w := fun a => lam.getD a 0) (p := fun a => f (lam.getD a 0))
    (fun a ha => (hp _ (mem a ha)).le) (by
      have := sum_map_getD id lam
      simp only [List.map_id, id] at this
      rw [← this, h1]) (fun a ha => hf _ (mem a ha))
  simpa [smul_eq_mul] using this

theorem shannon_le_log {lam : List ℝ} (hp : ∀ x ∈ lam, 0 < x) (h1 : lam.sum = 1) : Spec.shannon lam ≤ Real.log lam.length := by
  have := jensen_log hp h1 (f := fun x => x⁻¹) fun x hx => inv_pos.2 (hp x hx)
  have e1 : (lam.map fun x => x * Real.log x⁻¹).sum = Spec.shannon lam := by
    unfold Spec.shannon
    induction lam with
    | nil => simp
    | cons x l ih =>
      clear h1 hp this
      simp only [List.map_cons, List.sum_cons, Real.log_inv]
      have : ∀ l : List ℝ, (l.map fun x => x * -Real.log x).sum = -(l.map fun x => x * Real.log x).sum := by
        intro l
        induction l with
        | nil => simp
        | cons y l ih => simp only [List.map_cons, List.sum_cons, ih]; ring
      rw [this]
      ring
  have e2 : (lam.map fun x => x * x⁻¹).sum = lam.length := by
    rw [List.map_congr_left (g := fun _ => (1 : ℝ)) fun x hx => mul_inv_cancel₀ (hp x hx).ne']
    simp
  rw [e1, e2] at this
  exact this

theorem renyiTwo_le_shannon {lam : List ℝ} (hp : ∀ x ∈ lam, 0 < x) (h1 : lam.sum = 1) : Spec.renyiTwo lam ≤ Spec.shannon lam := by
  have := jensen_log hp h1 (f := fun x => x) hp
  unfold Spec.renyiTwo Spec.shannon
  have e : (lam.map fun x => x ^ 2) = lam.map fun x => x * x := List.map_congr_left fun x _ => sq x
  rw [e]
  linarith

theorem weight_le_one {lam : List ℝ} (hp : ∀ x ∈ lam, 0 < x) (h1 : lam.sum = 1) : ∀ x ∈ lam, x ≤ 1 := by
  intro x hx
  rw [← h1]
  exact List.single_le_sum (fun y hy => (hp y hy).le) x hx

theorem renyiTwo_nonneg {lam : List ℝ} (hp : ∀ x ∈ lam, 0 < x) (h1 : lam.sum = 1) : 0 ≤ Spec.renyiTwo lam := by
  unfold Spec.renyiTwo
  have h2 : (lam.map fun x => x ^ 2).sum ≤ 1 := by
    have := List.sum_le_sum (l := lam) (f := fun x => x ^ 2) (g := fun x => x) fun x hx => by
      have := weight_le_one hp h1 x hx
      have := hp x hx
      nlinarith
    simpa [h1] using this
  have h0 : 0 ≤ (lam.map fun x => x ^ 2).sum := List.sum_nonneg (by
    intro y hy
    obtain ⟨x, -, rfl⟩ := List.mem_map.1 hy
    positivity)
  have := Real.log_nonpos h0 h2
  linarith

theorem shannon_nonneg {lam : List ℝ} (hp : ∀ x ∈ lam, 0 < x) (h1 : lam.sum = 1) : 0 ≤ Spec.shannon lam :=
  (renyiTwo_nonneg hp h1).trans (renyiTwo_le_shannon hp h1)

/-- the entropies vanish exactly if there is one weight -/
theorem renyiTwo_eq_zero {lam : List ℝ} (hp : ∀ x ∈ lam, 0 < x) (h1 : lam.sum = 1) : Spec.renyiTwo lam = 0 ↔ lam.length = 1 := by
  constructor
  · intro h
    unfold Spec.renyiTwo at h
    have hne : lam ≠ [] := by
      rintro rfl
      simp at h1
    have hpos : 0 < (lam.map fun x => x ^ 2).sum := by
      obtain ⟨x, l, rfl⟩ := List.exists_cons_of_ne_nil hne
      rw [List.map_cons, List.sum_cons]
      have : 0 ≤ (l.map fun x => x ^ 2).sum := List.sum_nonneg (by
        intro y hy
        obtain ⟨z, -, rfl⟩ := List.mem_map.1 hy
        positivity)
      have := hp x (by simp)
      positivity
    have h2 : (lam.map fun x => x ^ 2).sum = 1 := by
      have := neg_eq_zero.1 h
      rcases Real.log_eq_zero.1 this with h | h | h
      · exact absurd h hpos.ne'
      · exact h
      · linarith
    -- `Σ x (1 - x) = 0` with non-negative terms
    match lam, hne with
    | [x], _ => rfl
    | x :: y :: l, _ =>
      exfalso
      have hx := hp x (by simp)
      have hy := hp y (by simp)
      have hl : 0 ≤ l.sum := List.sum_nonneg fun z hz => (hp z (by simp [hz])).le
      have hl2 : (l.map fun x => x ^ 2).sum ≤ l.sum := by
        have := List.sum_le_sum (l := l) (f := fun x => x ^ 2) (g := fun x => x) fun z hz => by
          have h3 := weight_le_one hp h1 z (by simp [hz])
          have h4 := hp z (by simp [hz])
          nlinarith
        simpa using this
      simp only [List.map_cons, List.sum_cons] at h2 h1
      nlinarith
  · intro h
    obtain ⟨x, rfl⟩ := List.length_eq_one_iff.1 h
    have : x = 1 := by simpa using h1
    subst this
    simp [Spec.renyiTwo]

theorem shannon_eq_zero {lam : List ℝ} (hp : ∀ x ∈ lam, 0 < x) (h1 : lam.sum = 1) : Spec.shannon lam = 0 ↔ lam.length = 1 := by
  constructor
  · intro h
    exact (renyiTwo_eq_zero hp h1).1 (le_antisymm (h ▸ renyiTwo_le_shannon hp h1) (renyiTwo_nonneg hp h1))
  · intro h
    obtain ⟨x, rfl⟩ := List.length_eq_one_iff.1 h
    have : x = 1 := by simpa using h1
    subst this
    simp [Spec.shannon]

/-- **C17** the Schmidt rank of a state across a cut is at most the number of terms of any decomposition into products -/
theorem Spec.SchmidtAt.rank_le {ds1 ds2 : List ℕ} {ψ : List ℕ → ℂ} {lam : List ℝ} (h : SchmidtAt ds1 ds2 ψ lam) {n : ℕ} {f g : ℕ → List ℕ → ℂ}
    (hfg : ∀ s1, InB ds1 s1 → ∀ s2, InB ds2 s2 → ψ (s1 ++ s2) = ∑ c ∈ range n, f c s1 * g c s2) : lam.length ≤ n := by
  obtain ⟨hp, u, v, h1, h2, h3⟩ := h
  set k := lam.length with hk
  let P : Matrix (Fin k) (Fin n) ℂ := fun a c => sumIdx ds1 fun s => star (u a s) * f c s
  let Q : Matrix (Fin n) (Fin k) ℂ := fun c b => sumIdx ds2 fun s => g c s * star (v b s)
  have hPQ : ∀ a b : Fin k, (P * Q) a b = if a = b then (Real.sqrt (lam.getD a 0) : ℂ) else 0 := by
    intro a b
    have e1 : ∀ s2, InB ds2 s2 → (Real.sqrt (lam.getD a 0) : ℂ) * v a s2 = ∑ c ∈ range n, sumIdx ds1 (fun s1 => star (u a s1) * f c s1) * g c s2 := by
      intro s2 hs
      have l1 := schmidt_contract h1 (u a) hs
      have l2 := schmidt_contract (ψ := ψ) (σ := fun _ => (1 : ℂ)) (u := f) (v := g) (n := n) (fun s1 hs1 s2 hs2 => by
        rw [hfg s1 hs1 s2 hs2]
        exact Finset.sum_congr rfl fun c _ => by ring) (u a) hs
      simp only [one_mul] at l2
      rw [← l2, l1, Finset.sum_congr rfl fun b hb => by rw [h2 a a.2 b (by simpa using hb)]]
      simp [k]
    have e2 : (if a = b then (Real.sqrt (lam.getD a 0) : ℂ) else 0) = sumIdx ds2 fun s2 => ((Real.sqrt (lam.getD a 0) : ℂ) * v a s2) * star (v b s2) := by
      rw [sumIdx_congr (g := fun s2 => (Real.sqrt (lam.getD a 0) : ℂ) * (star (v b s2) * v a s2)) fun s _ => by ring, sumIdx_mul_left, h3 b b.2 a a.2]
      by_cases hab : a = b
      · simp [hab]
      · rw [if_neg hab, if_neg (fun e => hab (Fin.ext e.symm)), mul_zero]
    rw [e2, sumIdx_congr fun s2 hs => by rw [e1 s2 hs, Finset.sum_mul], sumIdx_finset_sum, Matrix.mul_apply, Finset.sum_range]
    refine Finset.sum_congr rfl fun c _ => ?_
    rw [sumIdx_congr (g := fun s2 => sumIdx ds1 (fun s1 => star (u a s1) * f c s1) * (g c s2 * star (v b s2))) fun s _ => by ring, sumIdx_mul_left]
  let R : Matrix (Fin k) (Fin k) ℂ := Matrix.diagonal fun a => ((Real.sqrt (lam.getD a 0) : ℂ))⁻¹
  have hone : P * (Q * R) = 1 := by
    rw [← Matrix.mul_assoc]
    ext a b
    rw [Matrix.mul_diagonal, hPQ, Matrix.one_apply]
    by_cases hab : a = b
    · subst hab
      rw [if_pos rfl, if_pos rfl, mul_inv_cancel₀]
      have : 0 < lam.getD a 0 := by
        rw [List.getD_eq_getElem _ _ a.2]
        exact hp _ (List.getElem_mem _)
      exact_mod_cast (Real.sqrt_pos.2 this).ne'
    · simp [hab]
  have hr : (1 : Matrix (Fin k) (Fin k) ℂ).rank = k := by simp [Matrix.rank_one]
  rw [← hone] at hr
  calc k = (P * (Q * R)).rank := hr.symm
    _ ≤ P.rank := Matrix.rank_mul_le_left _ _
    _ ≤ n := by simpa using Matrix.rank_le_width P

/-- **C17** the Schmidt rank of the state of a chain across a bond is at most the extent of that bond -/
theorem schmidt_rank_bond {ds : List ℕ} {As : List (ND ℂ)} (hc : MpsChain ds As 1 1) (hne : As ≠ []) {m : ℕ} {n : ℕ}
    (hn : MpsChain (ds.take m) (As.take m) 1 n) {z : ℂ} {lam : List ℝ}
    (h : SchmidtAt (ds.take m) (ds.drop m) (fun s => psi As s / z) lam) : lam.length ≤ n := by
  refine h.rank_le (f := fun c s => amp (As.take m) s 0 c) (g := fun c s => amp (As.drop m) s c 0 / z) fun s1 hs1 s2 hs2 => ?_
  have hin : InB ds (s1 ++ s2) := by
    have := InB.append hs1 hs2
    rwa [List.take_append_drop] at this
  show psi As (s1 ++ s2) / z = _
  rw [psi_eq_amp hc hne hin.length_eq]
  conv_lhs => rw [← List.take_append_drop m As]
  rw [amp_append hn hs1.length_eq 0 0 one_pos, Finset.sum_div]
  exact Finset.sum_congr rfl fun c _ => by rw [mul_div_assoc]

end Xmps
