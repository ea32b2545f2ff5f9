import Verif.Lemmas.IsoGrid
import Verif.Spec.IsoPeps

/-!
# The overlap of two grids that agree and are isometric outside one site
-/

namespace Xmps.FPEPS

open Finset Spec

theorem sum_legPairs_in {inc : Prop} [Decidable inc] (h : inc) (e x x' : ℕ) (f : ℕ × ℕ → ℂ) :
    ∑ p ∈ legPairs inc e x x', f p = ∑ a ∈ range e, f (a, a) := by
  rw [legPairs, if_pos h, sum_image]
  intro a _ b _ hab
  exact (Prod.ext_iff.1 hab).1

theorem sum_legPairs_out {inc : Prop} [Decidable inc] (h : ¬inc) (e x x' : ℕ) (f : ℕ × ℕ → ℂ) :
    ∑ p ∈ legPairs inc e x x', f p = f (x, x') := by
  rw [legPairs, if_neg h, sum_singleton]

section

variable {m n : ℕ} {ph : Fin m → Fin n → ℕ} {vE : Fin (m + 1) → Fin n → ℕ} {hE : Fin m → Fin (n + 1) → ℕ}
  {g g' : Fin m → Fin n → ND ℂ}

/-- the doubled tensor -/
noncomputable def dbl (ph : Fin m → Fin n → ℕ) (g g' : Fin m → Fin n → ND ℂ) (j : Fin m) (i : Fin n) (u u' r r' d d' l l' : ℕ) : ℂ :=
  ∑ s ∈ range (ph j i), star ((g j i).val [s, u, r, d, l]) * (g' j i).val [s, u', r', d', l']

/-- the doubled row -/
noncomputable def dblRow (ph : Fin m → Fin n → ℕ) (hE : Fin m → Fin (n + 1) → ℕ) (g g' : Fin m → Fin n → ND ℂ) (j : Fin m) (v v' w w' : Fin n → ℕ) : ℂ :=
  ∑ h ∈ Fintype.piFinset (fun i => range (hE j i)), ∑ h' ∈ Fintype.piFinset (fun i => range (hE j i)),
    ∏ i, dbl ph g g' j i (v i) (v' i) (h i.succ) (h' i.succ) (w i) (w' i) (h i.castSucc) (h' i.castSucc)

theorem prod_sum_pairs {α : Type} [DecidableEq α] {m : ℕ} (S : Fin m → Finset α) (f : Fin m → α → α → ℂ) :
    ∏ j, ∑ a ∈ S j, ∑ b ∈ S j, f j a b = ∑ x ∈ Fintype.piFinset S, ∑ y ∈ Fintype.piFinset S, ∏ j, f j (x j) (y j) := by
  have := sum_piFinset_pairs S fun p => ∏ j, f j (p j).1 (p j).2
  refine Eq.trans ?_ this
  rw [← Finset.prod_univ_sum (fun j => S j ×ˢ S j) fun j p => f j p.1 p.2]
  exact prod_congr rfl fun j _ => (Finset.sum_product' _ _ _).symm

/-- the overlap as a chain of doubled rows -/
theorem braket_rows : pepsBraket ph vE vE hE hE g g' =
    ∑ v ∈ bondVals vE, ∑ v' ∈ bondVals vE, ∏ j, dblRow ph hE g g' j (v j.castSucc) (v' j.castSucc) (v j.succ) (v' j.succ) := by
  have s5 : ∀ s, star (pepsAmp vE hE g s) * pepsAmp vE hE g' s =
      ∑ v ∈ bondVals vE, ∑ v' ∈ bondVals vE, ∑ k ∈ bondVals hE, ∑ k' ∈ bondVals hE,
        star (∏ j, ∏ i, (g j i).val [s j i, v j.castSucc i, k j i.succ, v j.succ i, k j i.castSucc]) *
          ∏ j, ∏ i, (g' j i).val [s j i, v' j.castSucc i, k' j i.succ, v' j.succ i, k' j i.castSucc] := by
    intro s
    unfold pepsAmp
    rw [star_sum, Finset.sum_mul_sum]
    refine sum_congr rfl fun v _ => sum_congr rfl fun v' _ => ?_
    rw [star_sum, Finset.sum_mul_sum]
  unfold pepsBraket
  simp only [s5]
  rw [sum_comm]
  refine sum_congr rfl fun v _ => ?_
  rw [sum_comm]
  refine sum_congr rfl fun v' _ => ?_
  unfold dblRow
  rw [prod_sum_pairs, sum_comm]
  refine sum_congr rfl fun k _ => ?_
  rw [sum_comm]
  refine sum_congr rfl fun k' _ => ?_
  unfold dbl
  rw [Finset.prod_congr rfl fun j _ => Finset.prod_univ_sum _ _, Finset.prod_univ_sum]
  refine sum_congr rfl fun s _ => ?_
  simp only [Finset.prod_mul_distrib, star_prod]

variable {cj : Fin m} {ci : Fin n}

/-- a doubled row in which the incoming vertical legs are summed over -/
theorem row_iso (ox : OpenGrid vE hE) (hiso : IsoGrid ph vE hE g cj ci) (hg : ∀ j i, (j, i) ≠ (cj, ci) → g' j i = g j i)
    (j : Fin m) {v v' w w' : Fin n → ℕ} (hv : ∀ i, v i < vE j.castSucc i) (hv' : ∀ i, v' i < vE j.castSucc i)
    (hw : ∀ i, w i < vE j.succ i) (hw' : ∀ i, w' i < vE j.succ i) :
    (∑ h ∈ Fintype.piFinset (fun i => range (hE j i)), ∑ h' ∈ Fintype.piFinset (fun i => range (hE j i)), ∏ i,
      ∑ x ∈ legPairs (j ≤ cj) (vE j.castSucc i) (v i) (v' i), ∑ z ∈ legPairs (cj ≤ j) (vE j.succ i) (w i) (w' i),
        dbl ph g g' j i x.1 x.2 (h i.succ) (h' i.succ) z.1 z.2 (h i.castSucc) (h' i.castSucc)) =
    (∏ i, if i = ci then 1 else if (j ≤ cj ∨ v i = v' i) ∧ (cj ≤ j ∨ w i = w' i) then 1 else 0) *
      ∑ l ∈ range (hE j ci.castSucc), ∑ r ∈ range (hE j ci.succ),
        ∑ x ∈ legPairs (j ≤ cj) (vE j.castSucc ci) (v ci) (v' ci), ∑ z ∈ legPairs (cj ≤ j) (vE j.succ ci) (w ci) (w' ci),
          dbl ph g g' j ci x.1 x.2 r r z.1 z.2 l l := by
  have key : ∀ i, (j, i) ≠ (cj, ci) → ∀ b b' e e', (ci ≤ i ∨ b < hE j i.succ ∧ b' < hE j i.succ) →
      (i ≤ ci ∨ e < hE j i.castSucc ∧ e' < hE j i.castSucc) →
      (∑ y ∈ legPairs (ci ≤ i) (hE j i.succ) b b', ∑ q ∈ legPairs (i ≤ ci) (hE j i.castSucc) e e',
        ∑ x ∈ legPairs (j ≤ cj) (vE j.castSucc i) (v i) (v' i), ∑ z ∈ legPairs (cj ≤ j) (vE j.succ i) (w i) (w' i),
          dbl ph g g' j i x.1 x.2 y.1 y.2 z.1 z.2 q.1 q.2) =
        if (j ≤ cj ∨ v i = v' i) ∧ (ci ≤ i ∨ b = b') ∧ (cj ≤ j ∨ w i = w' i) ∧ (i ≤ ci ∨ e = e') then 1 else 0 := by
    intro i hne b b' e e' hb he
    rw [← hiso j i hne (v i) (v' i) b b' (w i) (w' i) e e' (.inr ⟨hv i, hv' i⟩) hb (.inr ⟨hw i, hw' i⟩) he]
    unfold dbl
    rw [hg j i hne]
    simp only [← Finset.sum_product']
    refine Finset.sum_nbij' (fun t => (t.2.2.2.2, t.2.2.1, t.1, t.2.2.2.1, t.2.1))
      (fun t => (t.2.2.1, t.2.2.2.2, t.2.1, t.2.2.2.1, t.1)) ?_ ?_ ?_ ?_ ?_
    · intro t ht
      simp only [mem_product] at ht ⊢
      tauto
    · intro t ht
      simp only [mem_product] at ht ⊢
      tauto
    · intro t _; rfl
    · intro t _; rfl
    · intro t _; rfl
  refine sandwich (fun i l l' r r' => ∑ x ∈ legPairs (j ≤ cj) (vE j.castSucc i) (v i) (v' i),
    ∑ z ∈ legPairs (cj ≤ j) (vE j.succ i) (w i) (w' i), dbl ph g g' j i x.1 x.2 r r' z.1 z.2 l l')
    (fun i => range (hE j i)) (fun i => if (j ≤ cj ∨ v i = v' i) ∧ (cj ≤ j ∨ w i = w' i) then 1 else 0) 0 0 ci ?_ ?_ ?_ ?_
  · rw [ox.left, range_one]
  · rw [ox.right, range_one]
  · intro i hi l hl l' hl'
    have hne : (j, i) ≠ (cj, ci) := fun h => absurd (Prod.ext_iff.1 h).2 (ne_of_gt hi)
    have h1 : ci ≤ i := le_of_lt hi
    have h2 : ¬ i ≤ ci := not_le.2 hi
    have k := key i hne 0 0 l l' (.inl h1) (.inr ⟨mem_range.1 hl, mem_range.1 hl'⟩)
    rw [sum_legPairs_in h1] at k
    simp only [sum_legPairs_out h2] at k
    rw [k]
    simp only [h1, h2, true_or, false_or, true_and]
    split_ifs <;> tauto
  · intro i hi r hr r' hr'
    have hne : (j, i) ≠ (cj, ci) := fun h => absurd (Prod.ext_iff.1 h).2 (ne_of_lt hi)
    have h1 : i ≤ ci := le_of_lt hi
    have h2 : ¬ ci ≤ i := not_le.2 hi
    have k := key i hne r r' 0 0 (.inr ⟨mem_range.1 hr, mem_range.1 hr'⟩) (.inl h1)
    rw [sum_legPairs_out h2] at k
    simp only [sum_legPairs_in h1] at k
    rw [k]
    simp only [h1, h2, true_or, false_or, true_and]
    split_ifs <;> tauto

/-- the same for a row without the centre -/
theorem row_iso_off (ox : OpenGrid vE hE) (hiso : IsoGrid ph vE hE g cj ci) (hg : ∀ j i, (j, i) ≠ (cj, ci) → g' j i = g j i)
    {j : Fin m} (hj : j ≠ cj) {v v' w w' : Fin n → ℕ} (hv : ∀ i, v i < vE j.castSucc i) (hv' : ∀ i, v' i < vE j.castSucc i)
    (hw : ∀ i, w i < vE j.succ i) (hw' : ∀ i, w' i < vE j.succ i) :
    (∑ h ∈ Fintype.piFinset (fun i => range (hE j i)), ∑ h' ∈ Fintype.piFinset (fun i => range (hE j i)), ∏ i,
      ∑ x ∈ legPairs (j ≤ cj) (vE j.castSucc i) (v i) (v' i), ∑ z ∈ legPairs (cj ≤ j) (vE j.succ i) (w i) (w' i),
        dbl ph g g' j i x.1 x.2 (h i.succ) (h' i.succ) z.1 z.2 (h i.castSucc) (h' i.castSucc)) =
    ∏ i, if (j ≤ cj ∨ v i = v' i) ∧ (cj ≤ j ∨ w i = w' i) then 1 else 0 := by
  have hne : (j, ci) ≠ (cj, ci) := fun h => hj (Prod.ext_iff.1 h).1
  rw [row_iso ox hiso hg j hv hv' hw hw']
  have k := hiso j ci hne (v ci) (v' ci) 0 0 (w ci) (w' ci) 0 0 (.inr ⟨hv ci, hv' ci⟩) (.inl le_rfl) (.inr ⟨hw ci, hw' ci⟩) (.inl le_rfl)
  have e : (∑ l ∈ range (hE j ci.castSucc), ∑ r ∈ range (hE j ci.succ),
        ∑ x ∈ legPairs (j ≤ cj) (vE j.castSucc ci) (v ci) (v' ci), ∑ z ∈ legPairs (cj ≤ j) (vE j.succ ci) (w ci) (w' ci),
          dbl ph g g' j ci x.1 x.2 r r z.1 z.2 l l) = if (j ≤ cj ∨ v ci = v' ci) ∧ (cj ≤ j ∨ w ci = w' ci) then 1 else 0 := by
    simp only [sum_legPairs_in (le_refl ci)] at k
    simp only [le_refl, true_or, true_and, and_true] at k
    rw [← k]
    unfold dbl
    rw [hg j ci hne]
    simp only [← Finset.sum_product']
    refine Finset.sum_nbij' (fun t => (t.2.2.2.2, t.2.2.1, t.2.1, t.2.2.2.1, t.1))
      (fun t => (t.2.2.2.2, t.2.2.1, t.2.1, t.2.2.2.1, t.1)) ?_ ?_ ?_ ?_ ?_
    · intro t ht
      simp only [mem_product] at ht ⊢
      tauto
    · intro t ht
      simp only [mem_product] at ht ⊢
      tauto
    · intro t _; rfl
    · intro t _; rfl
    · intro t _; rfl
  rw [e, ← Finset.mul_prod_erase univ (fun i => if (j ≤ cj ∨ v i = v' i) ∧ (cj ≤ j ∨ w i = w' i) then (1 : ℂ) else 0) (mem_univ ci),
    ← Finset.mul_prod_erase univ _ (mem_univ ci), if_pos rfl, one_mul, mul_comm]
  congr 1
  exact prod_congr rfl fun i hi => by rw [if_neg (Finset.ne_of_mem_erase hi)]

theorem prod_delta {n : ℕ} (w w' : Fin n → ℕ) : (∏ i, if w i = w' i then (1 : ℂ) else 0) = if w = w' then 1 else 0 := by
  split_ifs with h
  · subst h
    simp
  · obtain ⟨i, hi⟩ := Function.ne_iff.1 h
    exact prod_eq_zero (mem_univ i) (if_neg hi)

/-- summing a row over its upper bonds -/
theorem sum_up (j : Fin m) (w w' : Fin n → ℕ) :
    ∑ v ∈ Fintype.piFinset (fun i => range (vE j.castSucc i)), dblRow ph hE g g' j v v w w' =
    ∑ h ∈ Fintype.piFinset (fun i => range (hE j i)), ∑ h' ∈ Fintype.piFinset (fun i => range (hE j i)), ∏ i, ∑ u ∈ range (vE j.castSucc i),
      dbl ph g g' j i u u (h i.succ) (h' i.succ) (w i) (w' i) (h i.castSucc) (h' i.castSucc) := by
  unfold dblRow
  rw [sum_comm]
  refine sum_congr rfl fun h _ => ?_
  rw [sum_comm]
  refine sum_congr rfl fun h' _ => ?_
  rw [Finset.prod_univ_sum]

/-- summing a row over its lower bonds -/
theorem sum_down (j : Fin m) (v v' : Fin n → ℕ) :
    ∑ w ∈ Fintype.piFinset (fun i => range (vE j.succ i)), dblRow ph hE g g' j v v' w w =
    ∑ h ∈ Fintype.piFinset (fun i => range (hE j i)), ∑ h' ∈ Fintype.piFinset (fun i => range (hE j i)), ∏ i, ∑ d ∈ range (vE j.succ i),
      dbl ph g g' j i (v i) (v' i) (h i.succ) (h' i.succ) d d (h i.castSucc) (h' i.castSucc) := by
  unfold dblRow
  rw [sum_comm]
  refine sum_congr rfl fun h _ => ?_
  rw [sum_comm]
  refine sum_congr rfl fun h' _ => ?_
  rw [Finset.prod_univ_sum]

/-- the overlap of two grids that are the same isometries outside the centre is the overlap of the two central tensors -/
theorem iso_braket (ox : OpenGrid vE hE) (hvp : ∀ j i, 0 < vE j i) (hiso : IsoGrid ph vE hE g cj ci) (hg : ∀ j i, (j, i) ≠ (cj, ci) → g' j i = g j i) :
    pepsBraket ph vE vE hE hE g g' = ∑ s ∈ range (ph cj ci), ∑ u ∈ range (vE cj.castSucc ci), ∑ r ∈ range (hE cj ci.succ),
      ∑ d ∈ range (vE cj.succ ci), ∑ l ∈ range (hE cj ci.castSucc), star ((g cj ci).val [s, u, r, d, l]) * (g' cj ci).val [s, u, r, d, l] := by
  have sing : ∀ {e : Fin n → ℕ}, (∀ i, e i = 1) → Fintype.piFinset (fun i => range (e i)) = {fun _ => 0} := by
    intro e he
    ext v
    simp only [Fintype.mem_piFinset, he, mem_range, Nat.lt_one_iff, mem_singleton]
    exact ⟨fun h => funext h, fun h i => by rw [h]⟩
  rw [braket_rows]
  have k := sandwich (dblRow ph hE g g') (fun j => Fintype.piFinset fun i => range (vE j i)) (fun _ => 1) (fun _ => 0) (fun _ => 0) cj
    (sing ox.top) (sing ox.bottom) ?_ ?_
  · refine k.trans ?_
    simp only [ite_self, prod_const_one, one_mul]
    rw [sum_comm]
    have e1 : ∀ w, ∑ v ∈ Fintype.piFinset (fun i => range (vE cj.castSucc i)), dblRow ph hE g g' cj v v w w = _ := fun w => sum_up cj w w
    rw [sum_congr rfl fun w _ => e1 w, sum_comm]
    have e2 : ∀ h : Fin (n + 1) → ℕ, (∑ w ∈ Fintype.piFinset (fun i => range (vE cj.succ i)), ∑ h' ∈ Fintype.piFinset (fun i => range (hE cj i)),
        ∏ i, ∑ u ∈ range (vE cj.castSucc i), dbl ph g g' cj i u u (h i.succ) (h' i.succ) (w i) (w i) (h i.castSucc) (h' i.castSucc)) =
        ∑ h' ∈ Fintype.piFinset (fun i => range (hE cj i)), ∏ i, ∑ x ∈ legPairs (cj ≤ cj) (vE cj.castSucc i) 0 0,
          ∑ z ∈ legPairs (cj ≤ cj) (vE cj.succ i) 0 0, dbl ph g g' cj i x.1 x.2 (h i.succ) (h' i.succ) z.1 z.2 (h i.castSucc) (h' i.castSucc) := by
      intro h
      rw [sum_comm]
      refine sum_congr rfl fun h' _ => ?_
      simp only [sum_legPairs_in (le_refl cj)]
      rw [← Finset.prod_univ_sum (fun i => range (vE cj.succ i)) fun i d => ∑ u ∈ range (vE cj.castSucc i),
        dbl ph g g' cj i u u (h i.succ) (h' i.succ) d d (h i.castSucc) (h' i.castSucc)]
      exact prod_congr rfl fun i _ => sum_comm
    rw [sum_congr rfl fun h _ => e2 h, row_iso (v := fun _ => 0) (v' := fun _ => 0) (w := fun _ => 0) (w' := fun _ => 0) ox hiso hg cj
      (fun i => hvp _ _) (fun i => hvp _ _) (fun i => hvp _ _) (fun i => hvp _ _)]
    simp only [le_refl, true_or, and_self, if_true, ite_self, prod_const_one, one_mul, sum_legPairs_in]
    unfold dbl
    simp only [← Finset.sum_product']
    refine Finset.sum_nbij' (fun t => (t.2.2.2.2, t.2.2.1, t.2.1, t.2.2.2.1, t.1))
      (fun t => (t.2.2.2.2, t.2.2.1, t.2.1, t.2.2.2.1, t.1)) ?_ ?_ ?_ ?_ ?_
    · intro t ht
      simp only [mem_product] at ht ⊢
      tauto
    · intro t ht
      simp only [mem_product] at ht ⊢
      tauto
    · intro t _; rfl
    · intro t _; rfl
    · intro t _; rfl
  · intro j hj v hv v' hv'
    rw [Fintype.mem_piFinset] at hv hv'
    have h1 : cj ≤ j := le_of_lt hj
    have h2 : ¬ j ≤ cj := not_le.2 hj
    refine (sum_down j v v').trans ?_
    have r := row_iso_off (w := fun _ => 0) (w' := fun _ => 0) ox hiso hg (ne_of_gt hj) (fun i => mem_range.1 (hv i)) (fun i => mem_range.1 (hv' i))
      (fun i => hvp _ _) (fun i => hvp _ _)
    simp only [sum_legPairs_in h1, sum_legPairs_out h2] at r
    simp only [h1, h2, true_or, false_or, and_true] at r
    rw [r, prod_delta]
  · intro j hj w hw w' hw'
    rw [Fintype.mem_piFinset] at hw hw'
    have h1 : j ≤ cj := le_of_lt hj
    have h2 : ¬ cj ≤ j := not_le.2 hj
    refine (sum_up j w w').trans ?_
    have r := row_iso_off (v := fun _ => 0) (v' := fun _ => 0) ox hiso hg (ne_of_lt hj) (fun i => hvp _ _) (fun i => hvp _ _)
      (fun i => mem_range.1 (hw i)) (fun i => mem_range.1 (hw' i))
    simp only [sum_legPairs_in h1, sum_legPairs_out h2] at r
    simp only [h1, h2, true_or, false_or, true_and] at r
    rw [r, prod_delta]

end

end Xmps.FPEPS
