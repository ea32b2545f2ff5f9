import Verif.Props.PepsRecombine
import Verif.Lemmas.Chain

/-!
# `fPEPS.from_mps`: a chain wound through a grid
-/

namespace Xmps.FPEPS

open Finset Spec

/-! ## One tensor -/

theorem reshape_T {A : ND ℂ} {d a b : ℕ} (hA : A.shape = [d, a, b]) :
    ∃ B, A.transpose [0, 2, 1] = .ok B ∧ B.shape = [d, b, a] ∧ ∀ s i j, B.val [s, j, i] = A.val [s, i, j] := by
  refine ⟨A.transposeR [0, 2, 1], ND.transpose_ok (by simp only [ND.rank, hA, List.length_cons, List.length_nil]; decide), ?_, ?_⟩
  · simp [ND.transposeR, ND.dim, hA]
  · intro s i j
    simp [ND.transposeR, ND.rank, hA, List.range_succ]

/-- a tensor of a row that runs to the right -/
theorem snakeTensor_even {A : ND ℂ} {n d a b j : ℕ} (hA : A.shape = [d, a, b]) (hj : j % 2 = 0) (i : Fin (n + 2)) :
    ∃ C, snakeTensor (n + 2) i j A = .ok C ∧
      C.shape = [d, if i = 0 then a else 1, if i = Fin.last _ then 1 else b, if i = Fin.last _ then b else 1, if i = 0 then 1 else a] ∧
      ∀ s < d, ∀ u < (if i = 0 then a else 1), ∀ r < (if i = Fin.last _ then 1 else b), ∀ e < (if i = Fin.last _ then b else 1),
        ∀ l < (if i = 0 then 1 else a),
          C.val [s, u, r, e, l] = A.val [s, if i = 0 then u else l, if i = Fin.last _ then e else r] := by
  obtain ⟨B, hB1, hB2, hB3⟩ := reshape_T hA
  unfold snakeTensor
  rw [hA]
  simp only [hj, if_true]
  by_cases hl : i = Fin.last _
  · have hi : ((Fin.last (n + 1) : Fin (n + 2)) : ℕ) = n + 2 - 1 := by simp
    simp only [hl, hi, if_true, (Fin.last_pos).ne', if_false]
    refine ⟨B.reshapeR [d, 1, 1, b, a], ?_, rfl, ?_⟩
    · rw [hB1, ok_bind, ND.reshape_ok_any]
      rw [hB2]
      simp
    · intro s hs u hu r hr e he l hll
      rw [← hB3]
      refine ND.reshapeR_val_any ?_ ?_
      · rw [hB2]
        exact ⟨hs, he, hll, trivial⟩
      · rw [hB2]
        simp only [ravel_cons, ravel_nil, List.prod_cons, List.prod_nil]
        rw [show u = 0 by omega, show r = 0 by omega]
        ring
  · have hi : ¬ (i : ℕ) = n + 2 - 1 := fun h => hl (Fin.ext (by simp [h]))
    simp only [hl, hi, if_false]
    by_cases h0 : i = 0
    · simp only [h0, Fin.val_zero, if_true]
      refine ⟨A.reshapeR [d, a, b, 1, 1], ?_, rfl, ?_⟩
      · rw [ND.reshape_ok_any]
        rw [hA]
        simp
      · intro s hs u hu r hr e he l hll
        refine ND.reshapeR_val_any ?_ ?_
        · rw [hA]
          exact ⟨hs, hu, hr, trivial⟩
        · rw [hA]
          simp only [ravel_cons, ravel_nil, List.prod_cons, List.prod_nil]
          rw [show e = 0 by omega, show l = 0 by omega]
          ring
    · have hi0 : ¬ (i : ℕ) = 0 := fun h => h0 (Fin.ext h)
      simp only [h0, hi0, if_false]
      refine ⟨B.reshapeR [d, 1, b, 1, a], ?_, rfl, ?_⟩
      · rw [hB1, ok_bind, ND.reshape_ok_any]
        rw [hB2]
        simp
      · intro s hs u hu r hr e he l hll
        rw [← hB3]
        refine ND.reshapeR_val_any ?_ ?_
        · rw [hB2]
          exact ⟨hs, hr, hll, trivial⟩
        · rw [hB2]
          simp only [ravel_cons, ravel_nil, List.prod_cons, List.prod_nil]
          rw [show u = 0 by omega, show e = 0 by omega]
          ring

/-- a tensor of a row that runs to the left -/
theorem snakeTensor_odd {A : ND ℂ} {n d a b j : ℕ} (hA : A.shape = [d, a, b]) (hj : ¬ j % 2 = 0) (i : Fin (n + 2)) :
    ∃ C, snakeTensor (n + 2) i j A = .ok C ∧
      C.shape = [d, if i = Fin.last _ then a else 1, if i = Fin.last _ then 1 else a, if i = 0 then b else 1, if i = 0 then 1 else b] ∧
      ∀ s < d, ∀ u < (if i = Fin.last _ then a else 1), ∀ r < (if i = Fin.last _ then 1 else a), ∀ e < (if i = 0 then b else 1),
        ∀ l < (if i = 0 then 1 else b),
          C.val [s, u, r, e, l] = A.val [s, if i = Fin.last _ then u else r, if i = 0 then e else l] := by
  unfold snakeTensor
  rw [hA]
  simp only [hj, if_false]
  have hre : ∀ sh : List ℕ, sh.prod = d * (a * b) → A.reshape sh = .ok (A.reshapeR sh) := fun sh h => by
    rw [ND.reshape_ok_any]
    rw [hA, h]
    simp
  by_cases hl : i = Fin.last _
  · have hi : ((Fin.last (n + 1) : Fin (n + 2)) : ℕ) = n + 2 - 1 := by simp
    simp only [hl, hi, if_true, (Fin.last_pos).ne', if_false]
    refine ⟨A.reshapeR [d, a, 1, 1, b], hre _ (by simp), rfl, ?_⟩
    intro s hs u hu r hr e he l hll
    refine ND.reshapeR_val_any ?_ ?_
    · rw [hA]
      exact ⟨hs, hu, hll, trivial⟩
    · rw [hA]
      simp only [ravel_cons, ravel_nil, List.prod_cons, List.prod_nil]
      rw [show r = 0 by omega, show e = 0 by omega]
      ring
  · have hi : ¬ (i : ℕ) = n + 2 - 1 := fun h => hl (Fin.ext (by simp [h]))
    simp only [hl, hi, if_false]
    by_cases h0 : i = 0
    · simp only [h0, Fin.val_zero, if_true]
      refine ⟨A.reshapeR [d, 1, a, b, 1], hre _ (by simp), rfl, ?_⟩
      intro s hs u hu r hr e he l hll
      refine ND.reshapeR_val_any ?_ ?_
      · rw [hA]
        exact ⟨hs, hr, he, trivial⟩
      · rw [hA]
        simp only [ravel_cons, ravel_nil, List.prod_cons, List.prod_nil]
        rw [show u = 0 by omega, show l = 0 by omega]
        ring
    · have hi0 : ¬ (i : ℕ) = 0 := fun h => h0 (Fin.ext h)
      simp only [h0, hi0, if_false]
      refine ⟨A.reshapeR [d, 1, a, 1, b], hre _ (by simp), rfl, ?_⟩
      intro s hs u hu r hr e he l hll
      refine ND.reshapeR_val_any ?_ ?_
      · rw [hA]
        exact ⟨hs, hr, hll, trivial⟩
      · rw [hA]
        simp only [ravel_cons, ravel_nil, List.prod_cons, List.prod_nil]
        rw [show u = 0 by omega, show e = 0 by omega]
        ring

/-! ## Sums over paths -/

/-- the amplitude of a chain as a sum over the values of its bonds -/
theorem amp_path : ∀ {n : ℕ} (T : Fin n → ND ℂ) (s : Fin n → ℕ) (p : Fin n → ℕ) (D : Fin (n + 1) → ℕ)
    (_ : ∀ t, (T t).shape = [p t, D t.castSucc, D t.succ]) (a b : ℕ) (_ : a < D 0),
    amp (List.ofFn T) (List.ofFn s) a b = ∑ k ∈ Fintype.piFinset (fun t => range (D t)),
      if k 0 = a ∧ k (Fin.last n) = b then ∏ t, (T t).val [s t, k t.castSucc, k t.succ] else 0
  | 0, T, s, p, D, _, a, b, ha => by
    rw [sum_piFinset_cons, sum_eq_single_of_mem a (mem_range.2 ha)]
    · have hz : (Fintype.piFinset fun i : Fin 0 => range (D i.succ)) = {Fin.elim0} := by
        ext v
        simp only [Fintype.mem_piFinset, mem_singleton]
        exact ⟨fun _ => Subsingleton.elim _ _, fun _ i => i.elim0⟩
      rw [hz, sum_singleton]
      simp
    · intro c _ hc
      exact sum_eq_zero fun v _ => if_neg fun hh => hc hh.1
  | n + 1, T, s, p, D, h, a, b, ha => by
    rw [List.ofFn_succ, List.ofFn_succ, amp_cons, sum_piFinset_cons, sum_eq_single_of_mem a (mem_range.2 ha)]
    · have hd : (T 0).dim 2 = D (Fin.succ 0) := by simp [ND.dim, h 0]
      rw [hd, sum_congr rfl fun c hc => by
        rw [amp_path (fun t : Fin n => T t.succ) (fun t => s t.succ) (fun t => p t.succ) (fun t => D t.succ) (fun t => h t.succ) c b
          (mem_range.1 hc), mul_sum]]
      rw [sum_comm]
      refine sum_congr rfl fun v hv => ?_
      rw [sum_eq_single_of_mem (v 0) (Fintype.mem_piFinset.1 hv 0)]
      · have e1 : (Fin.cons a v : Fin (n + 2) → ℕ) (Fin.last (n + 1)) = v (Fin.last n) := by
          rw [← Fin.succ_last, Fin.cons_succ]
        have e2 : ∀ t : Fin n, (Fin.cons a v : Fin (n + 2) → ℕ) t.succ.castSucc = v t.castSucc := fun t => by
          rw [← Fin.succ_castSucc, Fin.cons_succ]
        simp only [Fin.cons_zero, true_and, e1]
        split_ifs with hh
        · rw [Fin.prod_univ_succ]
          simp only [Fin.cons_succ, e2]
          rfl
        · rw [mul_zero]
      · intro c _ hc
        rw [if_neg fun hh => hc hh.1.symm, mul_zero]
    · intro c _ hc
      exact sum_eq_zero fun v _ => if_neg fun hh => hc hh.1

theorem mpsChain_ofFn : ∀ {n : ℕ} {T : Fin n → ND ℂ} {p : Fin n → ℕ} {D : Fin (n + 1) → ℕ}
    (_ : ∀ t, (T t).shape = [p t, D t.castSucc, D t.succ]), MpsChain (List.ofFn p) (List.ofFn T) (D 0) (D (Fin.last n))
  | 0, _, _, _, _ => by
    simp [MpsChain]
  | n + 1, T, p, D, h => by
    rw [List.ofFn_succ, List.ofFn_succ]
    exact ⟨D 1, h 0, mpsChain_ofFn (D := fun t : Fin (n + 1) => D t.succ) fun t => h t.succ⟩

/-- the amplitude of a chain of chains -/
theorem amp_blocks_path : ∀ {m n : ℕ} (T : Fin m → Fin n → ND ℂ) (s p : Fin m → Fin n → ℕ) (D : Fin m → Fin (n + 1) → ℕ) (B : Fin (m + 1) → ℕ)
    (_ : ∀ j t, (T j t).shape = [p j t, D j t.castSucc, D j t.succ]) (_ : ∀ j, D j 0 = B j.castSucc) (_ : ∀ j, D j (Fin.last n) = B j.succ)
    (a b : ℕ) (_ : a < B 0),
    amp (gridList T).flatten (gridList s).flatten a b = ∑ w ∈ Fintype.piFinset (fun j => range (B j)),
      if w 0 = a ∧ w (Fin.last m) = b then ∏ j, amp (List.ofFn (T j)) (List.ofFn (s j)) (w j.castSucc) (w j.succ) else 0
  | 0, n, T, s, p, D, B, _, _, _, a, b, ha => by
    rw [sum_piFinset_cons, sum_eq_single_of_mem a (mem_range.2 ha)]
    · have hz : (Fintype.piFinset fun i : Fin 0 => range (B i.succ)) = {Fin.elim0} := by
        ext v
        simp only [Fintype.mem_piFinset, mem_singleton]
        exact ⟨fun _ => Subsingleton.elim _ _, fun _ i => i.elim0⟩
      rw [hz, sum_singleton]
      simp [gridList]
    · intro c _ hc
      exact sum_eq_zero fun v _ => if_neg fun hh => hc hh.1
  | m + 1, n, T, s, p, D, B, h, h0, h1, a, b, ha => by
    have hc := mpsChain_ofFn (D := D 0) (h 0)
    rw [h0, h1] at hc
    rw [gridList, gridList, List.ofFn_succ, List.ofFn_succ (f := fun j => List.ofFn (s j)), List.flatten_cons, List.flatten_cons,
      amp_append hc (by simp) a b ha, sum_piFinset_cons, sum_eq_single_of_mem a (mem_range.2 ha)]
    · rw [sum_congr rfl fun c hc => by
        rw [← gridList, ← gridList, amp_blocks_path (fun j : Fin m => T j.succ) (fun j => s j.succ) (fun j => p j.succ) (fun j => D j.succ)
          (fun j => B j.succ) (fun j => h j.succ) (fun j => h0 j.succ) (fun j => h1 j.succ) c b (mem_range.1 hc), mul_sum]]
      rw [sum_comm]
      refine sum_congr rfl fun v hv => ?_
      rw [sum_eq_single_of_mem (v 0) (Fintype.mem_piFinset.1 hv 0)]
      · have e1 : (Fin.cons a v : Fin (m + 2) → ℕ) (Fin.last (m + 1)) = v (Fin.last m) := by
          rw [← Fin.succ_last, Fin.cons_succ]
        have e2 : ∀ t : Fin m, (Fin.cons a v : Fin (m + 2) → ℕ) t.succ.castSucc = v t.castSucc := fun t => by
          rw [← Fin.succ_castSucc, Fin.cons_succ]
        simp only [Fin.cons_zero, true_and, e1]
        split_ifs with hh
        · rw [Fin.prod_univ_succ]
          simp only [Fin.cons_succ, e2]
          rfl
        · rw [mul_zero]
      · intro c _ hc
        rw [if_neg fun hh => hc hh.1.symm, mul_zero]
    · intro c _ hc
      exact sum_eq_zero fun v _ => if_neg fun hh => hc hh.1

/-- fix the two ends -/
def ends {n : ℕ} (a b : ℕ) (k : Fin (n + 2) → ℕ) (t : Fin (n + 2)) : ℕ := if t = 0 then a else if t = Fin.last _ then b else k t

theorem sum_ends {K : Type} [AddCommMonoid K] {n : ℕ} {D : Fin (n + 2) → ℕ} {a b : ℕ} (ha : a < D 0) (hb : b < D (Fin.last _))
    (F : (Fin (n + 2) → ℕ) → K) :
    ∑ k ∈ Fintype.piFinset (fun t => range (ends 1 1 D t)), F (ends a b k) =
      ∑ k ∈ Fintype.piFinset (fun t => range (D t)), if k 0 = a ∧ k (Fin.last _) = b then F k else 0 := by
  rw [← sum_filter]
  have hl : (Fin.last (n + 1)) ≠ 0 := (Fin.last_pos).ne'
  refine Finset.sum_nbij' (fun k => ends a b k) (fun k => ends 0 0 k) ?_ ?_ ?_ ?_ ?_
  · intro k hk
    simp only [Fintype.mem_piFinset, mem_range, mem_filter] at hk ⊢
    refine ⟨fun t => ?_, by simp [ends], by simp [ends, hl]⟩
    have := hk t
    unfold ends at this ⊢
    split_ifs at this ⊢ with h1 h2
    · rw [h1]; exact ha
    · rw [h2]; exact hb
    · exact this
  · intro k hk
    simp only [Fintype.mem_piFinset, mem_range, mem_filter] at hk ⊢
    intro t
    have := hk.1 t
    unfold ends
    split_ifs
    · exact zero_lt_one
    · exact zero_lt_one
    · exact this
  · intro k hk
    simp only [Fintype.mem_piFinset, mem_range] at hk
    funext t
    have := hk t
    unfold ends at this ⊢
    split_ifs at this ⊢
    · omega
    · omega
    · rfl
  · intro k hk
    simp only [Fintype.mem_piFinset, mem_range, mem_filter] at hk
    funext t
    unfold ends
    split_ifs with h1 h2
    · rw [h1, hk.2.1]
    · rw [h2, hk.2.2]
    · rfl
  · intro k _
    rfl

/-! ## The grid -/

/-- the column of the bond between the rows `j - 1` and `j` -/
def turn (n j : ℕ) : Fin (n + 2) := if j % 2 = 0 then 0 else Fin.last _

/-- extents of the vertical bonds -/
def snakeV {m n : ℕ} (B : Fin m → ℕ) (j : Fin m) (i : Fin (n + 2)) : ℕ := if i = turn n j then B j else 1

/-- extents of the horizontal bonds -/
def snakeH {m n : ℕ} (D : Fin m → Fin (n + 3) → ℕ) (j : Fin m) (i : Fin (n + 3)) : ℕ := snake (fun j => ends 1 1 (D j)) j i

theorem snakeTensor_ok {m n : ℕ} {T : Fin m → Fin (n + 2) → ND ℂ} {p : Fin m → Fin (n + 2) → ℕ} {D : Fin m → Fin (n + 3) → ℕ} {B : Fin (m + 1) → ℕ}
    (h : ∀ j t, (T j t).shape = [p j t, D j t.castSucc, D j t.succ]) (h0 : ∀ j, D j 0 = B j.castSucc) (h1 : ∀ j, D j (Fin.last _) = B j.succ)
    (j : Fin m) (i : Fin (n + 2)) :
    ∃ C, snakeTensor (n + 2) i j (snake T j i) = .ok C ∧
      C.shape = [snake p j i, snakeV B j.castSucc i, snakeH D j i.succ, snakeV B j.succ i, snakeH D j i.castSucc] ∧
      ∀ s < snake p j i, ∀ v w : Fin (n + 2) → ℕ, ∀ k : Fin (n + 3) → ℕ, (∀ i, v i < snakeV B j.castSucc i) → (∀ i, w i < snakeV B j.succ i) →
        (∀ i, k i < snakeH D j i) → C.val [s, v i, k i.succ, w i, k i.castSucc] = if (j : ℕ) % 2 = 0 then
          (T j i).val [s, ends (v (turn n j)) (w (turn n (j + 1))) k i.castSucc, ends (v (turn n j)) (w (turn n (j + 1))) k i.succ] else
          (T j i.rev).val [s, ends (v (turn n j)) (w (turn n (j + 1))) (fun i => k i.rev) i.rev.castSucc,
            ends (v (turn n j)) (w (turn n (j + 1))) (fun i => k i.rev) i.rev.succ] := by
  have hs0 : ∀ i : Fin (n + 2), i.succ ≠ 0 := fun i => Fin.succ_ne_zero i
  have hsl : ∀ i : Fin (n + 2), i.succ = Fin.last _ ↔ i = Fin.last _ := fun i => by
    rw [← Fin.succ_last, Fin.succ_inj]
  have hc0 : ∀ i : Fin (n + 2), i.castSucc = 0 ↔ i = 0 := fun i => Fin.castSucc_eq_zero_iff
  have hcl : ∀ i : Fin (n + 2), i.castSucc ≠ Fin.last _ := fun i => (Fin.castSucc_lt_last i).ne
  have hrl : ∀ i : Fin (n + 2), i.rev = Fin.last _ ↔ i = 0 := fun i => by
    rw [← Fin.rev_zero, Fin.rev_inj]
  have hr0 : ∀ i : Fin (n + 2), i.rev = 0 ↔ i = Fin.last _ := fun i => by
    rw [← Fin.rev_last, Fin.rev_inj]
  by_cases hj : (j : ℕ) % 2 = 0
  · have hj1 : ¬ ((j : ℕ) + 1) % 2 = 0 := by omega
    obtain ⟨C, c1, c2, c3⟩ := snakeTensor_even (n := n) (h j i) hj i
    have g1 : snakeV B j.castSucc i = if i = 0 then D j i.castSucc else 1 := by
      simp only [snakeV, turn, Fin.val_castSucc, hj, if_true]
      split_ifs with hi
      · rw [hi, ← h0]; rfl
      · rfl
    have g2 : snakeV B j.succ i = if i = Fin.last _ then D j i.succ else 1 := by
      simp only [snakeV, turn, Fin.val_succ, hj1, if_false]
      split_ifs with hi
      · rw [hi, ← h1]; rfl
      · rfl
    have g3 : snakeH D j i.succ = if i = Fin.last _ then 1 else D j i.succ := by
      simp only [snakeH, snake, hj, if_true, ends, hs0, if_false, hsl]
    have g4 : snakeH D j i.castSucc = if i = 0 then 1 else D j i.castSucc := by
      simp only [snakeH, snake, hj, if_true, ends, hc0, hcl, if_false]
    have gp : snake p j i = p j i := by simp only [snake, hj, if_true]
    refine ⟨C, ?_, ?_, ?_⟩
    · simp only [snake, hj, if_true]
      exact c1
    · rw [c2, g1, g2, g3, g4, gp]
    · intro s hs v w k hv hw hk
      have := c3 s (gp ▸ hs) (v i) (g1 ▸ hv i) (k i.succ) (g3 ▸ hk _) (w i) (g2 ▸ hw i) (k i.castSucc) (g4 ▸ hk _)
      rw [this]
      simp only [hj, if_true, ends, hc0, hcl, hs0, hsl, if_false, turn, hj1]
      congr 3
      · split_ifs with hi
        · rw [hi]
        · rfl
      · congr 1
        split_ifs with hi
        · rw [hi]
        · rfl
  · have hj1 : ((j : ℕ) + 1) % 2 = 0 := by omega
    obtain ⟨C, c1, c2, c3⟩ := snakeTensor_odd (n := n) (h j i.rev) hj i
    have g1 : snakeV B j.castSucc i = if i = Fin.last _ then D j i.rev.castSucc else 1 := by
      simp only [snakeV, turn, Fin.val_castSucc, hj, if_false]
      split_ifs with hi
      · rw [hi, ← h0, Fin.rev_last]; rfl
      · rfl
    have g2 : snakeV B j.succ i = if i = 0 then D j i.rev.succ else 1 := by
      simp only [snakeV, turn, Fin.val_succ, hj1, if_true]
      split_ifs with hi
      · rw [hi, ← h1, Fin.rev_zero]; rfl
      · rfl
    have g3 : snakeH D j i.succ = if i = Fin.last _ then 1 else D j i.rev.castSucc := by
      simp only [snakeH, snake, hj, if_false, ends, Fin.rev_succ, hc0, hcl, hr0]
    have g4 : snakeH D j i.castSucc = if i = 0 then 1 else D j i.rev.succ := by
      simp only [snakeH, snake, hj, if_false, ends, Fin.rev_castSucc, hs0, hsl, hrl]
    have gp : snake p j i = p j i.rev := by simp only [snake, hj, if_false]
    refine ⟨C, ?_, ?_, ?_⟩
    · simp only [snake, hj, if_false]
      exact c1
    · rw [c2, g1, g2, g3, g4, gp]
    · intro s hs v w k hv hw hk
      have := c3 s (gp ▸ hs) (v i) (g1 ▸ hv i) (k i.succ) (g3 ▸ hk _) (w i) (g2 ▸ hw i) (k i.castSucc) (g4 ▸ hk _)
      rw [this]
      simp only [hj, if_true, ends, hc0, hcl, hs0, hsl, if_false, turn, hj1, hr0, hrl, Fin.rev_castSucc, Fin.rev_succ, Fin.rev_rev]
      congr 3
      · split_ifs with hi
        · rw [hi]
        · rfl
      · congr 1
        split_ifs with hi
        · rw [hi]
        · rfl

/-- bonds of which all but one in each row are trivial -/
theorem sum_turn {K : Type} [AddCommMonoid K] {m n : ℕ} (B : Fin m → ℕ) (F : (Fin m → ℕ) → K) :
    ∑ v ∈ bondVals (snakeV (n := n) B), F (fun j => v j (turn n j)) = ∑ w ∈ Fintype.piFinset (fun j => range (B j)), F w := by
  refine Finset.sum_nbij' (fun v j => v j (turn n j)) (fun w j i => if i = turn n j then w j else 0) ?_ ?_ ?_ ?_ ?_
  · intro v hv
    rw [mem_bondVals] at hv
    simp only [Fintype.mem_piFinset, mem_range]
    intro j
    simpa [snakeV] using hv j (turn n j)
  · intro w hw
    simp only [Fintype.mem_piFinset, mem_range] at hw
    rw [mem_bondVals]
    intro j i
    unfold snakeV
    split_ifs
    · exact hw j
    · exact zero_lt_one
  · intro v hv
    rw [mem_bondVals] at hv
    funext j i
    have := hv j i
    unfold snakeV at this
    split_ifs at this ⊢ with hi
    · rw [hi]
    · omega
  · intro w _
    simp
  · intro v _
    rfl

/-- one row of the grid is the corresponding piece of the chain -/
theorem snake_row {n : ℕ} {T : Fin (n + 2) → ND ℂ} {p s : Fin (n + 2) → ℕ} {D : Fin (n + 3) → ℕ}
    (h : ∀ t, (T t).shape = [p t, D t.castSucc, D t.succ]) {a b : ℕ} (ha : a < D 0) (hb : b < D (Fin.last _)) :
    (∑ k ∈ Fintype.piFinset (fun t => range (ends 1 1 D t)), ∏ i, (T i).val [s i, ends a b k i.castSucc, ends a b k i.succ] =
        amp (List.ofFn T) (List.ofFn s) a b) ∧
      ∑ k ∈ Fintype.piFinset (fun t : Fin (n + 3) => range (ends 1 1 D t.rev)), ∏ i : Fin (n + 2), (T i.rev).val [s i.rev,
        ends a b (fun i => k i.rev) i.rev.castSucc, ends a b (fun i => k i.rev) i.rev.succ] =
        amp (List.ofFn T) (List.ofFn s) a b := by
  have h1 : ∑ k ∈ Fintype.piFinset (fun t => range (ends 1 1 D t)), ∏ i, (T i).val [s i, ends a b k i.castSucc, ends a b k i.succ] =
        amp (List.ofFn T) (List.ofFn s) a b := by
    rw [amp_path T s p D h a b ha, sum_ends ha hb fun k => ∏ i, (T i).val [s i, k i.castSucc, k i.succ]]
  refine ⟨h1, ?_⟩
  rw [← h1]
  refine Finset.sum_nbij' (fun k i => k i.rev) (fun k i => k i.rev) ?_ ?_ ?_ ?_ ?_
  · intro k hk
    rw [Fintype.mem_piFinset] at hk ⊢
    intro i
    simpa using hk i.rev
  · intro k hk
    rw [Fintype.mem_piFinset] at hk ⊢
    intro i
    exact hk i.rev
  · intro k _
    simp
  · intro k _
    simp
  · intro k _
    exact Equiv.prod_comp Fin.revPerm fun i => (T i).val [s i, ends a b (fun i => k i.rev) i.castSucc, ends a b (fun i => k i.rev) i.succ]

theorem snake_snake {α : Type} {m n : ℕ} (f : Fin m → Fin n → α) : snake (snake f) = f := by
  funext j i
  unfold snake
  split_ifs <;> simp

/-- the extents and the entries of a chain by position -/
theorem MpsChain_pos : ∀ {ds : List ℕ} {As : List (ND ℂ)} {l r : ℕ}, MpsChain ds As l r →
    ∃ D : ℕ → ℕ, D 0 = l ∧ D As.length = r ∧ ∀ (k : ℕ) (hk : k < As.length), As[k].shape = [ds.getD k 0, D k, D (k + 1)]
  | [], [], l, r, h => ⟨fun _ => l, rfl, h, fun k hk => absurd hk (by simp)⟩
  | d :: ds, A :: As, l, r, ⟨m, hA, h⟩ => by
    obtain ⟨D, h1, h2, h3⟩ := MpsChain_pos h
    refine ⟨fun k => if k = 0 then l else D (k - 1), rfl, by simpa using h2, ?_⟩
    intro k hk
    cases k with
    | zero => simpa [h1] using hA
    | succ k => simpa using h3 k (by simpa using hk)
  | [], _ :: _, _, _, h => h.elim
  | _ :: _, [], _, _, h => h.elim

/-- the extents of the sites of the grid, in the order of the chain -/
def posPh (m n : ℕ) (ds : List ℕ) (j : Fin m) (t : Fin n) : ℕ := ds.getD (j * n + t) 0

theorem flatten_pos {α : Type} [Inhabited α] {A : List α} {m n : ℕ} (h : A.length = m * n) :
    (gridList fun (j : Fin m) (t : Fin n) => A.getD (j * n + t) default).flatten = A := by
  have h1 : A = List.ofFn fun k : Fin (m * n) => A.getD k default := by
    refine List.ext_getElem (by simp [h]) fun k h1 h2 => ?_
    simp [h1]
  conv_rhs => rw [h1, List.ofFn_mul]
  rfl

/-- **C87** `from_mps(mps, Lx)` for two columns or more: the grid is a PEPS with open boundaries and has, read along the snake, the amplitudes of the chain. -/
theorem fromMps_eq {A : List (ND ℂ)} {ds : List ℕ} {m n : ℕ} (hA : MpsChain ds A 1 1) (hL : A.length = (m + 1) * (n + 2)) :
    ∃ z vE hE g, fromMps A (n + 2) (m + 1) = .ok z ∧ z.Holds (m + 1) (n + 2) (snake (posPh (m + 1) (n + 2) ds)) vE hE g ∧ OpenGrid vE hE ∧
      (∀ j, ∃ i₀, ∀ i, i ≠ i₀ → vE j i = 1) ∧
      ∀ s ∈ bondVals (snake (posPh (m + 1) (n + 2) ds)), pepsAmp vE hE g s = psi A (gridList (snake s)).flatten := by
  obtain ⟨D, D0, DL, hD⟩ := MpsChain_pos hA
  obtain ⟨p, hp⟩ : ∃ p, p = posPh (m + 1) (n + 2) ds := ⟨_, rfl⟩
  rw [← hp]
  have hlt : ∀ (j : Fin (m + 1)) (t : Fin (n + 2)), (j : ℕ) * (n + 2) + t < A.length := fun j t => by
    rw [hL]
    have h1 : ((j : ℕ) + 1) * (n + 2) ≤ (m + 1) * (n + 2) := Nat.mul_le_mul_right _ j.2
    have h2 := t.2
    nlinarith
  obtain ⟨T, hT⟩ : ∃ T : Fin (m + 1) → Fin (n + 2) → ND ℂ, T = fun (j : Fin (m + 1)) (t : Fin (n + 2)) => A[(j : ℕ) * (n + 2) + t]'(hlt j t) := ⟨_, rfl⟩
  have hTv : ∀ j t, T j t = A[(j : ℕ) * (n + 2) + t]'(hlt j t) := fun j t => by rw [hT]
  obtain ⟨DD, hDD⟩ : ∃ DD : Fin (m + 1) → Fin (n + 3) → ℕ, DD = fun (j : Fin (m + 1)) (t : Fin (n + 3)) => D ((j : ℕ) * (n + 2) + t) := ⟨_, rfl⟩
  obtain ⟨B, hB⟩ : ∃ B : Fin (m + 2) → ℕ, B = fun (j : Fin (m + 2)) => D ((j : ℕ) * (n + 2)) := ⟨_, rfl⟩
  have hs : ∀ j t, (T j t).shape = [p j t, DD j t.castSucc, DD j t.succ] := fun j t => by
    rw [hT, hp, hDD]
    exact hD _ (hlt j t)
  have h0 : ∀ j, DD j 0 = B j.castSucc := fun j => by
    rw [hDD, hB]
    rfl
  have h1 : ∀ j, DD j (Fin.last _) = B j.succ := fun j => by
    rw [hDD, hB]
    simp only [Fin.val_last, Fin.val_succ]
    congr 1
    ring
  have hb0 : B 0 = 1 := by
    rw [hB]
    simpa using D0
  have hbl : B (Fin.last _) = 1 := by
    rw [hB]
    show D ((Fin.last (m + 1)).val * (n + 2)) = 1
    rw [Fin.val_last, ← hL, DL]
  choose g g1 g2 g3 using snakeTensor_ok hs h0 h1
  have hgrid : PepsGrid (snake p) (snakeV B) (snakeH DD) g := g2
  obtain ⟨d, X, hi⟩ := init_grid (by omega) (by omega) hgrid
  refine ⟨⟨gridList g, m + 1, n + 2, d, X, none⟩, snakeV B, snakeH DD, g, ?_, ⟨hgrid, rfl, by omega, by omega⟩, ?_, ?_, ?_⟩
  · unfold fromMps
    have hr : ((List.range (m + 1)).map fun i => (A.take ((n + 2) * (i + 1))).drop ((n + 2) * i)) = gridList T := by
      refine List.ext_getElem (by simp [gridList]) fun j h1 h2 => ?_
      have hj : j < m + 1 := by simpa using h1
      have hle : (n + 2) * (j + 1) ≤ A.length := by
        rw [hL, mul_comm]
        exact Nat.mul_le_mul_right _ hj
      simp only [gridList, List.getElem_map, List.getElem_range, List.getElem_ofFn]
      refine List.ext_getElem ?_ fun t h3 h4 => ?_
      · simp only [List.length_drop, List.length_take, List.length_ofFn]
        rw [min_eq_left hle, Nat.mul_succ]
        omega
      · rw [List.getElem_drop, List.getElem_take, List.getElem_ofFn, hTv]
        exact getElem_congr_idx (by ring)
    have hr2 : ((gridList T).zipIdx.map fun rj => if rj.2 % 2 = 1 then rj.1.reverse else rj.1) = gridList (snake T) := by
      unfold gridList
      rw [zipIdx_ofFn, List.map_ofFn]
      refine congrArg List.ofFn (funext fun j => ?_)
      simp only [Function.comp_apply]
      by_cases hj : (j : ℕ) % 2 = 0
      · rw [if_neg (by omega)]
        exact congrArg List.ofFn (funext fun i => (if_pos hj).symm)
      · rw [if_pos (by omega), reverse_ofFn]
        exact congrArg List.ofFn (funext fun i => (if_neg hj).symm)
    simp only [hr, hr2]
    rw [gridList, zipIdx_mapM_ofFn (b := fun j => List.ofFn (g j)), ok_bind]
    · exact hi
    · intro j
      simp only [List.length_ofFn, le_refl, decide_true, guardPy_true, ok_bind]
      rw [List.take_of_length_le (by simp)]
      exact zipIdx_mapM_ofFn (g1 j)
  · refine ⟨fun i => ?_, fun i => ?_, fun j => ?_, fun j => ?_⟩
    · simp [snakeV, hb0]
    · simp [snakeV, hbl]
    · unfold snakeH snake
      split_ifs <;> simp [ends]
    · unfold snakeH snake
      split_ifs <;> simp [ends]
  · intro j
    exact ⟨turn n j, fun i hi => if_neg hi⟩
  · intro s hs'
    rw [mem_bondVals] at hs'
    have hflat : (gridList T).flatten = A := by
      rw [hT]
      have := List.ofFn_mul (m := m + 1) (n := n + 2) fun k => A[k.1]'(by rw [hL]; exact k.2)
      refine Eq.trans ?_ (this.symm.trans ?_)
      · rfl
      · refine List.ext_getElem (by rw [List.length_ofFn, hL]) fun k h1 h2 => ?_
        rw [List.getElem_ofFn]
    have hne : A ≠ [] := by
      intro h
      rw [h] at hL
      simp at hL
    have hlen : (gridList (snake s)).flatten.length = ds.length := by
      rw [← hA.length_eq, hL, gridList, List.length_flatten, List.map_ofFn]
      have : (List.length ∘ fun j => List.ofFn (snake s j)) = fun _ => n + 2 := funext fun j => List.length_ofFn
      rw [this, List.sum_ofFn]
      simp
    rw [psi_eq_amp hA hne hlen]
    conv_rhs => rw [← hflat]
    rw [amp_blocks_path T (snake s) p DD B hs h0 h1 0 0 (by omega)]
    have hrow : ∀ v ∈ bondVals (snakeV (n := n) B), ∑ h ∈ bondVals (snakeH DD), ∏ j, ∏ i,
          (g j i).val [s j i, v j.castSucc i, h j i.succ, v j.succ i, h j i.castSucc] =
        ∏ j : Fin (m + 1), amp (List.ofFn (T j)) (List.ofFn (snake s j)) (v j.castSucc (turn n j.castSucc)) (v j.succ (turn n j.succ)) := by
      intro v hv
      rw [mem_bondVals] at hv
      refine (Finset.prod_univ_sum (fun j => Fintype.piFinset fun i => range (snakeH DD j i)) fun j k => ∏ i,
        (g j i).val [s j i, v j.castSucc i, k i.succ, v j.succ i, k i.castSucc]).symm.trans (prod_congr rfl fun j _ => ?_)
      have ha : v j.castSucc (turn n j.castSucc) < DD j 0 := by
        rw [h0]
        simpa [snakeV] using hv j.castSucc (turn n j.castSucc)
      have hb : v j.succ (turn n j.succ) < DD j (Fin.last _) := by
        rw [h1]
        simpa [snakeV] using hv j.succ (turn n j.succ)
      rw [sum_congr rfl fun k hk => prod_congr rfl fun i _ => g3 j i (s j i) (hs' j i) (v j.castSucc) (v j.succ) k (hv j.castSucc) (hv j.succ)
        fun i => mem_range.1 (Fintype.mem_piFinset.1 hk i)]
      by_cases hj : (j : ℕ) % 2 = 0
      · have := (snake_row (s := snake s j) (hs j) ha hb).1
        rw [← this]
        simp only [snakeH, snake, hj, if_true]
        rfl
      · have := (snake_row (s := snake s j) (hs j) ha hb).2
        rw [← this]
        simp only [snakeH, snake, hj, if_false, Fin.rev_rev]
        rfl
    refine (sum_congr rfl hrow).trans ((sum_turn B fun w => ∏ j : Fin (m + 1), amp (List.ofFn (T j)) (List.ofFn (snake s j)) (w j.castSucc)
      (w j.succ)).trans (sum_congr rfl fun w hw => ?_))
    have hw' := Fintype.mem_piFinset.1 hw
    have w0 := mem_range.1 (hw' 0)
    have w1 := mem_range.1 (hw' (Fin.last _))
    rw [if_pos ⟨by omega, by omega⟩]

theorem InB.getD_lt : ∀ {sh is : List ℕ}, InB sh is → ∀ k < sh.length, is.getD k 0 < sh.getD k 0
  | [], [], _, k, hk => absurd hk (by simp)
  | n :: sh, i :: is, h, 0, _ => by simpa using h.1
  | n :: sh, i :: is, h, k + 1, hk => by simpa using InB.getD_lt h.2 k (by simpa using hk)

/-- **C87** `recombine('row_snake')` gives the state vector of the chain back. -/
theorem fromMps_recombine {A : List (ND ℂ)} {ds : List ℕ} {m n : ℕ} (hA : MpsChain ds A 1 1) (hL : A.length = (m + 1) * (n + 2)) :
    ∃ z V W, fromMps A (n + 2) (m + 1) = .ok z ∧ recombineSnake z = .ok V ∧ V.reshape [V.size] = .ok W ∧ W.shape = [ds.prod] ∧
      ∀ s, InB ds s → W.val [ravel ds s] = psi A s := by
  obtain ⟨z, vE, hE, g, h1, h2, h3, h4, h5⟩ := fromMps_eq hA hL
  obtain ⟨V, h6, h7, -, W, h8, h9, h10⟩ := recombineSnake_eq_partial h2 h3 h4
  have hd : ds.length = (m + 1) * (n + 2) := by rw [← hA.length_eq, hL]
  have hflat : (gridList (posPh (m + 1) (n + 2) ds)).flatten = ds := flatten_pos hd
  refine ⟨z, V, W, h1, h6, h8, ?_, ?_⟩
  · rw [h9, h7]
    conv_rhs => rw [← hflat]
    rw [List.prod_flatten, gridList, List.map_ofFn, List.prod_ofFn]
    refine congrArg (fun k => [k]) (prod_congr rfl fun j _ => ?_)
    rw [Function.comp_apply, List.prod_ofFn]
    unfold snake
    split_ifs
    · rfl
    · exact Equiv.prod_comp Fin.revPerm fun i => posPh (m + 1) (n + 2) ds j i
  · intro s hs
    have hl : s.length = (m + 1) * (n + 2) := by rw [hs.length_eq, hd]
    have hsf : (gridList (posPh (m + 1) (n + 2) s)).flatten = s := flatten_pos hl
    have hm : snake (posPh (m + 1) (n + 2) s) ∈ bondVals (snake (posPh (m + 1) (n + 2) ds)) := by
      rw [mem_bondVals]
      have : ∀ (j : Fin (m + 1)) (t : Fin (n + 2)), posPh (m + 1) (n + 2) s j t < posPh (m + 1) (n + 2) ds j t := fun j t => by
        refine InB.getD_lt hs _ ?_
        rw [hd]
        have h1 : ((j : ℕ) + 1) * (n + 2) ≤ (m + 1) * (n + 2) := Nat.mul_le_mul_right _ j.2
        have h2 := t.2
        nlinarith
      intro j i
      unfold snake
      split_ifs
      · exact this j i
      · exact this j i.rev
    have := h10 _ hm
    rw [h5 _ hm, snakeIdx, snake_snake, snake_snake, hsf] at this
    rw [← this, readIdx]
    conv_lhs => rw [← hflat, ← hsf]
    rfl

/-- Without `Lx`: `k` rows of `k` tensors, or an `AssertionError`. -/
theorem fromMpsSq_eq (A : List (ND ℂ)) : (∀ k, A.length = k * k → fromMpsSq A = fromMps A k k) ∧
    ((∀ k, A.length ≠ k * k) → fromMpsSq A = .error .assertionError) := by
  unfold fromMpsSq
  constructor
  · intro k hk
    rw [hk, Nat.sqrt_eq, beq_self_eq_true, guardPy_true, ok_bind]
  · intro h
    have h0 : (Nat.sqrt A.length * Nat.sqrt A.length == A.length) = false := by
      rw [beq_eq_false_iff_ne]
      exact fun hh => h _ hh.symm
    rw [h0, guardPy_false, err_bind]

/-- With `Lx` given, tensors that do not fill a row are dropped without a word. -/
theorem fromMpsLx_drops {A B : List (ND ℂ)} {Lx Ly : ℕ} (hA : A.length = Lx * Ly) (hB : B.length < Lx) :
    fromMpsLx (A ++ B) Lx = fromMps A Lx Ly := by
  have hx : 0 < Lx := by omega
  have hd : (A ++ B).length / Lx = Ly := by
    rw [List.length_append, hA, Nat.mul_add_div hx, Nat.div_eq_of_lt hB, add_zero]
  unfold fromMpsLx
  rw [hd]
  have h0 : (Lx != 0) = true := by simpa using hx.ne'
  rw [h0, guardPy_true, ok_bind]
  unfold fromMps
  have hr : ((List.range Ly).map fun i => ((A ++ B).take (Lx * (i + 1))).drop (Lx * i)) =
      (List.range Ly).map fun i => (A.take (Lx * (i + 1))).drop (Lx * i) := by
    refine List.map_congr_left fun i hi => ?_
    rw [List.take_append_of_le_length]
    rw [hA]
    exact Nat.mul_le_mul_left _ (List.mem_range.1 hi)
  simp only [hr]

/-- a chain of three tensors with bonds of extent 2 -/
def exThree : List (ND ℂ) := [⟨[1, 1, 2], fun _ => 1⟩, ⟨[1, 2, 2], fun _ => 1⟩, ⟨[1, 2, 1], fun _ => 1⟩]

/-- A single column comes out wrong: the chain has one amplitude, the result four. -/
theorem fromMps_column : MpsChain [1, 1, 1] exThree 1 1 ∧ ∃ z V, fromMps exThree 1 3 = .ok z ∧ recombineSnake z = .ok V ∧ V.shape = [2, 2] :=
  ⟨⟨2, rfl, 2, rfl, 1, rfl, rfl⟩, _, _, rfl, rfl, rfl⟩

/-- a chain of four sites in two rows -/
example : ∃ z V W, fromMpsSq [⟨[2, 1, 2], fun i => i.getD 0 0⟩, ⟨[2, 2, 3], fun i => i.getD 1 0⟩, ⟨[2, 3, 2], fun i => i.getD 2 0⟩,
      ⟨[2, 2, 1], fun i => i.getD 0 0⟩] = .ok z ∧ recombineSnake z = .ok V ∧ V.reshape [V.size] = .ok W ∧ W.shape = [16] := by
  obtain ⟨z, V, W, h1, h2, h3, h4, _⟩ := fromMps_recombine (m := 1) (n := 0) (ds := [2, 2, 2, 2])
    (A := [⟨[2, 1, 2], fun i => i.getD 0 0⟩, ⟨[2, 2, 3], fun i => i.getD 1 0⟩, ⟨[2, 3, 2], fun i => i.getD 2 0⟩, ⟨[2, 2, 1], fun i => i.getD 0 0⟩])
    ⟨2, rfl, 3, rfl, 2, rfl, 1, rfl, rfl⟩ rfl
  exact ⟨z, V, W, ((fromMpsSq_eq _).1 2 rfl).trans h1, h2, h3, h4⟩

end Xmps.FPEPS
