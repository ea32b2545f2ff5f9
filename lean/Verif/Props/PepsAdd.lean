import Verif.Model.PepsDense
import Verif.Props.PepsOverlap

/-!
# C84: the sum of two PEPS

Specification: Spec/Peps (`pepsAmp`).
-/

namespace Xmps.FPEPS

open Finset Xmps.Spec

/-- what is added in front or behind -/
def off (b : Bool) (n : ℕ) : ℕ := if b then n else 0

theorem addTensor_ok {Lx Ly i j : ℕ} (hLx : 1 < Lx) (hLy : 1 < Ly) {A B : ND ℂ} {p u r d l u' r' d' l' : ℕ} (hA : A.shape = [p, u, r, d, l])
    (hB : B.shape = [p, u', r', d', l']) {m1 m2 m3 m4 : Bool} (hm : addMask Lx Ly i j = [m1, m2, m3, m4])
    (h1 : m1 = false → u = u') (h2 : m2 = false → r = r') (h3 : m3 = false → d = d') (h4 : m4 = false → l = l') :
    ∃ C, addTensor Lx Ly i j A B = .ok C ∧ C.shape = [p, u + off m1 u', r + off m2 r', d + off m3 d', l + off m4 l'] ∧
      ∀ s < p, ∀ a b c e, C.val [s, a, b, c, e] =
        (if a < u ∧ b < r ∧ c < d ∧ e < l then A.val [s, a, b, c, e] else 0) +
        (if (off m1 u ≤ a ∧ a - off m1 u < u') ∧ (off m2 r ≤ b ∧ b - off m2 r < r') ∧ (off m3 d ≤ c ∧ c - off m3 d < d') ∧
            (off m4 l ≤ e ∧ e - off m4 l < l') then B.val [s, a - off m1 u, b - off m2 r, c - off m3 d, e - off m4 l] else 0) := by
  have e : ∀ (b : Bool) (n n' : ℕ), (b = false → n = n') → n + off b n' = off b n + n' := by
    intro b n n' h
    cases b
    · simp [off, h rfl]
    · simp [off]
  have hp1 : (padBack A (pads [m1, m2, m3, m4] B)).shape = [p, u + off m1 u', r + off m2 r', d + off m3 d', l + off m4 l'] := by
    simp [padBack, pads, hA, hB, off]
  have hp2 : (padFront B (pads [m1, m2, m3, m4] A)).shape = [p, u + off m1 u', r + off m2 r', d + off m3 d', l + off m4 l'] := by
    rw [e _ _ _ h1, e _ _ _ h2, e _ _ _ h3, e _ _ _ h4]
    simp [padFront, pads, hA, hB, off]
  refine ⟨⟨_, fun idx => (padBack A (pads [m1, m2, m3, m4] B)).val idx + (padFront B (pads [m1, m2, m3, m4] A)).val idx⟩, ?_, hp1, ?_⟩
  · unfold addTensor
    simp only [hm, ND.rank, hA, hB, hLx, hLy, List.length_cons, List.length_nil]
    simp only [ND.zipNd, hp1, hp2, if_true]
    rfl
  · intro s hs a b c f
    refine congrArg₂ (· + ·) ?_ ?_
    · simp only [padBack, hA, InB_cons, hs, true_and]
      simp
    · simp only [padFront, hA, hB, pads, List.tail_cons, List.zipWith_cons_cons, List.zipWith_nil_right, List.forall₂_cons, InB_cons, hs, Nat.sub_zero]
      refine if_congr ?_ rfl rfl
      simp only [off, List.forall₂_nil_left_iff, Nat.zero_le, true_and]
      simp
      tauto

/-- the legs that are padded when `Lx` and `Ly` are the numbers of columns and rows -/
theorem addMask_eq {m n i j : ℕ} (hm : 1 < m) (hn : 1 < n) (hi : i < n) :
    addMask n m i j = [decide (j ≠ 0), decide (i ≠ n - 1), decide (j ≠ m - 1), decide (i ≠ 0)] := by
  unfold addMask
  split_ifs <;> simp <;> omega

/-- a set of sites that with a site contains its neighbours is empty or everything -/
theorem connected {m n : ℕ} (P : Fin (m + 1) → Fin (n + 1) → Prop) (hv : ∀ (j : Fin m) i, P j.castSucc i ↔ P j.succ i)
    (hh : ∀ j (i : Fin n), P j i.castSucc ↔ P j i.succ) (j i) : P j i ↔ P 0 0 := by
  have h1 : ∀ j i, P j i ↔ P j 0 := by
    intro j i
    induction i using Fin.induction with
    | zero => rfl
    | succ i ih => exact (hh j i).symm.trans ih
  rw [h1]
  induction j using Fin.induction with
  | zero => rfl
  | succ j ih => exact (hv j 0).symm.trans ih

/-- sums over a larger range of a function that vanishes outside of the smaller one -/
theorem sum_bonds_low {a b : ℕ} {e e' : Fin a → Fin b → ℕ} (h : ∀ j i, e j i ≤ e' j i) (F : (Fin a → Fin b → ℕ) → ℂ)
    (h0 : ∀ v, (∃ j i, e j i ≤ v j i) → F v = 0) : ∑ v ∈ bondVals e', F v = ∑ v ∈ bondVals e, F v := by
  symm
  refine Finset.sum_subset ?_ ?_
  · intro v hv
    rw [mem_bondVals] at hv ⊢
    exact fun j i => lt_of_lt_of_le (hv j i) (h j i)
  · intro v _ hv
    rw [mem_bondVals] at hv
    push Not at hv
    exact h0 v hv

/-- the same for the upper part of the range -/
theorem sum_bonds_high {a b : ℕ} {e e' o : Fin a → Fin b → ℕ} (h : ∀ j i, e' j i = o j i + e j i) (F : (Fin a → Fin b → ℕ) → ℂ)
    (h0 : ∀ v, (∃ j i, v j i < o j i) → F v = 0) : ∑ v ∈ bondVals e', F v = ∑ v ∈ bondVals e, F (fun j i => o j i + v j i) := by
  symm
  refine Finset.sum_bij_ne_zero (fun v _ _ j i => o j i + v j i) ?_ ?_ ?_ ?_
  · intro v hv _
    rw [mem_bondVals] at hv ⊢
    intro j i
    rw [h]
    exact Nat.add_lt_add_left (hv j i) _
  · intro v _ _ w _ _ hvw
    funext j i
    exact Nat.add_left_cancel (congrFun (congrFun hvw j) i)
  · intro w hw hF
    have hle : ∀ j i, o j i ≤ w j i := by
      by_contra hc
      push Not at hc
      exact hF (h0 w hc)
    have e : (fun j i => o j i + (w j i - o j i)) = w := by
      funext j i
      have := hle j i
      omega
    refine ⟨fun j i => w j i - o j i, ?_, by rw [e]; exact hF, e⟩
    rw [mem_bondVals] at hw ⊢
    intro j i
    have h1 := hw j i
    have h2 := hle j i
    rw [h] at h1
    omega
  · intros
    rfl

/-- Amplitudes of block diagonal tensors: every tensor is the sum of one that vanishes unless all inner bonds are in the lower block, and one that
vanishes unless all are in the upper block. -/
theorem amp_blocks {m n : ℕ} {vE vE' vO vT : Fin (m + 2) → Fin (n + 1) → ℕ} {hE hE' hO hT : Fin (m + 1) → Fin (n + 2) → ℕ}
    (f g : Fin (m + 1) → Fin (n + 1) → ℕ → ℕ → ℕ → ℕ → ℂ)
    (hvl : ∀ j i, vE j i ≤ vT j i) (hhl : ∀ j i, hE j i ≤ hT j i)
    (hvh : ∀ j i, vT j i = vO j i + vE' j i) (hhh : ∀ j i, hT j i = hO j i + hE' j i)
    (hvi : ∀ j : Fin m, ∀ i, vO j.succ.castSucc i = vE j.succ.castSucc i) (hhi : ∀ j, ∀ i : Fin n, hO j i.succ.castSucc = hE j i.succ.castSucc)
    (hf : ∀ j i a b c e, f j i a b c e ≠ 0 → a < vE j.castSucc i ∧ b < hE j i.succ ∧ c < vE j.succ i ∧ e < hE j i.castSucc)
    (hg : ∀ j i a b c e, g j i a b c e ≠ 0 → vO j.castSucc i ≤ a ∧ hO j i.succ ≤ b ∧ vO j.succ i ≤ c ∧ hO j i.castSucc ≤ e) :
    ∑ v ∈ bondVals vT, ∑ h ∈ bondVals hT, ∏ j, ∏ i,
        (f j i (v j.castSucc i) (h j i.succ) (v j.succ i) (h j i.castSucc) + g j i (v j.castSucc i) (h j i.succ) (v j.succ i) (h j i.castSucc)) =
      (∑ v ∈ bondVals vE, ∑ h ∈ bondVals hE, ∏ j, ∏ i, f j i (v j.castSucc i) (h j i.succ) (v j.succ i) (h j i.castSucc)) +
      ∑ v ∈ bondVals vE', ∑ h ∈ bondVals hE', ∏ j, ∏ i, g j i (vO j.castSucc i + v j.castSucc i) (hO j i.succ + h j i.succ)
        (vO j.succ i + v j.succ i) (hO j i.castSucc + h j i.castSucc) := by
  -- only all lower or all upper contributes
  have key : ∀ (v : Fin (m + 2) → Fin (n + 1) → ℕ) (h : Fin (m + 1) → Fin (n + 2) → ℕ), ∏ j, ∏ i,
      (f j i (v j.castSucc i) (h j i.succ) (v j.succ i) (h j i.castSucc) + g j i (v j.castSucc i) (h j i.succ) (v j.succ i) (h j i.castSucc)) =
      (∏ j, ∏ i, f j i (v j.castSucc i) (h j i.succ) (v j.succ i) (h j i.castSucc)) +
      ∏ j, ∏ i, g j i (v j.castSucc i) (h j i.succ) (v j.succ i) (h j i.castSucc) := by
    intro v h
    simp only [← Fintype.prod_prod_type']
    rw [Finset.prod_add]
    set F : Fin (m + 1) × Fin (n + 1) → ℂ := fun p => f p.1 p.2 (v p.1.castSucc p.2) (h p.1 p.2.succ) (v p.1.succ p.2) (h p.1 p.2.castSucc) with hF
    set G : Fin (m + 1) × Fin (n + 1) → ℂ := fun p => g p.1 p.2 (v p.1.castSucc p.2) (h p.1 p.2.succ) (v p.1.succ p.2) (h p.1 p.2.castSucc) with hG
    have hz : ∀ S ∈ (univ : Finset (Fin (m + 1) × Fin (n + 1))).powerset, S ∉ ({univ, ∅} : Finset (Finset (Fin (m + 1) × Fin (n + 1)))) →
        (∏ p ∈ S, F p) * ∏ p ∈ univ \ S, G p = 0 := by
      intro S _ hS
      by_contra hne
      have h1 : ∀ p ∈ S, F p ≠ 0 := fun p hp h0 => hne (by rw [Finset.prod_eq_zero hp h0, zero_mul])
      have h2 : ∀ p, p ∉ S → G p ≠ 0 := fun p hp h0 => hne (by rw [Finset.prod_eq_zero (mem_sdiff.2 ⟨mem_univ p, hp⟩) h0, mul_zero])
      have hconn := connected (fun j i => (j, i) ∈ S) (fun j i => by
        have e := hvi j i
        constructor
        · intro hp
          by_contra hq
          have a1 := (hf _ _ _ _ _ _ (h1 _ hp)).2.2.1
          have a2 := (hg _ _ _ _ _ _ (h2 _ hq)).1
          simp only [Fin.succ_castSucc] at a1 a2 e
          omega
        · intro hq
          by_contra hp
          have a1 := (hf _ _ _ _ _ _ (h1 _ hq)).1
          have a2 := (hg _ _ _ _ _ _ (h2 _ hp)).2.2.1
          simp only [Fin.succ_castSucc] at a1 a2 e
          omega) (fun j i => by
        have e := hhi j i
        constructor
        · intro hp
          by_contra hq
          have a1 := (hf _ _ _ _ _ _ (h1 _ hp)).2.1
          have a2 := (hg _ _ _ _ _ _ (h2 _ hq)).2.2.2
          simp only [Fin.succ_castSucc] at a1 a2 e
          omega
        · intro hq
          by_contra hp
          have a1 := (hf _ _ _ _ _ _ (h1 _ hq)).2.2.2
          have a2 := (hg _ _ _ _ _ _ (h2 _ hp)).2.1
          simp only [Fin.succ_castSucc] at a1 a2 e
          omega)
      apply hS
      by_cases h0 : ((0 : Fin (m + 1)), (0 : Fin (n + 1))) ∈ S
      · rw [mem_insert]
        left
        ext ⟨j, i⟩
        simp [(hconn j i).2 h0]
      · rw [mem_insert, mem_singleton]
        right
        ext ⟨j, i⟩
        simp only [notMem_empty, iff_false]
        exact fun hp => h0 ((hconn j i).1 hp)
    rw [← Finset.sum_subset (fun S _ => by simp : ({univ, ∅} : Finset (Finset (Fin (m + 1) × Fin (n + 1)))) ⊆ univ.powerset) hz,
      Finset.sum_pair Finset.univ_nonempty.ne_empty]
    simp
  simp only [key, sum_add_distrib]
  refine congrArg₂ (· + ·) ?_ ?_
  · rw [sum_bonds_low hvl _ ?_]
    · refine sum_congr rfl fun v _ => ?_
      rw [sum_bonds_low hhl _ ?_]
      rintro h ⟨j, i, hji⟩
      by_contra hne
      have h1 : ∀ j i, f j i (v j.castSucc i) (h j i.succ) (v j.succ i) (h j i.castSucc) ≠ 0 := fun j i h0 =>
        hne (Finset.prod_eq_zero (mem_univ j) (Finset.prod_eq_zero (mem_univ i) h0))
      cases i using Fin.cases with
      | zero =>
        have := (hf _ _ _ _ _ _ (h1 j 0)).2.2.2
        exact absurd this (not_lt.2 hji)
      | succ i =>
        have := (hf _ _ _ _ _ _ (h1 j i)).2.1
        exact absurd this (not_lt.2 hji)
    · rintro v ⟨j, i, hji⟩
      refine Finset.sum_eq_zero fun h _ => ?_
      by_contra hne
      have h1 : ∀ j i, f j i (v j.castSucc i) (h j i.succ) (v j.succ i) (h j i.castSucc) ≠ 0 := fun j i h0 =>
        hne (Finset.prod_eq_zero (mem_univ j) (Finset.prod_eq_zero (mem_univ i) h0))
      cases j using Fin.cases with
      | zero =>
        have := (hf _ _ _ _ _ _ (h1 0 i)).1
        exact absurd this (not_lt.2 hji)
      | succ j =>
        have := (hf _ _ _ _ _ _ (h1 j i)).2.2.1
        exact absurd this (not_lt.2 hji)
  · rw [sum_bonds_high hvh _ ?_]
    · refine sum_congr rfl fun v _ => ?_
      rw [sum_bonds_high hhh _ ?_]
      rintro h ⟨j, i, hji⟩
      by_contra hne
      have h1 : ∀ j i, g j i (vO j.castSucc i + v j.castSucc i) (h j i.succ) (vO j.succ i + v j.succ i) (h j i.castSucc) ≠ 0 := fun j i h0 =>
        hne (Finset.prod_eq_zero (mem_univ j) (Finset.prod_eq_zero (mem_univ i) h0))
      cases i using Fin.cases with
      | zero =>
        have := (hg _ _ _ _ _ _ (h1 j 0)).2.2.2
        exact absurd hji (not_lt.2 this)
      | succ i =>
        have := (hg _ _ _ _ _ _ (h1 j i)).2.1
        exact absurd hji (not_lt.2 this)
    · rintro v ⟨j, i, hji⟩
      refine Finset.sum_eq_zero fun h _ => ?_
      by_contra hne
      have h1 : ∀ j i, g j i (v j.castSucc i) (h j i.succ) (v j.succ i) (h j i.castSucc) ≠ 0 := fun j i h0 =>
        hne (Finset.prod_eq_zero (mem_univ j) (Finset.prod_eq_zero (mem_univ i) h0))
      cases j using Fin.cases with
      | zero =>
        have := (hg _ _ _ _ _ _ (h1 0 i)).1
        exact absurd hji (not_lt.2 this)
      | succ j =>
        have := (hg _ _ _ _ _ _ (h1 j i)).2.2.1
        exact absurd hji (not_lt.2 this)

theorem zipIdx_ofFn {α : Type} {n : ℕ} (a : Fin n → α) : (List.ofFn a).zipIdx = List.ofFn fun i => (a i, i.1) := by
  refine List.ext_getElem (by simp) fun k h1 h2 => ?_
  simp

/-- the extents of the sum: inner bonds add up -/
def addV {m n : ℕ} (vE vE' : Fin (m + 1) → Fin n → ℕ) : Fin (m + 1) → Fin n → ℕ := fun j i =>
  vE j i + off (decide (j ≠ 0 ∧ j ≠ Fin.last m)) (vE' j i)

def addH {m n : ℕ} (hE hE' : Fin m → Fin (n + 1) → ℕ) : Fin m → Fin (n + 1) → ℕ := fun j i =>
  hE j i + off (decide (i ≠ 0 ∧ i ≠ Fin.last n)) (hE' j i)

section

variable {m n : ℕ} {ph : Fin (m + 2) → Fin (n + 2) → ℕ} {vE vE' : Fin (m + 3) → Fin (n + 2) → ℕ}
  {hE hE' : Fin (m + 2) → Fin (n + 3) → ℕ} {g g' : Fin (m + 2) → Fin (n + 2) → ND ℂ} {x y : FPEPS}

theorem OpenGrid_add (ox : OpenGrid vE hE) : OpenGrid (addV vE vE') (addH hE hE') := by
  refine ⟨fun i => ?_, fun i => ?_, fun j => ?_, fun j => ?_⟩
  · simp [addV, off, ox.top]
  · simp [addV, off, ox.bottom]
  · simp [addH, off, ox.left]
  · simp [addH, off, ox.right]

/-- **C84**: if `Lx` and `Ly` are the numbers of columns and rows (both at least two), `x.add(y)` is the sum of the states. -/
theorem add_eq_partial (hx : x.Holds (m + 2) (n + 2) ph vE hE g) (hy : y.Holds (m + 2) (n + 2) ph vE' hE' g') (ox : OpenGrid vE hE)
    (oy : OpenGrid vE' hE') (hLx : x.Lx = n + 2) (hLy : x.Ly = m + 2) :
    ∃ z G, add x y = .ok z ∧ z.Holds (m + 2) (n + 2) ph (addV vE vE') (addH hE hE') G ∧ OpenGrid (addV vE vE') (addH hE hE') ∧
      ∀ s ∈ bondVals ph, pepsAmp (addV vE vE') (addH hE hE') G s = pepsAmp vE hE g s + pepsAmp vE' hE' g' s := by
  have hd1 : ∀ (j : Fin (m + 2)), decide (j.1 ≠ 0) = decide (j.castSucc ≠ 0 ∧ j.castSucc ≠ Fin.last (m + 2)) := by
    intro j
    rw [decide_eq_decide]
    simp only [ne_eq, Fin.ext_iff, Fin.val_castSucc, Fin.val_zero, Fin.val_last]
    omega
  have hd2 : ∀ (j : Fin (m + 2)), decide (j.1 ≠ m + 2 - 1) = decide (j.succ ≠ 0 ∧ j.succ ≠ Fin.last (m + 2)) := by
    intro j
    rw [decide_eq_decide]
    simp only [ne_eq, Fin.ext_iff, Fin.val_succ, Fin.val_zero, Fin.val_last]
    omega
  have hd3 : ∀ (i : Fin (n + 2)), decide (i.1 ≠ 0) = decide (i.castSucc ≠ 0 ∧ i.castSucc ≠ Fin.last (n + 2)) := by
    intro j
    rw [decide_eq_decide]
    simp only [ne_eq, Fin.ext_iff, Fin.val_castSucc, Fin.val_zero, Fin.val_last]
    omega
  have hd4 : ∀ (i : Fin (n + 2)), decide (i.1 ≠ n + 2 - 1) = decide (i.succ ≠ 0 ∧ i.succ ≠ Fin.last (n + 2)) := by
    intro j
    rw [decide_eq_decide]
    simp only [ne_eq, Fin.ext_iff, Fin.val_succ, Fin.val_zero, Fin.val_last]
    omega
  have hbv : ∀ j i, decide (j ≠ 0 ∧ j ≠ Fin.last (m + 2)) = false → vE j i = vE' j i := by
    intro j i h
    simp only [decide_eq_false_iff_not, not_and_or, not_not] at h
    rcases h with rfl | rfl
    · rw [ox.top, oy.top]
    · rw [ox.bottom, oy.bottom]
  have hbh : ∀ j i, decide (i ≠ 0 ∧ i ≠ Fin.last (n + 2)) = false → hE j i = hE' j i := by
    intro j i h
    simp only [decide_eq_false_iff_not, not_and_or, not_not] at h
    rcases h with rfl | rfl
    · rw [ox.left, oy.left]
    · rw [ox.right, oy.right]
  have key : ∀ (j : Fin (m + 2)) (i : Fin (n + 2)), ∃ C, addTensor (n + 2) (m + 2) i j (g j i) (g' j i) = .ok C ∧
      C.shape = [ph j i, addV vE vE' j.castSucc i, addH hE hE' j i.succ, addV vE vE' j.succ i, addH hE hE' j i.castSucc] ∧ _ := fun j i => by
    have hm := addMask_eq (m := m + 2) (n := n + 2) (i := i) (j := j) (by omega) (by omega) i.2
    rw [hd1, hd2, hd3, hd4] at hm
    exact addTensor_ok (by omega) (by omega) (hx.grid j i) (hy.grid j i) hm (hbv _ _) (hbh _ _) (hbv _ _) (hbh _ _)
  choose C c1 c2 c3 using key
  have hgrid : PepsGrid ph (addV vE vE') (addH hE hE') C := fun j i => c2 j i
  obtain ⟨d, X, hi⟩ := init_grid (by omega) (by omega) hgrid
  have hcomm : ∀ (b : Bool) (k k' : ℕ), (b = false → k = k') → k + off b k' = off b k + k' := by
    intro b k k' h
    cases b
    · simp [off, h rfl]
    · simp [off]
  refine ⟨⟨gridList C, m + 2, n + 2, d, X, none⟩, C, ?_, ⟨hgrid, rfl, by omega, by omega⟩, OpenGrid_add ox, ?_⟩
  · unfold add
    rw [hx.data, hy.data, gridList, gridList, zip_ofFn, zipIdx_ofFn, mapM_ofFn (b := fun j => List.ofFn (C j)), ok_bind]
    · exact hi
    · intro j
      simp only
      rw [zip_ofFn, zipIdx_ofFn, mapM_ofFn (b := C j)]
      intro i
      simp only [hLx, hLy]
      exact c1 j i
  · intro s hs
    rw [mem_bondVals] at hs
    unfold pepsAmp
    have hval : ∀ j i a b c e, (C j i).val [s j i, a, b, c, e] = _ := fun j i a b c e => c3 j i (s j i) (hs j i) a b c e
    simp only [hval]
    refine (amp_blocks (vE := vE) (vE' := vE') (hE := hE) (hE' := hE')
      (vO := fun j i => off (decide (j ≠ 0 ∧ j ≠ Fin.last (m + 2))) (vE j i)) (hO := fun j i => off (decide (i ≠ 0 ∧ i ≠ Fin.last (n + 2))) (hE j i))
      (fun j i a b c e => if a < vE j.castSucc i ∧ b < hE j i.succ ∧ c < vE j.succ i ∧ e < hE j i.castSucc then (g j i).val [s j i, a, b, c, e] else 0)
      (fun j i a b c e =>
        if (off (decide (j.castSucc ≠ 0 ∧ j.castSucc ≠ Fin.last (m + 2))) (vE j.castSucc i) ≤ a ∧
              a - off (decide (j.castSucc ≠ 0 ∧ j.castSucc ≠ Fin.last (m + 2))) (vE j.castSucc i) < vE' j.castSucc i) ∧
            (off (decide (i.succ ≠ 0 ∧ i.succ ≠ Fin.last (n + 2))) (hE j i.succ) ≤ b ∧
              b - off (decide (i.succ ≠ 0 ∧ i.succ ≠ Fin.last (n + 2))) (hE j i.succ) < hE' j i.succ) ∧
            (off (decide (j.succ ≠ 0 ∧ j.succ ≠ Fin.last (m + 2))) (vE j.succ i) ≤ c ∧
              c - off (decide (j.succ ≠ 0 ∧ j.succ ≠ Fin.last (m + 2))) (vE j.succ i) < vE' j.succ i) ∧
            (off (decide (i.castSucc ≠ 0 ∧ i.castSucc ≠ Fin.last (n + 2))) (hE j i.castSucc) ≤ e ∧
              e - off (decide (i.castSucc ≠ 0 ∧ i.castSucc ≠ Fin.last (n + 2))) (hE j i.castSucc) < hE' j i.castSucc) then
          (g' j i).val [s j i, a - off (decide (j.castSucc ≠ 0 ∧ j.castSucc ≠ Fin.last (m + 2))) (vE j.castSucc i),
            b - off (decide (i.succ ≠ 0 ∧ i.succ ≠ Fin.last (n + 2))) (hE j i.succ),
            c - off (decide (j.succ ≠ 0 ∧ j.succ ≠ Fin.last (m + 2))) (vE j.succ i),
            e - off (decide (i.castSucc ≠ 0 ∧ i.castSucc ≠ Fin.last (n + 2))) (hE j i.castSucc)] else 0)
      ?_ ?_ ?_ ?_ ?_ ?_ ?_ ?_).trans ?_
    · exact fun j i => Nat.le_add_right _ _
    · exact fun j i => Nat.le_add_right _ _
    · exact fun j i => hcomm _ _ _ (hbv j i)
    · exact fun j i => hcomm _ _ _ (hbh j i)
    · intro j i
      have : j.succ.castSucc ≠ 0 ∧ j.succ.castSucc ≠ Fin.last (m + 2) := by
        simp only [ne_eq, Fin.ext_iff, Fin.val_castSucc, Fin.val_succ, Fin.val_zero, Fin.val_last]
        omega
      simp [off, this]
    · intro j i
      have : i.succ.castSucc ≠ 0 ∧ i.succ.castSucc ≠ Fin.last (n + 2) := by
        simp only [ne_eq, Fin.ext_iff, Fin.val_castSucc, Fin.val_succ, Fin.val_zero, Fin.val_last]
        omega
      simp [off, this]
    · intro j i a b c e h
      by_contra hc
      exact h (if_neg hc)
    · intro j i a b c e h
      by_contra hc
      exact h (if_neg fun hh => hc ⟨hh.1.1, hh.2.1.1, hh.2.2.1.1, hh.2.2.2.1⟩)
    · refine congrArg₂ (· + ·) ?_ ?_
      · refine sum_congr rfl fun v hv => sum_congr rfl fun h hh => prod_congr rfl fun j _ => prod_congr rfl fun i _ => ?_
        rw [mem_bondVals] at hv hh
        exact if_pos ⟨hv _ _, hh _ _, hv _ _, hh _ _⟩
      · refine sum_congr rfl fun v hv => sum_congr rfl fun h hh => prod_congr rfl fun j _ => prod_congr rfl fun i _ => ?_
        rw [mem_bondVals] at hv hh
        simp only [Nat.add_sub_cancel_left]
        exact if_pos ⟨⟨Nat.le_add_right _ _, hv _ _⟩, ⟨Nat.le_add_right _ _, hh _ _⟩, ⟨Nat.le_add_right _ _, hv _ _⟩, Nat.le_add_right _ _, hh _ _⟩

end

/-! ## Examples -/

example := add_eq_partial exOnes_holds exOnes_holds exOnes_open exOnes_open rfl rfl

/-- a product state on two rows and three columns, as `fPEPS(data)` builds it: `Lx` is the number of rows -/
noncomputable def exWide : FPEPS := ⟨gridList fun (_ : Fin 2) (_ : Fin 3) => onesND [2, 1, 1, 1, 1], 2, 3, 2, 1, none⟩

theorem exWide_holds : exWide.Holds 2 3 (fun _ _ => 2) (fun _ _ => 1) (fun _ _ => 1) (fun _ _ => onesND [2, 1, 1, 1, 1]) :=
  ⟨fun _ _ => rfl, rfl, by simp, by simp⟩

theorem exWide_init : init exWide.data = .ok exWide := by
  unfold exWide
  rfl

/-- **C84 fails** on grids that are not square and whose numbers of rows and columns were counted by the constructor: the sum of the state with itself
is not a PEPS, its bonds do not fit together; making a vector of it raises `ValueError`. -/
theorem add_not_peps : ∃ z, add exWide exWide = .ok z ∧ (¬ ∃ ph vE hE g, z.Holds 2 3 ph vE hE g) ∧ z.recombine = .error .valueError := by
  refine ⟨_, rfl, ?_, ?_⟩
  · rintro ⟨ph, vE, hE, g, h⟩
    have h0 := congrArg (fun l => l.map fun r => r.map ND.shape) h.data
    have h1 : (g 0 1).shape = [2, 1, 1, 2, 2] := (congrArg (fun l => (l.getD 0 []).getD 1 []) h0).symm
    have h2 : (g 0 2).shape = [2, 1, 2, 2, 2] := (congrArg (fun l => (l.getD 0 []).getD 2 []) h0).symm
    rw [h.grid 0 1] at h1
    rw [h.grid 0 2] at h2
    simp only [List.cons.injEq] at h1 h2
    have h3 := h1.2.2.1
    have h4 := h2.2.2.2.2.1
    rw [show ((2 : Fin 3).castSucc) = (1 : Fin 3).succ from rfl, h3] at h4
    exact absurd h4 (by decide)
  · rfl

end Xmps.FPEPS
