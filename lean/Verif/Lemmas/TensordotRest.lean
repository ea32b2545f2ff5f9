import Verif.Base.NpMore
import Mathlib.Data.List.OfFn

/-!
# `tensordot` of a rank 3 array with an array of any rank
-/

namespace Xmps.ND

open Finset

variable {K : Type}

theorem range_two_add (k : ℕ) : List.range (k + 2) = 0 :: 1 :: List.range' 2 k := by
  rw [List.range_eq_range', List.range'_succ, List.range'_succ]

theorem range_three_add (k : ℕ) : List.range (k + 3) = 0 :: 1 :: 2 :: List.range' 3 k := by
  rw [List.range_eq_range', List.range'_succ, List.range'_succ, List.range'_succ]

theorem map_getD_range' (q : List ℕ) (t : List ℕ) (n : ℕ) (hn : n = q.length) :
    ((List.range' n t.length).map fun p => (q ++ t).getD p 0) = t := by
  subst hn
  apply List.ext_getElem
  · simp
  intro i h1 h2
  simp only [List.getElem_map, List.getElem_range', one_mul]
  simp only [List.length_map, List.length_range'] at h1
  rw [List.getD_append_right _ _ _ _ (by omega), Nat.add_sub_cancel_left, List.getD_eq_getElem _ _ h1]

theorem map_dim_range' {B : ND K} {q rest : List ℕ} (hB : B.shape = q ++ rest) :
    (List.range' q.length rest.length).map B.dim = rest := by
  have : B.dim = fun p => (q ++ rest).getD p 0 := by funext p; simp [dim, hB]
  rw [this, map_getD_range' q rest _ rfl]

theorem idxOf_range' {q : List ℕ} {n k p : ℕ} (hq : ∀ x ∈ q, x < n) (hl : q.length = n) (h1 : n ≤ p) (h2 : p < n + k) :
    (q ++ List.range' n k).idxOf p = p := by
  rw [List.idxOf_append_of_notMem fun h => by have := hq p h; omega, hl]
  have e : (List.range' n k).idxOf p = p - n := by
    have hnd : (List.range' n k).Nodup := List.nodup_range'
    have : (List.range' n k)[p - n]'(by simp; omega) = p := by simp; omega
    conv_lhs => rw [← this]
    exact hnd.idxOf_getElem _ _
  omega

section
variable [AddCommMonoid K] [Mul K]

/-- contraction of the last axis with the second one -/
theorem tensordot_2_1 {A B : ND K} {d l r p : ℕ} {rest : List ℕ} (hA : A.shape = [d, l, r]) (hB : B.shape = p :: r :: rest) :
    ∃ C, A.tensordot B [2] [1] = .ok C ∧ C.shape = d :: l :: p :: rest ∧
      ∀ s a u t, t.length = rest.length → C.val (s :: a :: u :: t) = ∑ c ∈ range r, A.val [s, a, c] * B.val (u :: c :: t) := by
  have hrA : A.rank = 3 := by simp [rank, hA]
  have hrB : B.rank = rest.length + 2 := by simp [rank, hB]
  have o1 : others 3 [2] = [0, 1] := by decide
  have o2 : others (rest.length + 2) [1] = 0 :: List.range' 2 rest.length := by
    unfold others
    rw [range_two_add]
    simp only [List.mem_singleton, decide_not, List.filter_cons]
    simp only [decide_true, Bool.not_true, Bool.false_eq_true, if_false, show ¬ (0 = 1) by omega, decide_false, Bool.not_false, if_true]
    congr 1
    rw [List.filter_eq_self]
    intro a ha
    simp only [List.mem_range'_1] at ha
    simp; omega
  refine ⟨A.tensordotR B [2] [1], ?_, ?_, ?_⟩
  · simp [tensordot, hrA, hrB, dim, hA, hB]
  · unfold tensordotR
    simp only [hrA, hrB, o1, o2, List.map_cons]
    have := map_dim_range' (B := B) (q := [p, r]) (rest := rest) hB
    simp only [List.length_cons, List.length_nil] at this
    rw [this]
    simp [dim, hA, hB]
  · intro s a u t ht
    unfold tensordotR
    simp only [hrA, hrB, o1, o2, List.map_cons, List.map_nil, sumIdx_cons, sumIdx_nil]
    have h2 : A.dim 2 = r := by simp [dim, hA]
    rw [h2]
    refine Finset.sum_congr rfl fun c _ => ?_
    have eA : (A.transposeR ([0, 1] ++ [2])).val ((s :: a :: u :: t).take [0, 1].length ++ [c]) = A.val [s, a, c] := by
      simp [transposeR, hrA, List.range_succ]
    have eB : (B.transposeR ([1] ++ (0 :: List.range' 2 rest.length))).val ([c] ++ (s :: a :: u :: t).drop [0, 1].length) =
        B.val (u :: c :: t) := by
      show B.val _ = _
      congr 1
      rw [hrB, range_two_add]
      simp only [List.map_cons, List.length_cons, List.length_nil, List.drop_succ_cons, List.drop_zero]
      congr 1
      congr 1
      rw [← ht]
      conv_rhs => rw [← map_getD_range' [c, u] t 2 rfl]
      refine List.map_congr_left fun q hq => ?_
      rw [List.mem_range'_1] at hq
      have : ([1] ++ 0 :: List.range' 2 t.length).idxOf q = q := by
        have := idxOf_range' (q := [1, 0]) (n := 2) (k := t.length) (p := q) (by simp) rfl hq.1 hq.2
        simpa using this
      rw [this]
      rfl
    rw [eA, eB]

/-- contraction of the first and last axes with the first and third ones -/
theorem tensordot_02_02 {A B : ND K} {d l r p : ℕ} {rest : List ℕ} (hA : A.shape = [d, l, r]) (hB : B.shape = d :: p :: r :: rest) :
    ∃ C, A.tensordot B [0, 2] [0, 2] = .ok C ∧ C.shape = l :: p :: rest ∧
      ∀ a u t, t.length = rest.length → C.val (a :: u :: t) =
        ∑ s ∈ range d, ∑ c ∈ range r, A.val [s, a, c] * B.val (s :: u :: c :: t) := by
  have hrA : A.rank = 3 := by simp [rank, hA]
  have hrB : B.rank = rest.length + 3 := by simp [rank, hB]
  have o1 : others 3 [0, 2] = [1] := by decide
  have o2 : others (rest.length + 3) [0, 2] = 1 :: List.range' 3 rest.length := by
    unfold others
    rw [range_three_add]
    simp only [List.filter_cons]
    simp only [List.mem_cons, List.not_mem_nil, or_false, true_or, or_true, not_true_eq_false, decide_false, Bool.false_eq_true, if_false,
      show ¬ (1 = 0 ∨ 1 = 2) by omega, not_false_eq_true, decide_true, if_true]
    congr 1
    rw [List.filter_eq_self]
    intro a ha
    simp only [List.mem_range'_1] at ha
    simp; omega
  refine ⟨A.tensordotR B [0, 2] [0, 2], ?_, ?_, ?_⟩
  · simp [tensordot, hrA, hrB, dim, hA, hB]
  · unfold tensordotR
    simp only [hrA, hrB, o1, o2, List.map_cons]
    have := map_dim_range' (B := B) (q := [d, p, r]) (rest := rest) hB
    simp only [List.length_cons, List.length_nil] at this
    rw [this]
    simp [dim, hA, hB]
  · intro a u t ht
    unfold tensordotR
    simp only [hrA, hrB, o1, o2, List.map_cons, List.map_nil, sumIdx_cons, sumIdx_nil]
    have h0 : A.dim 0 = d := by simp [dim, hA]
    have h2 : A.dim 2 = r := by simp [dim, hA]
    rw [h0, h2]
    refine Finset.sum_congr rfl fun s _ => Finset.sum_congr rfl fun c _ => ?_
    have eA : (A.transposeR ([1] ++ [0, 2])).val ((a :: u :: t).take [1].length ++ [s, c]) = A.val [s, a, c] := by
      simp [transposeR, hrA, List.range_succ]
    have eB : (B.transposeR ([0, 2] ++ (1 :: List.range' 3 rest.length))).val ([s, c] ++ (a :: u :: t).drop [1].length) =
        B.val (s :: u :: c :: t) := by
      show B.val _ = _
      congr 1
      rw [hrB, range_three_add]
      simp only [List.map_cons, List.length_cons, List.length_nil, List.drop_succ_cons, List.drop_zero]
      congr 1
      congr 1
      congr 1
      rw [← ht]
      conv_rhs => rw [← map_getD_range' [s, c, u] t 3 rfl]
      refine List.map_congr_left fun q hq => ?_
      rw [List.mem_range'_1] at hq
      have : ([0, 2] ++ 1 :: List.range' 3 t.length).idxOf q = q := by
        have := idxOf_range' (q := [0, 2, 1]) (n := 3) (k := t.length) (p := q) (by simp) rfl hq.1 hq.2
        simpa using this
      rw [this]
      rfl
    rw [eA, eB]

end

end Xmps.ND
