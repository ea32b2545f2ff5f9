import Verif.Model.PepsIso
import Verif.Spec.IsoPeps
import Verif.Spec.Lapack
import Verif.Lemmas.Ungroup
import Verif.Lemmas.IsoBraket

/-!
# The tensors `tensor_isometrise_diag` and `tensor_isometrise_lrud` return
-/

namespace Xmps.FPEPS

open Finset Spec

/-- columns with indices split into legs -/
theorem cols_legs {U : ND ℂ} {ins outs : List ℕ} (hU : U.shape = [ins.prod, outs.prod]) (ho : ColsOrtho U) {o o' : List ℕ}
    (h : InB outs o) (h' : InB outs o') :
    sumIdx ins (fun q => star (U.val [ravel ins q, ravel outs o]) * U.val [ravel ins q, ravel outs o']) = if o = o' then 1 else 0 := by
  have k := ho (ravel outs o) (by simpa [ND.dim, hU] using ravel_lt h) (ravel outs o') (by simpa [ND.dim, hU] using ravel_lt h')
  have d0 : U.dim 0 = ins.prod := by simp [ND.dim, hU]
  rw [d0] at k
  rw [sumIdx_eq_range, sum_congr rfl fun i hi => by rw [ravel_unravel (mem_range.1 hi)], k]
  refine if_congr ⟨fun e => ?_, fun e => by rw [e]⟩ rfl rfl
  rw [← unravel_ravel h, e, unravel_ravel h']

variable {svd : ND ℂ → Py (ND ℂ × List ℝ × ND ℂ)}

/-- the matrix of left singular vectors put back into the form of a tensor -/
theorem isometriseLegs_ok (hsvd : SVDLaw svd) {A : ND ℂ} {ins outs : List ℕ} (h : AxisPartition [ins, outs] A.rank)
    (hpos : ∀ e ∈ A.shape, 0 < e) (hle : (outs.map A.dim).prod ≤ (ins.map A.dim).prod) :
    ∃ B U, isometriseLegs svd A [ins, outs] = .ok B ∧ B.shape = A.shape ∧ U.shape = [(ins.map A.dim).prod, (outs.map A.dim).prod] ∧ ColsOrtho U ∧
      ∀ idx, InB A.shape idx →
        B.val idx = U.val [ravel (ins.map A.dim) (ins.map fun p => idx.getD p 0), ravel (outs.map A.dim) (outs.map fun p => idx.getD p 0)] := by
  obtain ⟨M, h1, h2⟩ := groupLegs_pipe h
  have h2 : M.shape = [(ins.map A.dim).prod, (outs.map A.dim).prod] := h2
  have hpd : ∀ leg ∈ [ins, outs], 0 < (leg.map A.dim).prod := by
    intro leg hl
    refine Nat.pos_of_ne_zero fun hz => ?_
    obtain ⟨p, hp, hz⟩ := List.mem_map.1 (List.prod_eq_zero_iff.1 hz)
    have hp' : p < A.rank := by simpa using h.2.mem_iff.1 (List.mem_flatten.2 ⟨leg, hl, hp⟩)
    have : A.dim p ∈ A.shape := by
      rw [ND.dim, List.getD_eq_getElem _ _ hp']
      exact List.getElem_mem _
    exact absurd hz (Nat.pos_iff_ne_zero.1 (hpos _ this))
  obtain ⟨U, S, V, h3, h4, _, _, h5, _⟩ := hsvd M _ _ h2 (hpd ins (by simp)) (hpd outs (by simp))
  rw [min_eq_right hle] at h4
  obtain ⟨B, h6, h7, h8⟩ := ungroupLegs_val (f := A.dim) h (U := U) h4
  rw [map_getD_dim] at h7 h8
  refine ⟨B, U, ?_, h7, h4, h5, fun idx hi => h8 idx hi⟩
  unfold isometriseLegs
  rw [h1, ok_bind]
  have e : M.dim 1 ≤ M.dim 0 := by simpa [ND.dim, h2] using hle
  simp only [if_pos e, h3, ok_bind]
  exact h6

theorem isometriseLegs_err {A : ND ℂ} {ins outs : List ℕ} (h : AxisPartition [ins, outs] A.rank)
    (hlt : (ins.map A.dim).prod < (outs.map A.dim).prod) : isometriseLegs svd A [ins, outs] = .error .exception := by
  obtain ⟨M, h1, h2⟩ := groupLegs_pipe h
  unfold isometriseLegs
  rw [h1, ok_bind]
  have e : ¬ M.dim 1 ≤ M.dim 0 := by simpa [ND.dim, h2] using hlt
  simp only [if_neg e]

/-- the product of the extents of the incoming legs and the physical one -/
def inSize (p u r d l : ℕ) (iu ir id il : Prop) [Decidable iu] [Decidable ir] [Decidable id] [Decidable il] : ℕ :=
  p * (if iu then u else 1) * (if ir then r else 1) * (if id then d else 1) * (if il then l else 1)

/-- the product of the extents of the outgoing legs -/
def outSize (u r d l : ℕ) (iu ir id il : Prop) [Decidable iu] [Decidable ir] [Decidable id] [Decidable il] : ℕ :=
  (if iu then 1 else u) * (if ir then 1 else r) * (if id then 1 else d) * (if il then 1 else l)

/-- what the two functions do with a tensor, for given incoming legs -/
def IsoStep (svd : ND ℂ → Py (ND ℂ × List ℝ × ND ℂ)) (A : ND ℂ) (legs : List (List ℕ)) (p u r d l : ℕ)
    (iu ir id il : Prop) [Decidable iu] [Decidable ir] [Decidable id] [Decidable il] : Prop :=
  (outSize u r d l iu ir id il ≤ inSize p u r d l iu ir id il →
    ∃ B, isometriseLegs svd A legs = .ok B ∧ B.shape = A.shape ∧ IsoSite B p u r d l iu ir id il) ∧
  (inSize p u r d l iu ir id il < outSize u r d l iu ir id il → isometriseLegs svd A legs = .error .exception)

variable {A : ND ℂ} {p u r d l : ℕ}
  {iu ir id il : Prop} [Decidable iu] [Decidable ir] [Decidable id] [Decidable il]

theorem step_diag1 (hsvd : SVDLaw svd) (hA : A.shape = [p, u, r, d, l]) (hpos : ∀ e ∈ A.shape, 0 < e)
    (h1 : iu) (h2 : ir) (h3 : ¬ id) (h4 : ¬ il) : IsoStep svd A (legsDiag 1) p u r d l iu ir id il := by
  have hpart : AxisPartition [[0, 1, 2], [4, 3]] A.rank := by
    refine ⟨by simp, ?_⟩
    rw [ND.rank, hA]
    show List.Perm _ (List.range 5)
    decide
  have hlegs : legsDiag 1 = [[0, 1, 2], [4, 3]] := by decide
  have ei : ([0, 1, 2].map A.dim) = [p, u, r] := by simp [ND.dim, hA]
  have eo : ([4, 3].map A.dim) = [l, d] := by simp [ND.dim, hA]
  have pi : ([p, u, r] : List ℕ).prod = inSize p u r d l iu ir id il := by
    simp only [inSize, h1, h2, h3, h4, if_true, if_false, List.prod_cons, List.prod_nil]
    ring
  have po : ([l, d] : List ℕ).prod = outSize u r d l iu ir id il := by
    simp only [outSize, h1, h2, h3, h4, if_true, if_false, List.prod_cons, List.prod_nil]
    ring
  constructor
  · intro hle
    obtain ⟨B, U, h5, h6, h7, h8, h9⟩ := isometriseLegs_ok hsvd hpart hpos (by rw [ei, eo, pi, po]; exact hle)
    rw [ei, eo] at h7 h9
    refine ⟨B, by rw [hlegs]; exact h5, h6, ?_⟩
    intro a a' b b' c c' e e' k1 k2 k3 k4
    have q4 := k4.resolve_left h4
    have q3 := k3.resolve_left h3
    have key := cols_legs h7 h8 (o := [e, c]) (o' := [e', c']) (by simp [q4, q3]) (by simp [q4, q3])
    simp only [sumIdx_cons, sumIdx_nil] at key
    simp only [sum_legPairs_in h1, sum_legPairs_in h2, sum_legPairs_out h3, sum_legPairs_out h4]
    rw [sum_congr rfl fun s hs => sum_congr rfl fun a ha => sum_congr rfl fun b hb => by
      rw [h9 [s, a, b, c, e] (by rw [hA]; exact ⟨mem_range.1 hs, mem_range.1 ha, mem_range.1 hb, q3.1, q4.1, trivial⟩), h9 [s, a, b, c', e'] (by rw [hA]; exact ⟨mem_range.1 hs, mem_range.1 ha, mem_range.1 hb, q3.2, q4.2, trivial⟩)]]
    have hc : ((iu ∨ a = a') ∧ (ir ∨ b = b') ∧ (id ∨ c = c') ∧ (il ∨ e = e')) ↔ [e, c] = [e', c'] := by
      simp only [h1, h2, h3, h4, true_or, false_or, true_and, and_true, List.cons.injEq]
      try tauto
    rw [if_congr hc rfl rfl, ← key]
    rfl
  · intro hlt
    rw [hlegs]
    exact isometriseLegs_err hpart (by rw [ei, eo, pi, po]; exact hlt)

theorem step_diag2 (hsvd : SVDLaw svd) (hA : A.shape = [p, u, r, d, l]) (hpos : ∀ e ∈ A.shape, 0 < e)
    (h1 : ¬ iu) (h2 : ir) (h3 : id) (h4 : ¬ il) : IsoStep svd A (legsDiag 2) p u r d l iu ir id il := by
  have hpart : AxisPartition [[0, 2, 3], [1, 4]] A.rank := by
    refine ⟨by simp, ?_⟩
    rw [ND.rank, hA]
    show List.Perm _ (List.range 5)
    decide
  have hlegs : legsDiag 2 = [[0, 2, 3], [1, 4]] := by decide
  have ei : ([0, 2, 3].map A.dim) = [p, r, d] := by simp [ND.dim, hA]
  have eo : ([1, 4].map A.dim) = [u, l] := by simp [ND.dim, hA]
  have pi : ([p, r, d] : List ℕ).prod = inSize p u r d l iu ir id il := by
    simp only [inSize, h1, h2, h3, h4, if_true, if_false, List.prod_cons, List.prod_nil]
    ring
  have po : ([u, l] : List ℕ).prod = outSize u r d l iu ir id il := by
    simp only [outSize, h1, h2, h3, h4, if_true, if_false, List.prod_cons, List.prod_nil]
    ring
  constructor
  · intro hle
    obtain ⟨B, U, h5, h6, h7, h8, h9⟩ := isometriseLegs_ok hsvd hpart hpos (by rw [ei, eo, pi, po]; exact hle)
    rw [ei, eo] at h7 h9
    refine ⟨B, by rw [hlegs]; exact h5, h6, ?_⟩
    intro a a' b b' c c' e e' k1 k2 k3 k4
    have q1 := k1.resolve_left h1
    have q4 := k4.resolve_left h4
    have key := cols_legs h7 h8 (o := [a, e]) (o' := [a', e']) (by simp [q1, q4]) (by simp [q1, q4])
    simp only [sumIdx_cons, sumIdx_nil] at key
    simp only [sum_legPairs_out h1, sum_legPairs_in h2, sum_legPairs_in h3, sum_legPairs_out h4]
    rw [sum_congr rfl fun s hs => sum_congr rfl fun b hb => sum_congr rfl fun c hc => by
      rw [h9 [s, a, b, c, e] (by rw [hA]; exact ⟨mem_range.1 hs, q1.1, mem_range.1 hb, mem_range.1 hc, q4.1, trivial⟩), h9 [s, a', b, c, e'] (by rw [hA]; exact ⟨mem_range.1 hs, q1.2, mem_range.1 hb, mem_range.1 hc, q4.2, trivial⟩)]]
    have hc : ((iu ∨ a = a') ∧ (ir ∨ b = b') ∧ (id ∨ c = c') ∧ (il ∨ e = e')) ↔ [a, e] = [a', e'] := by
      simp only [h1, h2, h3, h4, true_or, false_or, true_and, and_true, List.cons.injEq]
      try tauto
    rw [if_congr hc rfl rfl, ← key]
    rfl
  · intro hlt
    rw [hlegs]
    exact isometriseLegs_err hpart (by rw [ei, eo, pi, po]; exact hlt)

theorem step_diag3 (hsvd : SVDLaw svd) (hA : A.shape = [p, u, r, d, l]) (hpos : ∀ e ∈ A.shape, 0 < e)
    (h1 : ¬ iu) (h2 : ¬ ir) (h3 : id) (h4 : il) : IsoStep svd A (legsDiag 3) p u r d l iu ir id il := by
  have hpart : AxisPartition [[0, 3, 4], [2, 1]] A.rank := by
    refine ⟨by simp, ?_⟩
    rw [ND.rank, hA]
    show List.Perm _ (List.range 5)
    decide
  have hlegs : legsDiag 3 = [[0, 3, 4], [2, 1]] := by decide
  have ei : ([0, 3, 4].map A.dim) = [p, d, l] := by simp [ND.dim, hA]
  have eo : ([2, 1].map A.dim) = [r, u] := by simp [ND.dim, hA]
  have pi : ([p, d, l] : List ℕ).prod = inSize p u r d l iu ir id il := by
    simp only [inSize, h1, h2, h3, h4, if_true, if_false, List.prod_cons, List.prod_nil]
    ring
  have po : ([r, u] : List ℕ).prod = outSize u r d l iu ir id il := by
    simp only [outSize, h1, h2, h3, h4, if_true, if_false, List.prod_cons, List.prod_nil]
    ring
  constructor
  · intro hle
    obtain ⟨B, U, h5, h6, h7, h8, h9⟩ := isometriseLegs_ok hsvd hpart hpos (by rw [ei, eo, pi, po]; exact hle)
    rw [ei, eo] at h7 h9
    refine ⟨B, by rw [hlegs]; exact h5, h6, ?_⟩
    intro a a' b b' c c' e e' k1 k2 k3 k4
    have q2 := k2.resolve_left h2
    have q1 := k1.resolve_left h1
    have key := cols_legs h7 h8 (o := [b, a]) (o' := [b', a']) (by simp [q2, q1]) (by simp [q2, q1])
    simp only [sumIdx_cons, sumIdx_nil] at key
    simp only [sum_legPairs_out h1, sum_legPairs_out h2, sum_legPairs_in h3, sum_legPairs_in h4]
    rw [sum_congr rfl fun s hs => sum_congr rfl fun c hc => sum_congr rfl fun e he => by
      rw [h9 [s, a, b, c, e] (by rw [hA]; exact ⟨mem_range.1 hs, q1.1, q2.1, mem_range.1 hc, mem_range.1 he, trivial⟩), h9 [s, a', b', c, e] (by rw [hA]; exact ⟨mem_range.1 hs, q1.2, q2.2, mem_range.1 hc, mem_range.1 he, trivial⟩)]]
    have hc : ((iu ∨ a = a') ∧ (ir ∨ b = b') ∧ (id ∨ c = c') ∧ (il ∨ e = e')) ↔ [b, a] = [b', a'] := by
      simp only [h1, h2, h3, h4, true_or, false_or, true_and, and_true, List.cons.injEq]
      try tauto
    rw [if_congr hc rfl rfl, ← key]
    rfl
  · intro hlt
    rw [hlegs]
    exact isometriseLegs_err hpart (by rw [ei, eo, pi, po]; exact hlt)

theorem step_diag4 (hsvd : SVDLaw svd) (hA : A.shape = [p, u, r, d, l]) (hpos : ∀ e ∈ A.shape, 0 < e)
    (h1 : iu) (h2 : ¬ ir) (h3 : ¬ id) (h4 : il) : IsoStep svd A (legsDiag 4) p u r d l iu ir id il := by
  have hpart : AxisPartition [[0, 4, 1], [3, 2]] A.rank := by
    refine ⟨by simp, ?_⟩
    rw [ND.rank, hA]
    show List.Perm _ (List.range 5)
    decide
  have hlegs : legsDiag 4 = [[0, 4, 1], [3, 2]] := by decide
  have ei : ([0, 4, 1].map A.dim) = [p, l, u] := by simp [ND.dim, hA]
  have eo : ([3, 2].map A.dim) = [d, r] := by simp [ND.dim, hA]
  have pi : ([p, l, u] : List ℕ).prod = inSize p u r d l iu ir id il := by
    simp only [inSize, h1, h2, h3, h4, if_true, if_false, List.prod_cons, List.prod_nil]
    ring
  have po : ([d, r] : List ℕ).prod = outSize u r d l iu ir id il := by
    simp only [outSize, h1, h2, h3, h4, if_true, if_false, List.prod_cons, List.prod_nil]
    ring
  constructor
  · intro hle
    obtain ⟨B, U, h5, h6, h7, h8, h9⟩ := isometriseLegs_ok hsvd hpart hpos (by rw [ei, eo, pi, po]; exact hle)
    rw [ei, eo] at h7 h9
    refine ⟨B, by rw [hlegs]; exact h5, h6, ?_⟩
    intro a a' b b' c c' e e' k1 k2 k3 k4
    have q3 := k3.resolve_left h3
    have q2 := k2.resolve_left h2
    have key := cols_legs h7 h8 (o := [c, b]) (o' := [c', b']) (by simp [q3, q2]) (by simp [q3, q2])
    simp only [sumIdx_cons, sumIdx_nil] at key
    simp only [sum_legPairs_in h1, sum_legPairs_out h2, sum_legPairs_out h3, sum_legPairs_in h4]
    rw [sum_congr rfl fun s hs => sum_congr rfl fun a ha => sum_congr rfl fun e he => by
      rw [h9 [s, a, b, c, e] (by rw [hA]; exact ⟨mem_range.1 hs, mem_range.1 ha, q2.1, q3.1, mem_range.1 he, trivial⟩), h9 [s, a, b', c', e] (by rw [hA]; exact ⟨mem_range.1 hs, mem_range.1 ha, q2.2, q3.2, mem_range.1 he, trivial⟩)]]
    have hc : ((iu ∨ a = a') ∧ (ir ∨ b = b') ∧ (id ∨ c = c') ∧ (il ∨ e = e')) ↔ [c, b] = [c', b'] := by
      simp only [h1, h2, h3, h4, true_or, false_or, true_and, and_true, List.cons.injEq]
      try tauto
    rw [if_congr hc rfl rfl, ← key]
    refine sum_congr rfl fun s _ => ?_
    rw [sum_comm]
    rfl
  · intro hlt
    rw [hlegs]
    exact isometriseLegs_err hpart (by rw [ei, eo, pi, po]; exact hlt)

theorem step_lrud1 (hsvd : SVDLaw svd) (hA : A.shape = [p, u, r, d, l]) (hpos : ∀ e ∈ A.shape, 0 < e)
    (h1 : iu) (h2 : ir) (h3 : ¬ id) (h4 : il) : IsoStep svd A (legsLrud 1) p u r d l iu ir id il := by
  have hpart : AxisPartition [[0, 4, 1, 2], [3]] A.rank := by
    refine ⟨by simp, ?_⟩
    rw [ND.rank, hA]
    show List.Perm _ (List.range 5)
    decide
  have hlegs : legsLrud 1 = [[0, 4, 1, 2], [3]] := by decide
  have ei : ([0, 4, 1, 2].map A.dim) = [p, l, u, r] := by simp [ND.dim, hA]
  have eo : ([3].map A.dim) = [d] := by simp [ND.dim, hA]
  have pi : ([p, l, u, r] : List ℕ).prod = inSize p u r d l iu ir id il := by
    simp only [inSize, h1, h2, h3, h4, if_true, if_false, List.prod_cons, List.prod_nil]
    ring
  have po : ([d] : List ℕ).prod = outSize u r d l iu ir id il := by
    simp only [outSize, h1, h2, h3, h4, if_true, if_false, List.prod_cons, List.prod_nil]
    ring
  constructor
  · intro hle
    obtain ⟨B, U, h5, h6, h7, h8, h9⟩ := isometriseLegs_ok hsvd hpart hpos (by rw [ei, eo, pi, po]; exact hle)
    rw [ei, eo] at h7 h9
    refine ⟨B, by rw [hlegs]; exact h5, h6, ?_⟩
    intro a a' b b' c c' e e' k1 k2 k3 k4
    have q3 := k3.resolve_left h3
    have key := cols_legs h7 h8 (o := [c]) (o' := [c']) (by simp [q3]) (by simp [q3])
    simp only [sumIdx_cons, sumIdx_nil] at key
    simp only [sum_legPairs_in h1, sum_legPairs_in h2, sum_legPairs_out h3, sum_legPairs_in h4]
    rw [sum_congr rfl fun s hs => sum_congr rfl fun a ha => sum_congr rfl fun b hb => sum_congr rfl fun e he => by
      rw [h9 [s, a, b, c, e] (by rw [hA]; exact ⟨mem_range.1 hs, mem_range.1 ha, mem_range.1 hb, q3.1, mem_range.1 he, trivial⟩), h9 [s, a, b, c', e] (by rw [hA]; exact ⟨mem_range.1 hs, mem_range.1 ha, mem_range.1 hb, q3.2, mem_range.1 he, trivial⟩)]]
    have hc : ((iu ∨ a = a') ∧ (ir ∨ b = b') ∧ (id ∨ c = c') ∧ (il ∨ e = e')) ↔ [c] = [c'] := by
      simp only [h1, h2, h3, h4, true_or, false_or, true_and, and_true, List.cons.injEq]
      try tauto
    rw [if_congr hc rfl rfl, ← key]
    refine sum_congr rfl fun s _ => ?_
    rw [sum_congr rfl fun a _ => sum_comm, sum_comm]
    rfl
  · intro hlt
    rw [hlegs]
    exact isometriseLegs_err hpart (by rw [ei, eo, pi, po]; exact hlt)

theorem step_lrud2 (hsvd : SVDLaw svd) (hA : A.shape = [p, u, r, d, l]) (hpos : ∀ e ∈ A.shape, 0 < e)
    (h1 : iu) (h2 : ir) (h3 : id) (h4 : ¬ il) : IsoStep svd A (legsLrud 2) p u r d l iu ir id il := by
  have hpart : AxisPartition [[0, 1, 2, 3], [4]] A.rank := by
    refine ⟨by simp, ?_⟩
    rw [ND.rank, hA]
    show List.Perm _ (List.range 5)
    decide
  have hlegs : legsLrud 2 = [[0, 1, 2, 3], [4]] := by decide
  have ei : ([0, 1, 2, 3].map A.dim) = [p, u, r, d] := by simp [ND.dim, hA]
  have eo : ([4].map A.dim) = [l] := by simp [ND.dim, hA]
  have pi : ([p, u, r, d] : List ℕ).prod = inSize p u r d l iu ir id il := by
    simp only [inSize, h1, h2, h3, h4, if_true, if_false, List.prod_cons, List.prod_nil]
    ring
  have po : ([l] : List ℕ).prod = outSize u r d l iu ir id il := by
    simp only [outSize, h1, h2, h3, h4, if_true, if_false, List.prod_cons, List.prod_nil]
    ring
  constructor
  · intro hle
    obtain ⟨B, U, h5, h6, h7, h8, h9⟩ := isometriseLegs_ok hsvd hpart hpos (by rw [ei, eo, pi, po]; exact hle)
    rw [ei, eo] at h7 h9
    refine ⟨B, by rw [hlegs]; exact h5, h6, ?_⟩
    intro a a' b b' c c' e e' k1 k2 k3 k4
    have q4 := k4.resolve_left h4
    have key := cols_legs h7 h8 (o := [e]) (o' := [e']) (by simp [q4]) (by simp [q4])
    simp only [sumIdx_cons, sumIdx_nil] at key
    simp only [sum_legPairs_in h1, sum_legPairs_in h2, sum_legPairs_in h3, sum_legPairs_out h4]
    rw [sum_congr rfl fun s hs => sum_congr rfl fun a ha => sum_congr rfl fun b hb => sum_congr rfl fun c hc => by
      rw [h9 [s, a, b, c, e] (by rw [hA]; exact ⟨mem_range.1 hs, mem_range.1 ha, mem_range.1 hb, mem_range.1 hc, q4.1, trivial⟩), h9 [s, a, b, c, e'] (by rw [hA]; exact ⟨mem_range.1 hs, mem_range.1 ha, mem_range.1 hb, mem_range.1 hc, q4.2, trivial⟩)]]
    have hc : ((iu ∨ a = a') ∧ (ir ∨ b = b') ∧ (id ∨ c = c') ∧ (il ∨ e = e')) ↔ [e] = [e'] := by
      simp only [h1, h2, h3, h4, true_or, false_or, true_and, and_true, List.cons.injEq]
      try tauto
    rw [if_congr hc rfl rfl, ← key]
    rfl
  · intro hlt
    rw [hlegs]
    exact isometriseLegs_err hpart (by rw [ei, eo, pi, po]; exact hlt)

theorem step_lrud3 (hsvd : SVDLaw svd) (hA : A.shape = [p, u, r, d, l]) (hpos : ∀ e ∈ A.shape, 0 < e)
    (h1 : ¬ iu) (h2 : ir) (h3 : id) (h4 : il) : IsoStep svd A (legsLrud 3) p u r d l iu ir id il := by
  have hpart : AxisPartition [[0, 2, 3, 4], [1]] A.rank := by
    refine ⟨by simp, ?_⟩
    rw [ND.rank, hA]
    show List.Perm _ (List.range 5)
    decide
  have hlegs : legsLrud 3 = [[0, 2, 3, 4], [1]] := by decide
  have ei : ([0, 2, 3, 4].map A.dim) = [p, r, d, l] := by simp [ND.dim, hA]
  have eo : ([1].map A.dim) = [u] := by simp [ND.dim, hA]
  have pi : ([p, r, d, l] : List ℕ).prod = inSize p u r d l iu ir id il := by
    simp only [inSize, h1, h2, h3, h4, if_true, if_false, List.prod_cons, List.prod_nil]
    ring
  have po : ([u] : List ℕ).prod = outSize u r d l iu ir id il := by
    simp only [outSize, h1, h2, h3, h4, if_true, if_false, List.prod_cons, List.prod_nil]
    ring
  constructor
  · intro hle
    obtain ⟨B, U, h5, h6, h7, h8, h9⟩ := isometriseLegs_ok hsvd hpart hpos (by rw [ei, eo, pi, po]; exact hle)
    rw [ei, eo] at h7 h9
    refine ⟨B, by rw [hlegs]; exact h5, h6, ?_⟩
    intro a a' b b' c c' e e' k1 k2 k3 k4
    have q1 := k1.resolve_left h1
    have key := cols_legs h7 h8 (o := [a]) (o' := [a']) (by simp [q1]) (by simp [q1])
    simp only [sumIdx_cons, sumIdx_nil] at key
    simp only [sum_legPairs_out h1, sum_legPairs_in h2, sum_legPairs_in h3, sum_legPairs_in h4]
    rw [sum_congr rfl fun s hs => sum_congr rfl fun b hb => sum_congr rfl fun c hc => sum_congr rfl fun e he => by
      rw [h9 [s, a, b, c, e] (by rw [hA]; exact ⟨mem_range.1 hs, q1.1, mem_range.1 hb, mem_range.1 hc, mem_range.1 he, trivial⟩), h9 [s, a', b, c, e] (by rw [hA]; exact ⟨mem_range.1 hs, q1.2, mem_range.1 hb, mem_range.1 hc, mem_range.1 he, trivial⟩)]]
    have hc : ((iu ∨ a = a') ∧ (ir ∨ b = b') ∧ (id ∨ c = c') ∧ (il ∨ e = e')) ↔ [a] = [a'] := by
      simp only [h1, h2, h3, h4, true_or, false_or, true_and, and_true, List.cons.injEq]
      try tauto
    rw [if_congr hc rfl rfl, ← key]
    rfl
  · intro hlt
    rw [hlegs]
    exact isometriseLegs_err hpart (by rw [ei, eo, pi, po]; exact hlt)

theorem step_lrud4 (hsvd : SVDLaw svd) (hA : A.shape = [p, u, r, d, l]) (hpos : ∀ e ∈ A.shape, 0 < e)
    (h1 : iu) (h2 : ¬ ir) (h3 : id) (h4 : il) : IsoStep svd A (legsLrud 4) p u r d l iu ir id il := by
  have hpart : AxisPartition [[0, 3, 4, 1], [2]] A.rank := by
    refine ⟨by simp, ?_⟩
    rw [ND.rank, hA]
    show List.Perm _ (List.range 5)
    decide
  have hlegs : legsLrud 4 = [[0, 3, 4, 1], [2]] := by decide
  have ei : ([0, 3, 4, 1].map A.dim) = [p, d, l, u] := by simp [ND.dim, hA]
  have eo : ([2].map A.dim) = [r] := by simp [ND.dim, hA]
  have pi : ([p, d, l, u] : List ℕ).prod = inSize p u r d l iu ir id il := by
    simp only [inSize, h1, h2, h3, h4, if_true, if_false, List.prod_cons, List.prod_nil]
    ring
  have po : ([r] : List ℕ).prod = outSize u r d l iu ir id il := by
    simp only [outSize, h1, h2, h3, h4, if_true, if_false, List.prod_cons, List.prod_nil]
    ring
  constructor
  · intro hle
    obtain ⟨B, U, h5, h6, h7, h8, h9⟩ := isometriseLegs_ok hsvd hpart hpos (by rw [ei, eo, pi, po]; exact hle)
    rw [ei, eo] at h7 h9
    refine ⟨B, by rw [hlegs]; exact h5, h6, ?_⟩
    intro a a' b b' c c' e e' k1 k2 k3 k4
    have q2 := k2.resolve_left h2
    have key := cols_legs h7 h8 (o := [b]) (o' := [b']) (by simp [q2]) (by simp [q2])
    simp only [sumIdx_cons, sumIdx_nil] at key
    simp only [sum_legPairs_in h1, sum_legPairs_out h2, sum_legPairs_in h3, sum_legPairs_in h4]
    rw [sum_congr rfl fun s hs => sum_congr rfl fun a ha => sum_congr rfl fun c hc => sum_congr rfl fun e he => by
      rw [h9 [s, a, b, c, e] (by rw [hA]; exact ⟨mem_range.1 hs, mem_range.1 ha, q2.1, mem_range.1 hc, mem_range.1 he, trivial⟩), h9 [s, a, b', c, e] (by rw [hA]; exact ⟨mem_range.1 hs, mem_range.1 ha, q2.2, mem_range.1 hc, mem_range.1 he, trivial⟩)]]
    have hc : ((iu ∨ a = a') ∧ (ir ∨ b = b') ∧ (id ∨ c = c') ∧ (il ∨ e = e')) ↔ [b] = [b'] := by
      simp only [h1, h2, h3, h4, true_or, false_or, true_and, and_true, List.cons.injEq]
      try tauto
    rw [if_congr hc rfl rfl, ← key]
    refine sum_congr rfl fun s _ => ?_
    rw [sum_comm]
    refine sum_congr rfl fun c _ => ?_
    rw [sum_comm]
    rfl
  · intro hlt
    rw [hlegs]
    exact isometriseLegs_err hpart (by rw [ei, eo, pi, po]; exact hlt)

end Xmps.FPEPS
