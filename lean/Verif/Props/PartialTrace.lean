import Verif.Lemmas.Einsum

/-! # Property C06: `ρA` and `partial_trace` -/

namespace Xmps

open Finset Xmps.Spec

variable {K : Type}

/-- The second label list of `ρA`/`partial_trace`. -/
def idx2 (keep : List ℕ) (n : ℕ) : List ℕ := (List.range n).map fun i => if i ∈ keep then n + i else i

theorem mem_idx2 {keep : List ℕ} {n x : ℕ} :
    x ∈ idx2 keep n ↔ (x < n ∧ x ∉ keep) ∨ (n ≤ x ∧ x - n < n ∧ x - n ∈ keep) := by
  simp only [idx2, List.mem_map, List.mem_range]
  constructor
  · rintro ⟨i, hi, rfl⟩
    by_cases h : i ∈ keep
    · right; simp [h, hi]
    · left; simp [h, hi]
  · rintro (⟨h1, h2⟩ | ⟨h1, h2, h3⟩)
    · exact ⟨x, h1, by simp [h2]⟩
    · exact ⟨x - n, h2, by simp [h3]; omega⟩

theorem nodup_idx2 (keep : List ℕ) (n : ℕ) : (idx2 keep n).Nodup := by
  refine List.Nodup.map_on ?_ List.nodup_range
  intro x hx y hy h
  simp only [List.mem_range] at hx hy
  split_ifs at h <;> omega

theorem count_labels (keep : List ℕ) (n x : ℕ) : (List.range n ++ idx2 keep n).count x =
    (if x < n then 1 else 0) + (if x ∈ idx2 keep n then 1 else 0) := by
  rw [List.count_append, List.Nodup.count List.nodup_range, List.Nodup.count (nodup_idx2 keep n)]
  simp

/-- The extents of the labels. -/
def ptDim (dims : List ℕ) (x : ℕ) : ℕ := dims.getD (if x < dims.length then x else x - dims.length) 0

theorem out_sorted (keep : List ℕ) (n : ℕ) : (kept keep n ++ (kept keep n).map (n + ·)).Pairwise (· < ·) := by
  rw [List.pairwise_append]
  refine ⟨kept_sorted _ _, ?_, ?_⟩
  · rw [List.pairwise_map]
    exact (kept_sorted keep n).imp (fun h => by omega)
  · intro a ha b hb
    obtain ⟨c, _, rfl⟩ := List.mem_map.1 hb
    have := (mem_kept.1 ha).1
    omega

theorem mem_out {keep : List ℕ} {n x : ℕ} : x ∈ kept keep n ++ (kept keep n).map (n + ·) ↔
    x ∈ List.range n ++ idx2 keep n ∧ (List.range n ++ idx2 keep n).count x = 1 := by
  rw [count_labels, List.mem_append, List.mem_append, mem_kept, List.mem_map, List.mem_range]
  simp only [mem_idx2]
  have e : (∃ a, a ∈ kept keep n ∧ n + a = x) ↔ (n ≤ x ∧ x - n < n ∧ x - n ∈ keep) := by
    constructor
    · rintro ⟨a, ha, rfl⟩
      rw [mem_kept] at ha
      simp [ha]
    · rintro ⟨h1, h2, h3⟩
      exact ⟨x - n, mem_kept.2 ⟨h2, h3⟩, by omega⟩
  rw [e]
  by_cases h1 : x < n
  · have h2 : ¬ n ≤ x := by omega
    by_cases h3 : x ∈ keep <;> simp [h1, h2, h3]
  · have h2 : n ≤ x := by omega
    by_cases h3 : (x - n < n ∧ x - n ∈ keep)
    · simp [h1, h2, h3]
    · simp [h1, h3]

theorem mem_rep {keep : List ℕ} {n x : ℕ} : x ∈ traced keep n ↔
    x ∈ List.range n ++ idx2 keep n ∧ (List.range n ++ idx2 keep n).count x ≠ 1 := by
  rw [count_labels, List.mem_append, mem_traced, List.mem_range]
  simp only [mem_idx2]
  by_cases h1 : x < n
  · have h2 : ¬ n ≤ x := by omega
    by_cases h3 : x ∈ keep <;> simp [h1, h2, h3]
  · have h2 : n ≤ x := by omega
    by_cases h3 : (x - n < n ∧ x - n ∈ keep)
    · simp [h1, h2, h3]
    · simp [h1, h3]

theorem map_dim_range (dims : List ℕ) : (List.range dims.length).map (ptDim dims) = dims := by
  apply List.ext_getElem
  · simp
  · intro i h1 h2; simp [ptDim, h2]

theorem map_dim_idx2 (keep dims : List ℕ) : (idx2 keep dims.length).map (ptDim dims) = dims := by
  apply List.ext_getElem
  · simp [idx2]
  · intro i h1 h2
    simp only [idx2, List.map_map, List.getElem_map, List.getElem_range, Function.comp, ptDim]
    by_cases h : i ∈ keep <;> simp [h, h2]

theorem map_dim_kept (keep dims : List ℕ) :
    (kept keep dims.length ++ (kept keep dims.length).map (dims.length + ·)).map (ptDim dims) =
      ((kept keep dims.length).map fun p => dims.getD p 0) ++ ((kept keep dims.length).map fun p => dims.getD p 0) := by
  rw [List.map_append, List.map_map]
  congr 1
  · refine List.map_congr_left fun p hp => ?_
    simp [ptDim, (mem_kept.1 hp).1]
  · refine List.map_congr_left fun p hp => ?_
    simp [ptDim]

section labels
variable {keep : List ℕ} {n : ℕ} {a b t : List ℕ}

/-- The labels of the result. -/
def outL (keep : List ℕ) (n : ℕ) : List ℕ := kept keep n ++ (kept keep n).map (n + ·)

theorem map_rho1 (ha : a.length = (kept keep n).length) (ht : t.length = (traced keep n).length) :
    ((List.range n).map fun (n : ℕ) => (n : ℤ)).map
      (updates (assign ((outL keep n).map fun (n : ℕ) => (n : ℤ)) (a ++ b)) ((traced keep n).map fun (n : ℕ) => (n : ℤ)) t) =
      merge keep n a t := by
  rw [merge, List.map_map]
  refine List.map_congr_left fun p hpn => ?_
  have hpn' : p < n := by simpa using hpn
  simp only [Function.comp]
  by_cases hk : p ∈ keep
  · have hm : p ∈ kept keep n := mem_kept.2 ⟨hpn', hk⟩
    rw [if_pos hk, updates_of_not_mem _ _ _ (by
      intro h'; exact (mem_traced.1 (mem_cast.1 h')).2 hk), assign, idxOf_cast, outL,
      List.idxOf_append_of_mem hm, List.getD_append _ _ _ _ (by rw [ha]; exact List.idxOf_lt_length_of_mem hm)]
  · have hm : p ∈ traced keep n := mem_traced.2 ⟨hpn', hk⟩
    rw [if_neg hk, updates_mem _ _ _ (nodup_cast (nodup_of_lt (traced_sorted keep n))) (by simpa using ht) (mem_cast.2 hm),
      idxOf_cast]

theorem idxOf_shift (l : List ℕ) (n p : ℕ) : (l.map (n + ·)).idxOf (n + p) = l.idxOf p := by
  induction l with
  | nil => rfl
  | cons a l ih =>
    rw [List.map_cons, List.idxOf_cons, List.idxOf_cons, ih]
    have : (n + a == n + p) = (a == p) := by rw [Bool.eq_iff_iff]; simp
    rw [this]

theorem map_rho2 (ha : a.length = (kept keep n).length) (ht : t.length = (traced keep n).length) :
    ((idx2 keep n).map fun (n : ℕ) => (n : ℤ)).map
      (updates (assign ((outL keep n).map fun (n : ℕ) => (n : ℤ)) (a ++ b)) ((traced keep n).map fun (n : ℕ) => (n : ℤ)) t) =
      merge keep n b t := by
  rw [merge, List.map_map, idx2, List.map_map]
  refine List.map_congr_left fun p hpn => ?_
  have hpn' : p < n := by simpa using hpn
  simp only [Function.comp]
  by_cases hk : p ∈ keep
  · have hm : p ∈ kept keep n := mem_kept.2 ⟨hpn', hk⟩
    have hno : n + p ∉ kept keep n := by
      intro h; have := (mem_kept.1 h).1; omega
    have hno' : n + p ∉ traced keep n := by
      intro h; have := (mem_traced.1 h).1; omega
    rw [if_pos hk, if_pos hk, updates_of_not_mem _ _ _ (by
      intro h'; exact hno' (mem_cast.1 h')), assign, idxOf_cast, outL,
      List.idxOf_append_of_notMem hno, idxOf_shift, ← ha, List.getD_append_right _ _ _ _ (by omega)]
    congr 1; omega
  · have hm : p ∈ traced keep n := mem_traced.2 ⟨hpn', hk⟩
    rw [if_neg hk, if_neg hk, updates_mem _ _ _ (nodup_cast (nodup_of_lt (traced_sorted keep n))) (by simpa using ht) (mem_cast.2 hm),
      idxOf_cast]

end labels

theorem takeDims_ok {dims keep : List ℕ} (h0 : keep ≠ []) (hk : ∀ k ∈ keep, k < dims.length) :
    takeDims dims keep = .ok (keep.map fun p => dims.getD p 0) := by
  have aux : ∀ l : List ℕ, (∀ k ∈ l, k < dims.length) → l.mapM (pyGet dims) = .ok (l.map fun p => dims.getD p 0) := by
    intro l
    induction l with
    | nil => intro _; rfl
    | cons a l ih =>
      intro h
      have ha := h a (by simp)
      rw [List.mapM_cons, pyGet_ok ha, ok_bind, ih (fun k hk => h k (by simp [hk]))]
      simp [ha]
  have : (keep.length != 0) = true := by
    cases keep with
    | nil => exact absurd rfl h0
    | cons a l => simp
  rw [takeDims, this, guardPy_true, ok_bind, aux keep hk]

theorem kept_perm_keep {keep : List ℕ} {n : ℕ} (hn : keep.Nodup) (hk : ∀ k ∈ keep, k < n) : keep.Perm (kept keep n) := by
  rw [List.perm_ext_iff_of_nodup hn (nodup_of_lt (kept_sorted keep n))]
  intro x
  rw [mem_kept]
  exact ⟨fun h => ⟨hk x h, h⟩, fun h => h.2⟩

/-- The extents of the kept parts in increasing order of position. -/
def keptDims (keep dims : List ℕ) : List ℕ := (kept keep dims.length).map fun p => dims.getD p 0

/-- The reshape at the end of both functions. -/
theorem finish_reshape {R : ND K} {keep dims : List ℕ} (hn : keep.Nodup) (hk : ∀ k ∈ keep, k < dims.length)
    (hR : R.shape = keptDims keep dims ++ keptDims keep dims) :
    ∃ S, R.reshape [(keep.map fun p => dims.getD p 0).prod, (keep.map fun p => dims.getD p 0).prod] = .ok S ∧
      S.shape = [(keptDims keep dims).prod, (keptDims keep dims).prod] ∧
      ∀ a b, InB (keptDims keep dims) a → InB (keptDims keep dims) b →
        S.val [ravel (keptDims keep dims) a, ravel (keptDims keep dims) b] = R.val (a ++ b) := by
  have hp : (keep.map fun p => dims.getD p 0).prod = (keptDims keep dims).prod :=
    ((kept_perm_keep hn hk).map _).prod_eq
  rw [hp]
  refine ⟨R.reshapeR [(keptDims keep dims).prod, (keptDims keep dims).prod], ?_, rfl, fun a b ha hb => ?_⟩
  · rw [ND.reshape, if_pos]
    simp [ND.size, hR]
  · have : ravel [(keptDims keep dims).prod, (keptDims keep dims).prod]
        [ravel (keptDims keep dims) a, ravel (keptDims keep dims) b] =
        ravel (keptDims keep dims ++ keptDims keep dims) (a ++ b) := by
      rw [ravel_append _ _ ha.length_eq]; simp
    simp only [ND.reshapeR]
    rw [this, hR, unravel_ravel (ha.append hb)]

theorem merge_inB {keep dims a t : List ℕ} (ha : InB (keptDims keep dims) a)
    (ht : InB ((traced keep dims.length).map fun p => dims.getD p 0) t) : InB dims (merge keep dims.length a t) := by
  have key : ∀ (s l : List ℕ), InB s l ↔ l.length = s.length ∧ ∀ i, i < s.length → l.getD i 0 < s.getD i 0 := by
    intro s
    induction s with
    | nil => intro l; cases l <;> simp
    | cons n s ih =>
      intro l
      cases l with
      | nil => simp
      | cons x l =>
        rw [InB_cons, ih]
        constructor
        · rintro ⟨h1, h2, h3⟩
          refine ⟨by simp [h2], fun i hi => ?_⟩
          cases i with
          | zero => simpa using h1
          | succ i => simpa using h3 i (by simpa using hi)
        · rintro ⟨h1, h2⟩
          refine ⟨by simpa using h2 0 (by simp), by simpa using h1, fun i hi => ?_⟩
          simpa using h2 (i + 1) (by simpa using hi)
  rw [key]
  rw [keptDims, key] at ha
  rw [key] at ht
  refine ⟨by simp [merge], fun i hi => ?_⟩
  have e : (merge keep dims.length a t).getD i 0 =
      if i ∈ keep then a.getD ((kept keep dims.length).idxOf i) 0 else t.getD ((traced keep dims.length).idxOf i) 0 := by
    simp [merge, hi]
  have pick : ∀ (l : List ℕ), i ∈ l → (l.map fun p => dims.getD p 0).getD (l.idxOf i) 0 = dims.getD i 0 := by
    intro l hl
    have := List.idxOf_lt_length_of_mem hl
    rw [List.getD_eq_getElem _ _ (by simpa using this), List.getElem_map, List.getElem_idxOf]
  rw [e]
  split_ifs with h
  · have hm : i ∈ kept keep dims.length := mem_kept.2 ⟨hi, h⟩
    have := ha.2 _ (by simpa using List.idxOf_lt_length_of_mem hm)
    rwa [pick _ hm] at this
  · have hm : i ∈ traced keep dims.length := mem_traced.2 ⟨hi, h⟩
    have := ht.2 _ (by simpa using List.idxOf_lt_length_of_mem hm)
    rwa [pick _ hm] at this

/-- The amplitude of the basis state `x` in the array `u` (of any shape with as many entries as the
system has basis states), read in row-major order. -/
def ND.amp (u : ND K) (dims x : List ℕ) : K := u.val (unravel u.shape (ravel dims x))

/-- **C06**: `ρA(u, keep, dims)` is the reduced density matrix: with `a`, `b` basis states of the kept
parts (in increasing order of position, in whatever order `keep` lists them),
`ρA[a, b] = Σ_t u[a,t] conj(u[b,t])`. -/
theorem rhoA_entries [CommSemiring K] [StarRing K] {u : ND K} {keep dims : List ℕ} (h0 : keep ≠ []) (hn : keep.Nodup)
    (hk : ∀ k ∈ keep, k < dims.length) (hu : u.size = dims.prod) :
    ∃ R, rhoA u keep dims = .ok R ∧ R.shape = [(keptDims keep dims).prod, (keptDims keep dims).prod] ∧
      ∀ a b, InB (keptDims keep dims) a → InB (keptDims keep dims) b →
        R.val [ravel (keptDims keep dims) a, ravel (keptDims keep dims) b] =
          ptrace (fun x y => u.amp dims x * star (u.amp dims y)) keep dims a b := by
  obtain ⟨R, h1, h2, h3⟩ := einsum_ok (AA := [u.reshapeR dims, (u.reshapeR dims).conj])
    (v := [List.range dims.length, idx2 keep dims.length]) (ptDim dims)
    (out := outL keep dims.length) (rep := traced keep dims.length)
    (.cons (by rw [map_dim_range]; rfl) (.cons (by rw [map_dim_idx2]; rfl) .nil))
    (out_sorted _ _) (traced_sorted _ _)
    (by intro x; simpa [outL] using mem_out (keep := keep) (n := dims.length) (x := x))
    (by intro x; simpa using mem_rep (keep := keep) (n := dims.length) (x := x))
  rw [outL, map_dim_kept] at h2
  obtain ⟨S, s1, s2, s3⟩ := finish_reshape hn hk h2
  refine ⟨S, ?_, s2, fun a b ha hb => ?_⟩
  · have he : keep.isEmpty = false := by cases keep with
      | nil => exact absurd rfl h0
      | cons _ _ => rfl
    have hr : u.reshape dims = .ok (u.reshapeR dims) := by simp [ND.reshape, hu]
    have e2 : ((List.range dims.length).map fun i => if i ∈ keep then dims.length + i else i) = idx2 keep dims.length := rfl
    rw [rhoA, he]
    simp only [Bool.false_eq_true, if_false, takeDims_ok h0 hk, ok_bind, hr, e2, h1, s1]
  · rw [s3 a b ha hb, h3, labelSum_eq_sumIdx, ptrace]
    have e1 : ((traced keep dims.length).map fun (n : ℕ) => (n : ℤ)).map (fun x : ℤ => ptDim dims x.toNat) =
        (traced keep dims.length).map fun p => dims.getD p 0 := by
      rw [List.map_map]
      refine List.map_congr_left fun p hp => ?_
      simp [ptDim, (mem_traced.1 hp).1]
    rw [e1]
    refine sumIdx_congr fun t ht => ?_
    have la : a.length = (kept keep dims.length).length := by simpa [keptDims] using ha.length_eq
    have lt : t.length = (traced keep dims.length).length := by simpa using ht.length_eq
    simp only [netTerm, List.map_cons, List.map_nil, List.zipWith_cons_cons, List.zipWith_nil_right,
      List.prod_cons, List.prod_nil, mul_one, map_rho1 la lt, map_rho2 la lt]
    rfl

/-- **C06**: `partial_trace(rho, keep, dims)` traces out the parts not in `keep`. -/
theorem partialTrace_entries [CommSemiring K] {rho : ND K} {keep dims : List ℕ} (h0 : keep ≠ []) (hn : keep.Nodup)
    (hk : ∀ k ∈ keep, k < dims.length) (hs : rho.shape = [dims.prod, dims.prod]) :
    ∃ R, partialTrace rho keep dims = .ok R ∧ R.shape = [(keptDims keep dims).prod, (keptDims keep dims).prod] ∧
      ∀ a b, InB (keptDims keep dims) a → InB (keptDims keep dims) b →
        R.val [ravel (keptDims keep dims) a, ravel (keptDims keep dims) b] =
          ptrace (fun x y => rho.val [ravel dims x, ravel dims y]) keep dims a b := by
  obtain ⟨R, h1, h2, h3⟩ := einsum_ok (AA := [rho.reshapeR (dims ++ dims)])
    (v := [List.range dims.length ++ idx2 keep dims.length]) (ptDim dims)
    (out := outL keep dims.length) (rep := traced keep dims.length)
    (.cons (by rw [List.map_append, map_dim_range, map_dim_idx2]; rfl) .nil)
    (out_sorted _ _) (traced_sorted _ _)
    (by intro x; simpa [outL] using mem_out (keep := keep) (n := dims.length) (x := x))
    (by intro x; simpa using mem_rep (keep := keep) (n := dims.length) (x := x))
  rw [outL, map_dim_kept] at h2
  obtain ⟨S, s1, s2, s3⟩ := finish_reshape hn hk h2
  refine ⟨S, ?_, s2, fun a b ha hb => ?_⟩
  · have hr : rho.reshape (dims ++ dims) = .ok (rho.reshapeR (dims ++ dims)) := by simp [ND.reshape, ND.size, hs]
    have e2 : ((List.range dims.length).map fun i => if i ∈ keep then dims.length + i else i) = idx2 keep dims.length := rfl
    rw [partialTrace]
    simp only [takeDims_ok h0 hk, ok_bind, hr, e2, h1, s1]
  · rw [s3 a b ha hb, h3, labelSum_eq_sumIdx, ptrace]
    have e1 : ((traced keep dims.length).map fun (n : ℕ) => (n : ℤ)).map (fun x : ℤ => ptDim dims x.toNat) =
        (traced keep dims.length).map fun p => dims.getD p 0 := by
      rw [List.map_map]
      refine List.map_congr_left fun p hp => ?_
      simp [ptDim, (mem_traced.1 hp).1]
    rw [e1]
    refine sumIdx_congr fun t ht => ?_
    have la : a.length = (kept keep dims.length).length := by simpa [keptDims] using ha.length_eq
    have lt : t.length = (traced keep dims.length).length := by simpa using ht.length_eq
    simp only [netTerm, List.map_cons, List.map_nil, List.zipWith_cons_cons, List.zipWith_nil_right,
      List.prod_cons, List.prod_nil, mul_one, List.map_append, map_rho1 la lt, map_rho2 la lt]
    simp only [ND.reshapeR]
    have m1 := merge_inB ha ht
    have m2 := merge_inB hb ht
    rw [ravel_append _ _ m1.length_eq, hs]
    have h1 := ravel_lt m1
    have h2 := ravel_lt m2
    have hp : 0 < dims.prod := by omega
    simp only [unravel_cons, List.prod_cons, List.prod_nil, mul_one, unravel_nil, Nat.div_one]
    rw [Nat.mul_comm, Nat.mul_add_div hp, Nat.div_eq_of_lt h2, Nat.add_zero, Nat.mul_add_mod, Nat.mod_eq_of_lt h2]

/-- Every entry index of the square result is a pair of ravelled kept states. -/
theorem sq_index {d : List ℕ} {idx : List ℕ} (h : InB [d.prod, d.prod] idx) :
    ∃ a b, InB d a ∧ InB d b ∧ idx = [ravel d a, ravel d b] := by
  match idx, h with
  | [i, j], h =>
    exact ⟨unravel d i, unravel d j, InB_unravel h.1, InB_unravel h.2.1, by rw [ravel_unravel h.1, ravel_unravel h.2.1]⟩

/-- **C06**: `ρA(u)` is `partial_trace` of `|u⟩⟨u|`. -/
theorem rhoA_eq_partialTrace [CommSemiring K] [StarRing K] {u : ND K} {keep dims : List ℕ} (h0 : keep ≠ []) (hn : keep.Nodup)
    (hk : ∀ k ∈ keep, k < dims.length) (hu : u.size = dims.prod) :
    ∃ R S, rhoA u keep dims = .ok R ∧ partialTrace (outerConj u) keep dims = .ok S ∧ R ≈ S := by
  obtain ⟨R, r1, r2, r3⟩ := rhoA_entries h0 hn hk hu
  obtain ⟨S, s1, s2, s3⟩ := partialTrace_entries (rho := outerConj u) h0 hn hk (by simp [outerConj, hu])
  refine ⟨R, S, r1, s1, r2.trans s2.symm, fun idx hi => ?_⟩
  rw [r2] at hi
  obtain ⟨a, b, ha, hb, rfl⟩ := sq_index hi
  rw [r3 a b ha hb, s3 a b ha hb]
  rfl

/-- **C06**: the reduced density matrix is Hermitian. -/
theorem rhoA_hermitian [CommSemiring K] [StarRing K] {u : ND K} {keep dims : List ℕ} (h0 : keep ≠ []) (hn : keep.Nodup)
    (hk : ∀ k ∈ keep, k < dims.length) (hu : u.size = dims.prod) :
    ∃ R, rhoA u keep dims = .ok R ∧ ∀ i j, InB R.shape [i, j] → R.val [j, i] = star (R.val [i, j]) := by
  obtain ⟨R, r1, r2, r3⟩ := rhoA_entries h0 hn hk hu
  refine ⟨R, r1, fun i j hi => ?_⟩
  rw [r2] at hi
  obtain ⟨a, b, ha, hb, e⟩ := sq_index hi
  simp only [List.cons.injEq, and_true] at e
  rw [e.1, e.2, r3 a b ha hb, r3 b a hb ha, ptrace, ptrace, sumIdx_star]
  refine sumIdx_congr fun t _ => ?_
  rw [star_mul', star_star, mul_comm]

/-- **C06**: the trace of the reduced density matrix is the squared norm of the state. -/
theorem rhoA_trace [CommSemiring K] [StarRing K] {u : ND K} {keep dims : List ℕ} (h0 : keep ≠ []) (hn : keep.Nodup)
    (hk : ∀ k ∈ keep, k < dims.length) (hu : u.size = dims.prod) :
    ∃ R, rhoA u keep dims = .ok R ∧
      sumIdx (keptDims keep dims) (fun a => R.val [ravel (keptDims keep dims) a, ravel (keptDims keep dims) a]) =
        sumIdx dims fun x => u.amp dims x * star (u.amp dims x) := by
  obtain ⟨R, r1, r2, r3⟩ := rhoA_entries h0 hn hk hu
  refine ⟨R, r1, ?_⟩
  rw [← sum_merge keep dims]
  exact sumIdx_congr fun a ha => r3 a a ha ha

/-- **C06** (violated at the edge): with nothing kept `ρA` returns the whole density matrix instead of
its trace, and `partial_trace` raises. -/
theorem rhoA_nil [CommSemiring K] [StarRing K] (u rho : ND K) (dims : List ℕ) :
    rhoA u [] dims = .ok (outerConj u) ∧ partialTrace rho [] dims = .error .indexError := ⟨rfl, rfl⟩

/-- **C06**: an out of range part raises. -/
theorem rhoA_out_of_range [CommSemiring K] [StarRing K] (u : ND K) {k : ℕ} {dims : List ℕ} (h : dims.length ≤ k) :
    rhoA u [k] dims = .error .indexError := by
  simp [rhoA, takeDims, pyGet_err h]

/-! Concrete cases: three parts of sizes 2, 3, 2; keeping the last and the first. -/
example := rhoA_entries (K := ℤ) (u := ⟨[12], fun l => l.getD 0 0⟩) (keep := [2, 0]) (dims := [2, 3, 2])
  (by decide) (by decide) (by decide) rfl
example := rhoA_eq_partialTrace (K := ℤ) (u := ⟨[12], fun l => l.getD 0 0⟩) (keep := [2, 0]) (dims := [2, 3, 2])
  (by decide) (by decide) (by decide) rfl
example := rhoA_hermitian (K := ℤ) (u := ⟨[12], fun l => l.getD 0 0⟩) (keep := [1]) (dims := [2, 3, 2])
  (by decide) (by decide) (by decide) rfl
example := rhoA_trace (K := ℤ) (u := ⟨[12], fun l => l.getD 0 0⟩) (keep := [2, 0]) (dims := [2, 3, 2])
  (by decide) (by decide) (by decide) rfl
example := partialTrace_entries (K := ℤ) (rho := ⟨[12, 12], fun l => l.getD 0 0⟩) (keep := [2, 0]) (dims := [2, 3, 2])
  (by decide) (by decide) (by decide) rfl

end Xmps
