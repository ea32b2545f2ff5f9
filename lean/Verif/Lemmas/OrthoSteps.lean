import Verif.Lemmas.Gauge
import Verif.Lemmas.FmpsBasic
import Verif.Model.Orthogonalise

/-! # One step of the orthogonalisation sweeps -/

namespace Xmps

open Finset Xmps.Spec
variable {K : Type}

theorem group_left {A : ND K} {d l r : ℕ} (hA : A.shape = [d, l, r]) :
    ∃ M, groupLegs A [[0, 1], [2]] = .ok (M, ([0, 1, 2], [[d, l], [r]])) ∧ M.shape = [d * l, r] ∧
      ∀ s a c, a < l → c < r → M.val [s * l + a, c] = A.val [s, a, c] := by
  refine ⟨(A.transposeR [0, 1, 2]).reshapeR [d * l, r], ?_, rfl, ?_⟩
  · simp only [groupLegs, List.flatten_cons, List.flatten_nil, List.append_nil, List.cons_append, List.nil_append]
    rw [ND.transpose_ok (by rw [ND.rank, hA]; exact (by decide : [0, 1, 2].Perm (List.range 3)))]
    simp [groupShapes, ND.dim, hA, ND.reshape, ND.size, mul_assoc]
  · intro s a c ha hc
    have hl : 0 < l := by omega
    have hr : 0 < r := by omega
    simp [ND.reshapeR, ND.transposeR, ND.rank, ND.dim, hA, List.range_succ]
    have e1 : ((s * l + a) * r + c) / (l * r) = s := by
      rw [Nat.mul_comm l r, ← Nat.div_div_eq_div_mul, Nat.add_comm, Nat.add_mul_div_right _ _ hr, Nat.div_eq_of_lt hc,
        Nat.zero_add, Nat.add_comm, Nat.add_mul_div_right _ _ hl, Nat.div_eq_of_lt ha, Nat.zero_add]
    have e2 : ((s * l + a) * r + c) % (l * r) / r = a := by
      rw [Nat.mul_comm l r, Nat.mod_mul_right_div_self, Nat.add_comm, Nat.add_mul_div_right _ _ hr, Nat.div_eq_of_lt hc,
        Nat.zero_add, Nat.add_comm, Nat.add_mul_mod_self_right, Nat.mod_eq_of_lt ha]
    simp [e1, e2, Nat.mod_eq_of_lt hc]

theorem ungroup_left {Q : ND K} {d l r k : ℕ} (hQ : Q.shape = [d * l, k]) :
    ∃ T, ungroupLegs Q ([0, 1, 2], [[d, l], [r]]) = .ok T ∧ T.shape = [d, l, k] ∧
      ∀ s a c, a < l → c < k → T.val [s, a, c] = Q.val [s * l + a, c] := by
  refine ⟨(Q.reshapeR [d, l, k]).transposeR [0, 1, 2], ?_, ?_, ?_⟩
  · simp [ungroupLegs, ND.rank, hQ, ungroupShape, ND.reshape, ND.size, mul_assoc, inverseTranspose, List.zipIdx]
    exact ND.transpose_ok (by rw [ND.rank]; exact (by decide : [0, 1, 2].Perm (List.range 3)))
  · simp [ND.transposeR, ND.dim]
  · intro s a c ha hc
    have hk : 0 < k := by omega
    simp [ND.reshapeR, ND.transposeR, ND.rank, List.range_succ, hQ]
    have e : s * (l * k) + (a * k + c) = c + (s * l + a) * k := by ring
    rw [e, Nat.add_mul_div_right _ _ hk, Nat.div_eq_of_lt hc, Nat.zero_add, Nat.add_mul_mod_self_right, Nat.mod_eq_of_lt hc]

theorem group_right {A : ND K} {d l r : ℕ} (hA : A.shape = [d, l, r]) :
    ∃ M, groupLegs A [[1], [0, 2]] = .ok (M, ([1, 0, 2], [[l], [d, r]])) ∧ M.shape = [l, d * r] ∧
      ∀ s a c, s < d → c < r → M.val [a, s * r + c] = A.val [s, a, c] := by
  refine ⟨(A.transposeR [1, 0, 2]).reshapeR [l, d * r], ?_, rfl, ?_⟩
  · simp only [groupLegs, List.flatten_cons, List.flatten_nil, List.append_nil, List.cons_append, List.nil_append]
    rw [ND.transpose_ok (by rw [ND.rank, hA]; exact (by decide : [1, 0, 2].Perm (List.range 3)))]
    simp [groupShapes, ND.dim, hA, ND.reshape, ND.size]
  · intro s a c hs hc
    have hd : 0 < d := by omega
    have hr : 0 < r := by omega
    have hlt : s * r + c < d * r := by
      calc s * r + c < s * r + r := by omega
        _ = (s + 1) * r := by ring
        _ ≤ d * r := Nat.mul_le_mul_right _ hs
    have hp : 0 < d * r := by omega
    simp [ND.reshapeR, ND.transposeR, ND.rank, ND.dim, hA, List.range_succ]
    have e1 : (a * (d * r) + (s * r + c)) / (d * r) = a := by
      rw [Nat.add_comm, Nat.add_mul_div_right _ _ hp, Nat.div_eq_of_lt hlt, Nat.zero_add]
    have e2 : (s * r + c) / r = s := by
      rw [Nat.add_comm, Nat.add_mul_div_right _ _ hr, Nat.div_eq_of_lt hc, Nat.zero_add]
    have e4 : (a * (d * r) + (s * r + c)) % r = c := by
      rw [show a * (d * r) + (s * r + c) = c + (a * d + s) * r by ring, Nat.add_mul_mod_self_right, Nat.mod_eq_of_lt hc]
    simp [e1, e2, e4, Nat.mod_eq_of_lt hlt]

theorem ungroup_right {Q : ND K} {d l r k : ℕ} (hQ : Q.shape = [k, d * r]) :
    ∃ T, ungroupLegs Q ([1, 0, 2], [[l], [d, r]]) = .ok T ∧ T.shape = [d, k, r] ∧
      ∀ s a c, s < d → c < r → T.val [s, a, c] = Q.val [a, s * r + c] := by
  refine ⟨(Q.reshapeR [k, d, r]).transposeR [1, 0, 2], ?_, ?_, ?_⟩
  · simp [ungroupLegs, ND.rank, hQ, ungroupShape, ND.reshape, ND.size, inverseTranspose, List.zipIdx]
    exact ND.transpose_ok (by rw [ND.rank]; exact (by decide : [1, 0, 2].Perm (List.range 3)))
  · simp [ND.transposeR, ND.dim]
  · intro s a c hs hc
    have hlt : s * r + c < d * r := by
      calc s * r + c < s * r + r := by omega
        _ = (s + 1) * r := by ring
        _ ≤ d * r := Nat.mul_le_mul_right _ hs
    have hp : 0 < d * r := by omega
    simp [ND.reshapeR, ND.transposeR, ND.rank, List.range_succ, hQ]
    rw [Nat.add_comm, Nat.add_mul_div_right _ _ hp, Nat.div_eq_of_lt hlt, Nat.zero_add, Nat.mod_eq_of_lt hlt]

/-- every extent is positive -/
def PosDims (As : List (ND K)) : Prop := ∀ A ∈ As, ∀ n ∈ A.shape, 0 < n

section
variable [CommSemiring K] [StarRing K]

theorem qr_site {qr : ND K → Py (ND K × ND K)} (hqr : QRLaw qr) {A : ND K} {d l r : ℕ} (hA : A.shape = [d, l, r])
    (hd : 0 < d) (hl : 0 < l) (hr : 0 < r) :
    ∃ M pipe Q R T, groupLegs A [[0, 1], [2]] = .ok (M, pipe) ∧ qr M = .ok (Q, R) ∧ ungroupLegs Q pipe = .ok T ∧
      T.shape = [d, l, min (d * l) r] ∧ R.shape = [min (d * l) r, r] ∧ LeftIso T ∧
      ∀ s < d, ∀ a < l, ∀ c < r, A.val [s, a, c] = ∑ e ∈ range (min (d * l) r), T.val [s, a, e] * R.val [e, c] := by
  obtain ⟨M, hM, hMs, hMv⟩ := group_left hA
  obtain ⟨Q, R, hQ, hQs, hRs, ho, hv, -⟩ := hqr M (d * l) r hMs (Nat.mul_pos hd hl) hr
  obtain ⟨T, hT, hTs, hTv⟩ := ungroup_left (d := d) (l := l) (r := r) hQs
  refine ⟨M, _, Q, R, T, hM, hQ, hT, hTs, hRs, ?_, ?_⟩
  · intro c hc c' hc'
    rw [dim2 hTs] at hc hc'
    rw [dim0 hTs, dim1 hTs]
    have h0 : Q.dim 0 = d * l := by simp [ND.dim, hQs]
    have h1 : Q.dim 1 = min (d * l) r := by simp [ND.dim, hQs]
    have := ho c (by rw [h1]; exact hc) c' (by rw [h1]; exact hc')
    rw [← this, h0, sum_range_mul]
    refine Finset.sum_congr rfl fun s _ => Finset.sum_congr rfl fun a ha => ?_
    rw [hTv s a c (by simpa using ha) hc, hTv s a c' (by simpa using ha) hc']
  · intro s hs a ha c hc
    rw [← hMv s a c ha hc, hv _ ?_ c hc]
    · refine Finset.sum_congr rfl fun e he => ?_
      rw [hTv s a e ha (by simpa using he)]
    · calc s * l + a < s * l + l := by omega
        _ = (s + 1) * l := by ring
        _ ≤ d * l := Nat.mul_le_mul_right _ hs

theorem rq_site {rq : ND K → Py (ND K × ND K)} (hrq : RQLaw rq) {A : ND K} {d l r : ℕ} (hA : A.shape = [d, l, r])
    (hd : 0 < d) (hl : 0 < l) (hr : 0 < r) :
    ∃ M pipe R Q T, groupLegs A [[1], [0, 2]] = .ok (M, pipe) ∧ rq M = .ok (R, Q) ∧ ungroupLegs Q pipe = .ok T ∧
      T.shape = [d, min l (d * r), r] ∧ R.shape = [l, min l (d * r)] ∧ RightIso T ∧
      ∀ s < d, ∀ a < l, ∀ c < r, A.val [s, a, c] = ∑ e ∈ range (min l (d * r)), R.val [a, e] * T.val [s, e, c] := by
  obtain ⟨M, hM, hMs, hMv⟩ := group_right hA
  obtain ⟨R, Q, hQ, hRs, hQs, ho, hv⟩ := hrq M l (d * r) hMs hl (Nat.mul_pos hd hr)
  obtain ⟨T, hT, hTs, hTv⟩ := ungroup_right (d := d) (l := l) (r := r) hQs
  refine ⟨M, _, R, Q, T, hM, hQ, hT, hTs, hRs, ?_, ?_⟩
  · intro c hc c' hc'
    rw [dim1 hTs] at hc hc'
    rw [dim0 hTs, dim2 hTs]
    have h0 : Q.dim 0 = min l (d * r) := by simp [ND.dim, hQs]
    have h1 : Q.dim 1 = d * r := by simp [ND.dim, hQs]
    have := ho c (by rw [h0]; exact hc) c' (by rw [h0]; exact hc')
    rw [← this, h1, sum_range_mul]
    refine Finset.sum_congr rfl fun s hs => Finset.sum_congr rfl fun a ha => ?_
    rw [hTv s c a (by simpa using hs) (by simpa using ha), hTv s c' a (by simpa using hs) (by simpa using ha)]
  · intro s hs a ha c hc
    rw [← hMv s a c hs hc, hv a ha _ ?_]
    · refine Finset.sum_congr rfl fun e he => ?_
      rw [hTv s e c hs hc]
    · calc s * r + c < s * r + r := by omega
        _ = (s + 1) * r := by ring
        _ ≤ d * r := Nat.mul_le_mul_right _ hs

/-- One step of `left_orthogonalise` away from the last site. -/
theorem leftStep_mid {qr : ND K → Py (ND K × ND K)} (hqr : QRLaw qr) {x : FMPS K} {pre post : List (ND K)} {A B : ND K}
    {d l n d' r : ℕ} (hx : x.data = pre ++ A :: B :: post) (hL : pre.length + 1 ≠ x.L)
    (hA : A.shape = [d, l, n]) (hB : B.shape = [d', n, r]) (hd : 0 < d) (hl : 0 < l) (hn : 0 < n) :
    ∃ A' B' k, x.leftStep qr pre.length = .ok { x with data := pre ++ A' :: B' :: post } ∧ 0 < k ∧ k = min (d * l) n ∧
      A'.shape = [d, l, k] ∧ B'.shape = [d', k, r] ∧ LeftIso A' ∧
      ∃ R : ℕ → ℕ → K, (∀ s < d, ∀ a < l, ∀ c < n, A.val [s, a, c] = ∑ e ∈ range k, A'.val [s, a, e] * R e c) ∧
        ∀ s < d', ∀ e < k, ∀ c < r, B'.val [s, e, c] = ∑ f ∈ range n, R e f * B.val [s, f, c] := by
  obtain ⟨M, pipe, Q, R, T, h1, h2, h3, hTs, hRs, hi, hv⟩ := qr_site hqr hA hd hl hn
  obtain ⟨B', hB', hB's, hB'v⟩ := ND.matmul23 hRs hB
  refine ⟨T, B', min (d * l) n, ?_, by have := Nat.mul_pos hd hl; omega, rfl, hTs, hB's, hi, fun e c => R.val [e, c], hv, ?_⟩
  · unfold FMPS.leftStep
    have e1 : pyGet x.data pre.length = .ok A := by simp [hx, pyGet]
    have e2 : x.data.set pre.length T = pre ++ T :: B :: post := by simp [hx]
    have e3 : pyGet (pre ++ T :: B :: post) (pre.length + 1) = .ok B := by
      rw [show pre ++ T :: B :: post = (pre ++ [T]) ++ B :: post by simp]
      rw [show pre.length + 1 = (pre ++ [T]).length by simp]
      simp [pyGet]
    have e4 : (pre ++ T :: B :: post).set (pre.length + 1) B' = pre ++ T :: B' :: post := by
      rw [show pre ++ T :: B :: post = (pre ++ [T]) ++ B :: post by simp]
      rw [show pre.length + 1 = (pre ++ [T]).length by simp]
      simp
    rw [e1, ok_bind, h1, ok_bind]
    simp only
    rw [h2, ok_bind]
    simp only
    rw [h3, ok_bind]
    rw [if_pos hL, e2, e3, ok_bind, hB', ok_bind, e4]
  · intro s _ e _ c _
    exact hB'v s e c

/-- The last step of `left_orthogonalise`. -/
theorem leftStep_last {qr : ND K → Py (ND K × ND K)} (hqr : QRLaw qr) {x : FMPS K} {pre : List (ND K)} {A : ND K}
    {d l n : ℕ} (hx : x.data = pre ++ [A]) (hL : pre.length + 1 = x.L)
    (hA : A.shape = [d, l, n]) (hd : 0 < d) (hl : 0 < l) (hn : 0 < n) :
    ∃ A' R, x.leftStep qr pre.length = .ok { x with data := pre ++ [A'], norm_ := some R } ∧
      A'.shape = [d, l, min (d * l) n] ∧ R.shape = [min (d * l) n, n] ∧ LeftIso A' ∧
      ∀ s < d, ∀ a < l, ∀ c < n, A.val [s, a, c] = ∑ e ∈ range (min (d * l) n), A'.val [s, a, e] * R.val [e, c] := by
  obtain ⟨M, pipe, Q, R, T, h1, h2, h3, hTs, hRs, hi, hv⟩ := qr_site hqr hA hd hl hn
  refine ⟨T, R, ?_, hTs, hRs, hi, hv⟩
  unfold FMPS.leftStep
  have e1 : pyGet x.data pre.length = .ok A := by simp [hx, pyGet]
  have e2 : x.data.set pre.length T = pre ++ [T] := by simp [hx]
  rw [e1, ok_bind, h1, ok_bind]
  simp only
  rw [h2, ok_bind]
  simp only
  rw [h3, ok_bind]
  rw [if_neg (by simpa using hL), e2]

/-- One step of `right_orthogonalise` away from the first site. -/
theorem rightStep_mid {rq : ND K → Py (ND K × ND K)} (hrq : RQLaw rq) {x : FMPS K} {pre post : List (ND K)} {A B : ND K}
    {d l n d' r : ℕ} (hx : x.data = pre ++ A :: B :: post)
    (hA : A.shape = [d, l, n]) (hB : B.shape = [d', n, r]) (hd : 0 < d') (hn : 0 < n) (hr : 0 < r) :
    ∃ A' B' k, x.rightStep rq (pre.length + 1) = .ok { x with data := pre ++ A' :: B' :: post } ∧ 0 < k ∧
      k = min n (d' * r) ∧ A'.shape = [d, l, k] ∧ B'.shape = [d', k, r] ∧ RightIso B' ∧
      ∃ R : ℕ → ℕ → K, (∀ s < d, ∀ a < l, ∀ c < k, A'.val [s, a, c] = ∑ e ∈ range n, A.val [s, a, e] * R e c) ∧
        ∀ s < d', ∀ e < n, ∀ c < r, B.val [s, e, c] = ∑ f ∈ range k, R e f * B'.val [s, f, c] := by
  obtain ⟨M, pipe, R, Q, T, h1, h2, h3, hTs, hRs, hi, hv⟩ := rq_site hrq hB hd hn hr
  obtain ⟨A', hA', hA's, hA'v⟩ := ND.matmul32 hA hRs
  refine ⟨A', T, min n (d' * r), ?_, by have := Nat.mul_pos hd hr; omega, rfl, hA's, hTs, hi, fun e c => R.val [e, c], ?_, hv⟩
  · unfold FMPS.rightStep
    have e1 : pyGet x.data (pre.length + 1) = .ok B := by
      rw [hx, show pre ++ A :: B :: post = (pre ++ [A]) ++ B :: post by simp]
      rw [show pre.length + 1 = (pre ++ [A]).length by simp]
      simp [pyGet]
    have e2 : x.data.set (pre.length + 1) T = pre ++ A :: T :: post := by
      rw [hx, show pre ++ A :: B :: post = (pre ++ [A]) ++ B :: post by simp]
      rw [show pre.length + 1 = (pre ++ [A]).length by simp]
      simp
    have e3 : pyGet (pre ++ A :: T :: post) pre.length = .ok A := by simp [pyGet]
    have e4 : (pre ++ A :: T :: post).set pre.length A' = pre ++ A' :: T :: post := by simp
    rw [e1, ok_bind, h1, ok_bind]
    simp only
    rw [h2, ok_bind]
    simp only
    rw [h3, ok_bind]
    rw [if_pos (by omega), e2, Nat.add_sub_cancel, e3, ok_bind, hA', ok_bind, e4]
  · intro s _ e _ c _
    exact hA'v s e c

/-- The last step of `right_orthogonalise`, at site 0. -/
theorem rightStep_last {rq : ND K → Py (ND K × ND K)} (hrq : RQLaw rq) {x : FMPS K} {post : List (ND K)} {A : ND K}
    {d l n : ℕ} (hx : x.data = A :: post)
    (hA : A.shape = [d, l, n]) (hd : 0 < d) (hl : 0 < l) (hn : 0 < n) :
    ∃ A' R, x.rightStep rq 0 = .ok { x with data := A' :: post, norm_ := some R } ∧
      A'.shape = [d, min l (d * n), n] ∧ R.shape = [l, min l (d * n)] ∧ RightIso A' ∧
      ∀ s < d, ∀ a < l, ∀ c < n, A.val [s, a, c] = ∑ e ∈ range (min l (d * n)), R.val [a, e] * A'.val [s, e, c] := by
  obtain ⟨M, pipe, R, Q, T, h1, h2, h3, hTs, hRs, hi, hv⟩ := rq_site hrq hA hd hl hn
  refine ⟨T, R, ?_, hTs, hRs, hi, hv⟩
  unfold FMPS.rightStep
  have e1 : pyGet x.data 0 = .ok A := by simp [hx]
  have e2 : x.data.set 0 T = T :: post := by simp [hx]
  rw [e1, ok_bind, h1, ok_bind]
  simp only
  rw [h2, ok_bind]
  simp only
  rw [h3, ok_bind]
  rw [if_neg (by simp), e2]
end
end Xmps
