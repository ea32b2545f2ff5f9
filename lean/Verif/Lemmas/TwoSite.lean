import Verif.Model.TwoSite
import Verif.Lemmas.FmpsBasic
import Verif.Lemmas.Gauge
import Verif.Lemmas.CanonSteps
import Verif.Props.Tools
import Verif.Spec.Lapack

/-! # One pair gate: grouping, the gate, and the factorisation -/

namespace Xmps

open Finset Spec Xmps.Ncon

theorem ND.reshape_ok {A : ND ℂ} {sh : List ℕ} (h : A.shape.prod = sh.prod) : A.reshape sh = .ok (A.reshapeR sh) := by
  simp [ND.reshape, ND.size, h]

theorem ND.reshapeR_val {A : ND ℂ} {sh idx idx' : List ℕ} (hi : InB A.shape idx) (h : ravel sh idx' = ravel A.shape idx) :
    (A.reshapeR sh).val idx' = A.val idx := by
  simp only [ND.reshapeR, h, unravel_ravel hi]

theorem groupTensors_ok (O : SetOrder) {A B : ND ℂ} {d e l m r : ℕ} (hA : A.shape = [d, l, m]) (hB : B.shape = [e, m, r]) :
    ∃ G, groupTensors O A B = .ok G ∧ G.shape = [d * e, l, r] ∧ ∀ s < d, ∀ t < e, ∀ a < l, ∀ c < r,
      G.val [s * e + t, a, c] = ∑ b ∈ range m, A.val [s, a, b] * B.val [t, b, c] := by
  obtain ⟨R, hR, hs, hv⟩ := nc_eval O (AA := [A, B]) (v := [[-1, -3, 1], [-2, 1, -4]])
    (dimOf [(1, m), (-1, d), (-2, e), (-3, l), (-4, r)]) [1] [-1, -2, -3, -4]
    ⟨by simp, by simp [hA, hB, dimOf, List.lookup], by simp, by simp, by decide, by decide, by decide,
      by decide, by decide⟩ (by decide) (by decide)
  have hs' : R.shape = [d, e, l, r] := by simp [hs, dimOf, List.lookup]
  refine ⟨R.reshapeR [d * e, l, r], ?_, rfl, ?_⟩
  · unfold groupTensors
    rw [hR, ok_bind, dim0 hA, dim0 hB, dim1 hA, dim2 hB]
    exact ND.reshape_ok (by rw [hs']; simp [mul_assoc])
  · intro s hs0 t ht a ha c hc
    rw [ND.reshapeR_val (idx := [s, t, a, c]) (by rw [hs']; exact ⟨hs0, ht, ha, hc, trivial⟩) (by
      rw [hs']; simp only [ravel_cons, ravel_nil, List.prod_cons, List.prod_nil]; ring), hv _ rfl]
    simp [labelSum, netTerm, assign, dimOf, List.lookup, Function.update]

theorem separatePre_ok {T : ND ℂ} {d l r : ℕ} (hd : 0 < d) (hT : T.shape = [d * d, l, r]) :
    ∃ M, separatePre T = .ok (d, d, M) ∧ M.shape = [d * l, d * r] ∧ ∀ s < d, ∀ t < d, ∀ a < l, ∀ c < r,
      M.val [s * l + a, t * r + c] = T.val [s * d + t, a, c] := by
  set T4 := T.reshapeR [d, d, l, r] with hT4
  have s4 : T4.shape = [d, d, l, r] := rfl
  set T5 := T4.transposeR [0, 2, 1, 3] with hT5
  have s5 : T5.shape = [d, l, d, r] := by simp [hT5, ND.transposeR, ND.dim, s4]
  have e2 : T4.transpose [0, 2, 1, 3] = .ok T5 :=
    ND.transpose_ok (by rw [ND.rank, s4]; exact (by decide : [0, 2, 1, 3].Perm (List.range 4)))
  refine ⟨T5.reshapeR [d * l, d * r], ?_, rfl, ?_⟩
  · unfold separatePre
    have e0 : T.dim 0 = d * d := by simp [ND.dim, hT]
    rw [e0, dim1 hT, dim2 hT, factors_square hd, ok_bind]
    simp only
    rw [ND.reshape_ok (by rw [hT]; simp [mul_assoc]), ok_bind, e2, ok_bind,
      ND.reshape_ok (by rw [s5]; simp [mul_assoc]), ok_bind]
  · intro s hs t ht a ha c hc
    rw [ND.reshapeR_val (idx := [s, a, t, c]) (by rw [s5]; exact ⟨hs, ha, ht, hc, trivial⟩) (by
      rw [s5]; simp only [ravel_cons, ravel_nil, List.prod_cons, List.prod_nil]; ring)]
    have : T5.val [s, a, t, c] = T4.val [s, t, a, c] := by
      simp [hT5, ND.transposeR, ND.rank, s4, List.range_succ]
    rw [this]
    refine ND.reshapeR_val ?_ ?_
    · rw [hT]
      refine ⟨?_, ha, hc, trivial⟩
      calc s * d + t < s * d + d := by omega
        _ = (s + 1) * d := by ring
        _ ≤ d * d := Nat.mul_le_mul_right _ hs
    · rw [hT]; simp only [ravel_cons, ravel_nil, List.prod_cons, List.prod_nil]; ring

theorem separatePost_ok {Q R : ND ℂ} {d l r k : ℕ} (hQ : Q.shape = [d * l, k]) (hR : R.shape = [k, d * r]) :
    ∃ A B, separatePost d d l r Q R = .ok (A, B) ∧ A.shape = [d, l, k] ∧ B.shape = [d, k, r] ∧
      (∀ s < d, ∀ a < l, ∀ e < k, A.val [s, a, e] = Q.val [s * l + a, e]) ∧
      ∀ t < d, ∀ e < k, ∀ c < r, B.val [t, e, c] = R.val [e, t * r + c] := by
  set B0 := R.reshapeR [k, d, r] with hB0
  have s0 : B0.shape = [k, d, r] := rfl
  have e2 : B0.transpose [1, 0, 2] = .ok (B0.transposeR [1, 0, 2]) :=
    ND.transpose_ok (by rw [ND.rank, s0]; exact (by decide : [1, 0, 2].Perm (List.range 3)))
  refine ⟨Q.reshapeR [d, l, k], B0.transposeR [1, 0, 2], ?_, rfl, by simp [ND.transposeR, ND.dim, s0], ?_, ?_⟩
  · unfold separatePost
    rw [show Q.dim 1 = k by simp [ND.dim, hQ], show R.dim 0 = k by simp [ND.dim, hR],
      ND.reshape_ok (by rw [hQ]; simp [mul_assoc]), ok_bind, ND.reshape_ok (by rw [hR]; simp), ok_bind, e2, ok_bind]
  · intro s hs a ha e he
    refine ND.reshapeR_val ?_ ?_
    · rw [hQ]
      refine ⟨?_, he, trivial⟩
      calc s * l + a < s * l + l := by omega
        _ = (s + 1) * l := by ring
        _ ≤ d * l := Nat.mul_le_mul_right _ hs
    · rw [hQ]; simp only [ravel_cons, ravel_nil, List.prod_cons, List.prod_nil]; ring
  · intro t ht e he c hc
    have : (B0.transposeR [1, 0, 2]).val [t, e, c] = B0.val [e, t, c] := by
      simp [ND.transposeR, ND.rank, s0, List.range_succ]
    rw [this]
    refine ND.reshapeR_val ?_ ?_
    · rw [hR]
      refine ⟨he, ?_, trivial⟩
      calc t * r + c < t * r + r := by omega
        _ = (t + 1) * r := by ring
        _ ≤ d * r := Nat.mul_le_mul_right _ ht
    · rw [hR]; simp only [ravel_cons, ravel_nil, List.prod_cons, List.prod_nil]; ring

theorem mul_add_lt {s l a d : ℕ} (hs : s < d) (ha : a < l) : s * l + a < d * l := by
  calc s * l + a < s * l + l := by omega
    _ = (s + 1) * l := by ring
    _ ≤ d * l := Nat.mul_le_mul_right _ hs

/-- what QR and RQ have in common: the product of the factors is the matrix; `P` and `P'` are what is
known of the factors in addition. -/
def FacLaw (fac : ND ℂ → Py (ND ℂ × ND ℂ)) (P P' : ND ℂ → Prop) : Prop :=
  ∀ (A : ND ℂ) (m n : ℕ), A.shape = [m, n] → 0 < m → 0 < n →
    ∃ Q R, fac A = .ok (Q, R) ∧ Q.shape = [m, min m n] ∧ R.shape = [min m n, n] ∧ P Q ∧ P' R ∧
      ∀ i < m, ∀ j < n, A.val [i, j] = ∑ k ∈ range (min m n), Q.val [i, k] * R.val [k, j]

theorem qr_fac {qr : ND ℂ → Py (ND ℂ × ND ℂ)} (h : QRLaw qr) : FacLaw qr ColsOrtho fun _ => True := by
  intro A m n hA hm hn
  obtain ⟨Q, R, h1, h2, h3, h5, h4, -⟩ := h A m n hA hm hn
  exact ⟨Q, R, h1, h2, h3, h5, trivial, h4⟩

theorem rq_fac {rq : ND ℂ → Py (ND ℂ × ND ℂ)} (h : RQLaw rq) : FacLaw rq (fun _ => True) RowsOrtho := by
  intro A m n hA hm hn
  obtain ⟨Q, R, h1, h2, h3, h5, h4⟩ := h A m n hA hm hn
  exact ⟨Q, R, h1, h2, h3, trivial, h5, h4⟩

theorem gate_ok {U G : ND ℂ} {n l r : ℕ} (hU : U.shape = [n, n]) (hG : G.shape = [n, l, r]) :
    ∃ T, U.tensordot G [1] [0] = .ok T ∧ T.shape = [n, l, r] ∧
      ∀ i a c, T.val [i, a, c] = ∑ j ∈ range n, U.val [i, j] * G.val [j, a, c] := by
  refine ⟨U.tensordotR G [1] [0], by simp [ND.tensordot, ND.rank, ND.dim, hU, hG], ?_, ?_⟩
  · simp [ND.tensordotR, ND.others, ND.rank, ND.dim, hU, hG, List.range_succ]
  · intro i a c
    simp [ND.tensordotR, ND.transposeR, ND.rank, ND.others, ND.dim, hU, hG, List.range_succ]

theorem leftIso_of_cols {Q A : ND ℂ} {d l k : ℕ} (hQ : Q.shape = [d * l, k]) (hA : A.shape = [d, l, k])
    (hv : ∀ s < d, ∀ a < l, ∀ e < k, A.val [s, a, e] = Q.val [s * l + a, e]) (h : ColsOrtho Q) : LeftIso A := by
  intro c hc c' hc'
  rw [dim2 hA] at hc hc'
  rw [← h c (by simpa [ND.dim, hQ] using hc) c' (by simpa [ND.dim, hQ] using hc'), dim0 hA, dim1 hA,
    show Q.dim 0 = d * l by simp [ND.dim, hQ], sum_range_mul]
  refine Finset.sum_congr rfl fun s hs => Finset.sum_congr rfl fun a ha => ?_
  rw [hv s (by simpa using hs) a (by simpa using ha) c hc, hv s (by simpa using hs) a (by simpa using ha) c' hc']

theorem rightIso_of_rows {R B : ND ℂ} {d k r : ℕ} (hR : R.shape = [k, d * r]) (hB : B.shape = [d, k, r])
    (hv : ∀ t < d, ∀ e < k, ∀ c < r, B.val [t, e, c] = R.val [e, t * r + c]) (h : RowsOrtho R) : RightIso B := by
  intro a ha a' ha'
  rw [dim1 hB] at ha ha'
  rw [← h a (by simpa [ND.dim, hR] using ha) a' (by simpa [ND.dim, hR] using ha'), dim0 hB, dim2 hB,
    show R.dim 1 = d * r by simp [ND.dim, hR], sum_range_mul]
  refine Finset.sum_congr rfl fun s hs => Finset.sum_congr rfl fun c hc => ?_
  rw [hv s (by simpa using hs) a ha c (by simpa using hc), hv s (by simpa using hs) a' ha' c (by simpa using hc)]

theorem separateTensor_ok {fac : ND ℂ → Py (ND ℂ × ND ℂ)} {P P' : ND ℂ → Prop} (hf : FacLaw fac P P') {T : ND ℂ} {d l r : ℕ}
    (hd : 0 < d) (hl : 0 < l) (hr : 0 < r) (hT : T.shape = [d * d, l, r]) :
    ∃ A B k, separateTensor fac T = .ok (A, B) ∧ 0 < k ∧ k ≤ d * l ∧ k ≤ d * r ∧ A.shape = [d, l, k] ∧ B.shape = [d, k, r] ∧
      ((∀ Q, P Q → ColsOrtho Q) → LeftIso A) ∧ ((∀ R, P' R → RowsOrtho R) → RightIso B) ∧
      ∀ s < d, ∀ t < d, ∀ a < l, ∀ c < r, ∑ e ∈ range k, A.val [s, a, e] * B.val [t, e, c] = T.val [s * d + t, a, c] := by
  obtain ⟨M, e1, hM, hMv⟩ := separatePre_ok hd hT
  obtain ⟨Q, R, e2, hQ, hR, hP, hP', hv⟩ := hf M _ _ hM (Nat.mul_pos hd hl) (Nat.mul_pos hd hr)
  obtain ⟨A, B, e3, hA, hB, hAv, hBv⟩ := separatePost_ok hQ hR
  refine ⟨A, B, _, ?_, lt_min (Nat.mul_pos hd hl) (Nat.mul_pos hd hr), min_le_left _ _, min_le_right _ _, hA, hB,
    fun h => leftIso_of_cols hQ hA hAv (h _ hP), fun h => rightIso_of_rows hR hB hBv (h _ hP'), ?_⟩
  · unfold separateTensor
    rw [e1, ok_bind]
    simp only
    rw [e2, ok_bind]
    simp only
    rw [dim1 hT, dim2 hT, e3]
  · intro s hs t ht a ha c hc
    rw [← hMv s hs t ht a ha c hc, hv _ (mul_add_lt hs ha) _ (mul_add_lt ht hc)]
    refine Finset.sum_congr rfl fun e he => ?_
    have he : e < min (d * l) (d * r) := by simpa using he
    rw [hAv s hs a ha e he, hBv t ht e he c hc]

/-- one gate on a pair of neighbouring tensors -/
theorem applyUnitary_ok {qr rq : ND ℂ → Py (ND ℂ × ND ℂ)} (hqr : QRLaw qr) (hrq : RQLaw rq) {svd : Svd} (O : SetOrder)
    {A B U : ND ℂ} {d l m r : ℕ} (hd : 0 < d) (hl : 0 < l) (hr : 0 < r) (hA : A.shape = [d, l, m]) (hB : B.shape = [d, m, r])
    (hU : U.shape = [d * d, d * d]) {which : Side} (hw : which ≠ .other) :
    ∃ A' B' k, applyUnitary qr rq svd O A B U which none = .ok (A', B') ∧ 0 < k ∧ k ≤ d * l ∧ k ≤ d * r ∧
      A'.shape = [d, l, k] ∧ B'.shape = [d, k, r] ∧ (which = .l → LeftIso A') ∧ (which = .r → RightIso B') ∧
      ∀ s < d, ∀ t < d, ∀ a < l, ∀ c < r, ∑ e ∈ range k, A'.val [s, a, e] * B'.val [t, e, c] =
        ∑ s' ∈ range d, ∑ t' ∈ range d, U.val [s * d + t, s' * d + t'] * ∑ e ∈ range m, A.val [s', a, e] * B.val [t', e, c] := by
  obtain ⟨G, e1, hG, hGv⟩ := groupTensors_ok O hA hB
  obtain ⟨T, e2, hT, hTv⟩ := gate_ok hU hG
  have key : ∀ s t, ∀ a < l, ∀ c < r, T.val [s * d + t, a, c] =
      ∑ s' ∈ range d, ∑ t' ∈ range d, U.val [s * d + t, s' * d + t'] * ∑ e ∈ range m, A.val [s', a, e] * B.val [t', e, c] := by
    intro s t a ha c hc
    rw [hTv, sum_range_mul]
    refine Finset.sum_congr rfl fun s' hs' => Finset.sum_congr rfl fun t' ht' => ?_
    rw [hGv s' (by simpa using hs') t' (by simpa using ht') a ha c hc]
  match which, hw with
  | .l, _ =>
    obtain ⟨A', B', k, e3, hk, k1, k2, hA', hB', i1, -, hv⟩ := separateTensor_ok (qr_fac hqr) hd hl hr hT
    refine ⟨A', B', k, ?_, hk, k1, k2, hA', hB', fun _ => i1 fun _ h => h, by simp,
      fun s hs t ht a ha c hc => by rw [hv s hs t ht a ha c hc, key s t a ha c hc]⟩
    simp only [applyUnitary, e1, ok_bind, e2, e3]
  | .r, _ =>
    obtain ⟨A', B', k, e3, hk, k1, k2, hA', hB', -, i2, hv⟩ := separateTensor_ok (rq_fac hrq) hd hl hr hT
    refine ⟨A', B', k, ?_, hk, k1, k2, hA', hB', by simp, fun _ => i2 fun _ h => h,
      fun s hs t ht a ha c hc => by rw [hv s hs t ht a ha c hc, key s t a ha c hc]⟩
    simp only [applyUnitary, e1, ok_bind, e2, e3]

theorem amp_pair {A B : ND ℂ} {As : List (ND ℂ)} {d l m r : ℕ} (hA : A.shape = [d, l, m]) (hB : B.shape = [d, m, r])
    (s t : ℕ) (ss : List ℕ) (a b : ℕ) :
    amp (A :: B :: As) (s :: t :: ss) a b =
      ∑ c ∈ range r, (∑ e ∈ range m, A.val [s, a, e] * B.val [t, e, c]) * amp As ss c b := by
  simp only [amp_cons, dim2 hA, dim2 hB, Finset.mul_sum, Finset.sum_mul]
  rw [Finset.sum_comm]
  exact Finset.sum_congr rfl fun c _ => Finset.sum_congr rfl fun e _ => by ring

/-- replacing a pair of tensors -/
theorem psi_pair {As1 As2 : List (ND ℂ)} {ds1 ds2 : List ℕ} {A B A' B' : ND ℂ} {d l m r k : ℕ}
    (h1 : MpsChain ds1 As1 1 l) (hA : A.shape = [d, l, m]) (hB : B.shape = [d, m, r]) (h2 : MpsChain ds2 As2 r 1)
    (hA' : A'.shape = [d, l, k]) (hB' : B'.shape = [d, k, r]) {W : ℕ → ℕ → ℕ → ℕ → ℂ}
    (hv : ∀ s < d, ∀ t < d, ∀ a < l, ∀ c < r, ∑ e ∈ range k, A'.val [s, a, e] * B'.val [t, e, c] =
        ∑ s' ∈ range d, ∑ t' ∈ range d, W s t s' t' * ∑ e ∈ range m, A.val [s', a, e] * B.val [t', e, c])
    {s1 s2 : List ℕ} {s t : ℕ} (hs1 : s1.length = ds1.length) (hs : s < d) (ht : t < d) (hs2 : s2.length = ds2.length) :
    psi (As1 ++ A' :: B' :: As2) (s1 ++ s :: t :: s2) =
      ∑ s' ∈ range d, ∑ t' ∈ range d, W s t s' t' * psi (As1 ++ A :: B :: As2) (s1 ++ s' :: t' :: s2) := by
  have c1 : MpsChain (ds1 ++ d :: d :: ds2) (As1 ++ A :: B :: As2) 1 1 :=
    (mpsChain_append h1.length_eq).2 ⟨l, h1, m, hA, r, hB, h2⟩
  have c2 : MpsChain (ds1 ++ d :: d :: ds2) (As1 ++ A' :: B' :: As2) 1 1 :=
    (mpsChain_append h1.length_eq).2 ⟨l, h1, k, hA', r, hB', h2⟩
  have e : ∀ s' t', psi (As1 ++ A :: B :: As2) (s1 ++ s' :: t' :: s2) = ∑ a ∈ range l, amp As1 s1 0 a *
      ∑ c ∈ range r, (∑ e ∈ range m, A.val [s', a, e] * B.val [t', e, c]) * amp As2 s2 c 0 := by
    intro s' t'
    rw [psi_eq_amp c1 (by simp) (by simp [hs1, hs2]), amp_append h1 hs1 0 0 (by omega)]
    exact Finset.sum_congr rfl fun a _ => by rw [amp_pair hA hB]
  rw [psi_eq_amp c2 (by simp) (by simp [hs1, hs2]), amp_append h1 hs1 0 0 (by omega)]
  simp only [e, Finset.mul_sum, Finset.sum_mul, amp_pair hA' hB']
  calc _ = ∑ a ∈ range l, ∑ c ∈ range r, amp As1 s1 0 a * (∑ e ∈ range k, A'.val [s, a, e] * B'.val [t, e, c]) * amp As2 s2 c 0 := by
        refine Finset.sum_congr rfl fun a _ => Finset.sum_congr rfl fun c _ => ?_
        rw [Finset.mul_sum, Finset.sum_mul]
        exact Finset.sum_congr rfl fun e _ => by ring
    _ = ∑ a ∈ range l, ∑ c ∈ range r, ∑ s' ∈ range d, ∑ t' ∈ range d, ∑ e ∈ range m,
          W s t s' t' * (amp As1 s1 0 a * (A.val [s', a, e] * B.val [t', e, c] * amp As2 s2 c 0)) := by
        refine Finset.sum_congr rfl fun a ha => Finset.sum_congr rfl fun c hc => ?_
        rw [hv s hs t ht a (by simpa using ha) c (by simpa using hc)]
        simp only [Finset.mul_sum, Finset.sum_mul]
        exact Finset.sum_congr rfl fun _ _ => Finset.sum_congr rfl fun _ _ => Finset.sum_congr rfl fun _ _ => by ring
    _ = ∑ a ∈ range l, ∑ s' ∈ range d, ∑ t' ∈ range d, ∑ c ∈ range r, ∑ e ∈ range m,
          W s t s' t' * (amp As1 s1 0 a * (A.val [s', a, e] * B.val [t', e, c] * amp As2 s2 c 0)) := by
        refine Finset.sum_congr rfl fun a _ => ?_
        rw [Finset.sum_comm]
        exact Finset.sum_congr rfl fun s' _ => Finset.sum_comm
    _ = _ := by
        rw [Finset.sum_comm]
        exact Finset.sum_congr rfl fun s' _ => Finset.sum_comm

end Xmps
