import Verif.Lemmas.Chain
import Verif.Spec.Lapack

/-! # Moving a matrix across a bond; isometric chains -/

namespace Xmps

open Finset Xmps.Spec

variable {K : Type}

section
variable [CommSemiring K]

/-- `A = A' R`, `B' = R B`: the pair `A B` and the pair `A' B'` have the same amplitudes. -/
theorem amp_bond {A B A' B' : ND K} {d l n d' r k : ℕ} {ds : List ℕ} {post : List (ND K)} {r' : ℕ} {R : ℕ → ℕ → K}
    (hA : A.shape = [d, l, n]) (hB : B.shape = [d', n, r]) (hA' : A'.shape = [d, l, k]) (hB' : B'.shape = [d', k, r])
    (_hp : MpsChain ds post r r')
    (h1 : ∀ s < d, ∀ a < l, ∀ c < n, A.val [s, a, c] = ∑ e ∈ range k, A'.val [s, a, e] * R e c)
    (h2 : ∀ s < d', ∀ e < k, ∀ c < r, B'.val [s, e, c] = ∑ f ∈ range n, R e f * B.val [s, f, c])
    {ss : List ℕ} (hs : InB (d :: d' :: ds) ss) {a : ℕ} (ha : a < l) (b : ℕ) :
    amp (A :: B :: post) ss a b = amp (A' :: B' :: post) ss a b := by
  match ss, hs with
  | s :: s' :: ss, hs =>
    simp only [amp_cons, dim2 hA, dim2 hB, dim2 hA', dim2 hB']
    have e1 : ∀ c ∈ range n, A.val [s, a, c] * ∑ e ∈ range r, B.val [s', c, e] * amp post ss e b =
        ∑ f ∈ range k, A'.val [s, a, f] * (R f c * ∑ e ∈ range r, B.val [s', c, e] * amp post ss e b) := by
      intro c hc
      rw [h1 s hs.1 a ha c (by simpa using hc), Finset.sum_mul]
      exact Finset.sum_congr rfl fun f _ => by ring
    rw [Finset.sum_congr rfl e1, Finset.sum_comm]
    refine Finset.sum_congr rfl fun f hf => ?_
    rw [← Finset.mul_sum]
    congr 1
    have e2 : ∀ e ∈ range r, B'.val [s', f, e] * amp post ss e b =
        ∑ c ∈ range n, R f c * (B.val [s', c, e] * amp post ss e b) := by
      intro e he
      rw [h2 s' hs.2.1 f (by simpa using hf) e (by simpa using he), Finset.sum_mul]
      exact Finset.sum_congr rfl fun c _ => by ring
    rw [Finset.sum_congr rfl e2, Finset.sum_comm]
    exact Finset.sum_congr rfl fun c _ => by rw [Finset.mul_sum]

/-- Amplitudes behind a common prefix. -/
theorem amp_prefix {ds1 ds2 : List ℕ} {As1 As2 Bs2 : List (ND K)} {l m : ℕ} (h1 : MpsChain ds1 As1 l m)
    (h : ∀ ss, InB ds2 ss → ∀ a < m, ∀ b, amp As2 ss a b = amp Bs2 ss a b)
    {ss : List ℕ} (hs : InB (ds1 ++ ds2) ss) {a : ℕ} (ha : a < l) (b : ℕ) :
    amp (As1 ++ As2) ss a b = amp (As1 ++ Bs2) ss a b := by
  obtain ⟨s1, s2, rfl, hs1, hs2⟩ := hs.split2
  rw [amp_append h1 hs1.length_eq a b ha, amp_append h1 hs1.length_eq a b ha]
  refine Finset.sum_congr rfl fun c hc => ?_
  rw [h s2 hs2 c (by simpa using hc) b]

end

section iso
variable [CommSemiring K] [StarRing K]

/-- Left isometries compose to an isometry: the left environment is the identity. -/
theorem leftIso_env : ∀ {ds : List ℕ} {As : List (ND K)} {l m : ℕ}, MpsChain ds As l m → (∀ A ∈ As, LeftIso A) →
    ∀ c < m, ∀ c' < m,
      ∑ a ∈ range l, sumIdx ds (fun s => star (amp As s a c) * amp As s a c') = if c = c' then 1 else 0
  | [], [], l, m, h, _, c, hc, c', hc' => by
    have : l = m := h
    subst this
    simp only [sumIdx_nil, amp_nil]
    by_cases e : c = c'
    · subst e
      rw [if_pos rfl, Finset.sum_eq_single c]
      · simp
      · intro b _ hb; simp [hb]
      · intro h; simp at h; omega
    · rw [if_neg e]
      refine Finset.sum_eq_zero fun a _ => ?_
      by_cases h1 : a = c
      · subst h1; simp [e]
      · simp [h1]
  | d :: ds, A :: As, l, m, h, hi, c, hc, c', hc' => by
    obtain ⟨n, hA, h⟩ := h
    have ih := leftIso_env h (fun B hB => hi B (by simp [hB])) c hc c' hc'
    have hL := hi A (by simp)
    unfold LeftIso at hL
    rw [dim0 hA, dim1 hA, dim2 hA] at hL
    rw [← ih]
    have e1 : ∀ a ∈ range l, sumIdx (d :: ds) (fun s => star (amp (A :: As) s a c) * amp (A :: As) s a c') =
        ∑ s ∈ range d, ∑ e ∈ range n, ∑ e' ∈ range n, star (A.val [s, a, e]) * A.val [s, a, e'] *
          sumIdx ds (fun ss => star (amp As ss e c) * amp As ss e' c') := by
      intro a _
      rw [sumIdx_cons]
      refine Finset.sum_congr rfl fun s _ => ?_
      simp only [amp_cons, dim2 hA, star_sum, star_mul', Finset.sum_mul, Finset.mul_sum, ← sumIdx_mul_left,
        sumIdx_finset_sum]
      rw [Finset.sum_comm]
      refine Finset.sum_congr rfl fun e _ => Finset.sum_congr rfl fun e' _ => ?_
      exact sumIdx_congr fun _ _ => by ring
    rw [Finset.sum_congr rfl e1, Finset.sum_comm (s := range l)]
    have e2 : ∑ s ∈ range d, ∑ a ∈ range l, ∑ e ∈ range n, ∑ e' ∈ range n, star (A.val [s, a, e]) * A.val [s, a, e'] *
          sumIdx ds (fun ss => star (amp As ss e c) * amp As ss e' c') =
        ∑ e ∈ range n, ∑ e' ∈ range n, (∑ s ∈ range d, ∑ a ∈ range l, star (A.val [s, a, e]) * A.val [s, a, e']) *
          sumIdx ds (fun ss => star (amp As ss e c) * amp As ss e' c') := by
      simp only [Finset.sum_mul]
      rw [Finset.sum_congr rfl fun s _ => Finset.sum_comm (s := range l)]
      rw [Finset.sum_comm (s := range d)]
      refine Finset.sum_congr rfl fun e _ => ?_
      rw [Finset.sum_congr rfl fun s _ => Finset.sum_comm (s := range l)]
      rw [Finset.sum_comm (s := range d)]
    rw [e2]
    refine Finset.sum_congr rfl fun e he => ?_
    rw [Finset.sum_congr rfl fun e' he' => by
      rw [hL e (by simpa using he) e' (by simpa using he')]]
    simp only [ite_mul, one_mul, zero_mul]
    rw [Finset.sum_ite_eq, if_pos he]
  | [], _ :: _, _, _, h, _, _, _, _, _ => by simp at h
  | _ :: _, [], _, _, h, _, _, _, _, _ => by simp at h

/-- Right isometries compose: the right environment is the identity. -/
theorem rightIso_env : ∀ {ds : List ℕ} {As : List (ND K)} {l m : ℕ}, MpsChain ds As l m → (∀ A ∈ As, RightIso A) →
    ∀ a < l, ∀ a' < l,
      ∑ c ∈ range m, sumIdx ds (fun s => amp As s a c * star (amp As s a' c)) = if a = a' then 1 else 0
  | [], [], l, m, h, _, c, hc, c', hc' => by
    have : l = m := h
    subst this
    simp only [sumIdx_nil, amp_nil]
    by_cases e : c = c'
    · subst e
      rw [if_pos rfl, Finset.sum_eq_single c]
      · simp
      · intro b _ hb; simp [hb.symm]
      · intro h; simp at h; omega
    · rw [if_neg e]
      refine Finset.sum_eq_zero fun a _ => ?_
      by_cases h1 : c = a
      · subst h1
        have : ¬ c' = c := fun h => e h.symm
        simp [this]
      · simp [h1]
  | d :: ds, A :: As, l, m, h, hi, a, ha, a', ha' => by
    obtain ⟨n, hA, h⟩ := h
    have ih := rightIso_env h (fun B hB => hi B (by simp [hB]))
    have hL := hi A (by simp) a (by rwa [dim1 hA]) a' (by rwa [dim1 hA])
    rw [dim0 hA, dim2 hA] at hL
    rw [← hL]
    have e1 : ∀ c ∈ range m, sumIdx (d :: ds) (fun s => amp (A :: As) s a c * star (amp (A :: As) s a' c)) =
        ∑ s ∈ range d, ∑ e ∈ range n, ∑ e' ∈ range n, A.val [s, a, e] * star (A.val [s, a', e']) *
          sumIdx ds (fun ss => amp As ss e c * star (amp As ss e' c)) := by
      intro c _
      rw [sumIdx_cons]
      refine Finset.sum_congr rfl fun s _ => ?_
      simp only [amp_cons, dim2 hA, star_sum, star_mul', Finset.sum_mul, Finset.mul_sum, ← sumIdx_mul_left,
        sumIdx_finset_sum]
      rw [Finset.sum_comm]
      refine Finset.sum_congr rfl fun e _ => Finset.sum_congr rfl fun e' _ => ?_
      exact sumIdx_congr fun _ _ => by ring
    rw [Finset.sum_congr rfl e1, Finset.sum_comm (s := range m)]
    refine Finset.sum_congr rfl fun s _ => ?_
    rw [Finset.sum_comm (s := range m)]
    refine Finset.sum_congr rfl fun e he => ?_
    rw [Finset.sum_comm (s := range m)]
    rw [Finset.sum_congr rfl fun e' he' => by
      rw [← Finset.mul_sum, ih e (by simpa using he) e' (by simpa using he')]]
    simp only [mul_ite, mul_one, mul_zero]
    rw [Finset.sum_ite_eq, if_pos he]
  | [], _ :: _, _, _, h, _, _, _, _, _ => by simp at h
  | _ :: _, [], _, _, h, _, _, _, _, _ => by simp at h

end iso

end Xmps

namespace Xmps

open Finset Xmps.Spec

variable {K : Type} [CommSemiring K] [StarRing K]

/-- With left isometries before and right isometries after a block, the environments of the block
drop out: the reduced density matrix is that of the block alone. -/
theorem block_center {ds1 ds0 ds2 : List ℕ} {As1 As0 As2 : List (ND K)} {m n : ℕ}
    (h1 : MpsChain ds1 As1 1 m) (h0 : MpsChain ds0 As0 m n) (h2 : MpsChain ds2 As2 n 1)
    (i1 : ∀ A ∈ As1, LeftIso A) (i2 : ∀ A ∈ As2, RightIso A) {s0 t0 : List ℕ}
    (hs0 : s0.length = ds0.length) (ht0 : t0.length = ds0.length) :
    sumIdx ds1 (fun s1 => sumIdx ds2 fun s2 =>
      star (amp (As1 ++ (As0 ++ As2)) (s1 ++ (s0 ++ s2)) 0 0) * amp (As1 ++ (As0 ++ As2)) (s1 ++ (t0 ++ s2)) 0 0) =
    ∑ c ∈ range m, ∑ e ∈ range n, star (amp As0 s0 c e) * amp As0 t0 c e := by
  have l1 := leftIso_env h1 i1
  have l2 := rightIso_env h2 i2
  simp only [Finset.sum_range_one] at l1 l2
  have e1 : ∀ s1, InB ds1 s1 → ∀ s2, ∀ u, u.length = ds0.length →
      amp (As1 ++ (As0 ++ As2)) (s1 ++ (u ++ s2)) 0 0 =
      ∑ c ∈ range m, ∑ e ∈ range n, amp As1 s1 0 c * (amp As0 u c e * amp As2 s2 e 0) := by
    intro s1 hs1 s2 u hu
    rw [amp_append h1 hs1.length_eq 0 0 (by omega)]
    refine Finset.sum_congr rfl fun c hc => ?_
    rw [amp_append h0 hu c 0 (by simpa using hc), Finset.mul_sum]
  have e2 : sumIdx ds1 (fun s1 => sumIdx ds2 fun s2 =>
      star (amp (As1 ++ (As0 ++ As2)) (s1 ++ (s0 ++ s2)) 0 0) * amp (As1 ++ (As0 ++ As2)) (s1 ++ (t0 ++ s2)) 0 0) =
      ∑ c ∈ range m, ∑ e ∈ range n, ∑ c' ∈ range m, ∑ e' ∈ range n,
        (star (amp As0 s0 c e) * amp As0 t0 c' e') *
          (sumIdx ds1 (fun s1 => star (amp As1 s1 0 c) * amp As1 s1 0 c') *
           sumIdx ds2 (fun s2 => amp As2 s2 e' 0 * star (amp As2 s2 e 0))) := by
    simp only [← sumIdx_mul_left, ← sumIdx_mul_right, ← sumIdx_finset_sum]
    rw [sumIdx_comm ds1 ds2]
    refine sumIdx_congr fun s2 _ => sumIdx_congr fun s1 hs1 => ?_
    rw [e1 s1 hs1 s2 s0 hs0, e1 s1 hs1 s2 t0 ht0]
    simp only [star_sum, star_mul', Finset.sum_mul]
    refine Finset.sum_congr rfl fun c _ => Finset.sum_congr rfl fun e _ => ?_
    simp only [Finset.mul_sum]
    refine Finset.sum_congr rfl fun c' _ => Finset.sum_congr rfl fun e' _ => ?_
    ring
  rw [e2]
  refine Finset.sum_congr rfl fun c hc => Finset.sum_congr rfl fun e he => ?_
  rw [Finset.sum_eq_single c]
  · rw [Finset.sum_eq_single e]
    · rw [l1 c (by simpa using hc) c (by simpa using hc), l2 e (by simpa using he) e (by simpa using he)]
      simp
    · intro e' he' hne
      rw [l2 e' (by simpa using he') e (by simpa using he), if_neg hne]
      simp
    · intro h; exact absurd he h
  · intro c' hc' hne
    refine Finset.sum_eq_zero fun e' _ => ?_
    rw [l1 c (by simpa using hc) c' (by simpa using hc'), if_neg (fun h => hne h.symm)]
    simp
  · intro h; exact absurd hc h

end Xmps
