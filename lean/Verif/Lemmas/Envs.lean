import Verif.Spec.Env
import Verif.Lemmas.Gauge
import Verif.Lemmas.Expect

/-!
# Environments of a chain
-/

namespace Xmps

open Finset Xmps.Spec

variable {K : Type} [CommSemiring K] [StarRing K]

/-- one more site on the right of a left environment -/
theorem leftEnv_snoc {ds : List ℕ} {As : List (ND K)} {A : ND K} {d m n : ℕ} (h : MpsChain ds As 1 m) (hA : A.shape = [d, m, n])
    (b b' : ℕ) (hb : b < n) (hb' : b' < n) :
    leftEnv (ds ++ [d]) (As ++ [A]) b b' =
      ∑ s ∈ range d, ∑ a ∈ range m, ∑ a' ∈ range m, star (A.val [s, a, b]) * leftEnv ds As a a' * A.val [s, a', b'] := by
  unfold leftEnv
  rw [sumIdx_append]
  calc _ = sumIdx ds fun s1 => ∑ s ∈ range d, ∑ a ∈ range m, ∑ a' ∈ range m,
        star (A.val [s, a, b]) * (star (amp As s1 0 a) * amp As s1 0 a') * A.val [s, a', b'] := by
        refine sumIdx_congr fun s1 h1 => ?_
        simp only [sumIdx_cons, sumIdx_nil]
        refine Finset.sum_congr rfl fun s _ => ?_
        rw [amp_append h h1.length_eq 0 b (by omega), amp_append h h1.length_eq 0 b' (by omega), star_sum, Finset.sum_mul]
        refine Finset.sum_congr rfl fun a _ => ?_
        rw [Finset.mul_sum]
        refine Finset.sum_congr rfl fun a' _ => ?_
        rw [amp_single _ _ _ _ (by rw [dim2 hA]; exact hb), amp_single _ _ _ _ (by rw [dim2 hA]; exact hb'), star_mul']
        ring
    _ = _ := by
        simp only [sumIdx_finset_sum, ← sumIdx_mul_left, ← sumIdx_mul_right]

/-- one more site on the left of a right environment -/
theorem rightEnv_cons {ds : List ℕ} {As : List (ND K)} {A : ND K} {d l m : ℕ} (hA : A.shape = [d, l, m]) (a a' : ℕ) :
    rightEnv (d :: ds) (A :: As) a a' =
      ∑ s ∈ range d, ∑ c ∈ range m, ∑ c' ∈ range m, A.val [s, a, c] * rightEnv ds As c c' * star (A.val [s, a', c']) := by
  unfold rightEnv
  rw [sumIdx_cons]
  refine Finset.sum_congr rfl fun s _ => ?_
  simp only [← sumIdx_mul_left, ← sumIdx_mul_right, ← sumIdx_finset_sum]
  refine sumIdx_congr fun t _ => ?_
  rw [amp_cons, amp_cons, dim2 hA, star_sum, Finset.sum_mul]
  refine Finset.sum_congr rfl fun c _ => ?_
  rw [Finset.mul_sum]
  refine Finset.sum_congr rfl fun c' _ => ?_
  rw [star_mul']
  ring

theorem leftEnv_nil (a b : ℕ) : leftEnv [] ([] : List (ND K)) a b = (if 0 = a then 1 else 0) * (if 0 = b then 1 else 0) := by
  simp only [leftEnv, sumIdx_nil, amp_nil]
  split <;> simp

theorem rightEnv_nil (a b : ℕ) : rightEnv [] ([] : List (ND K)) a b = (if a = 0 then 1 else 0) * (if b = 0 then 1 else 0) := by
  simp only [rightEnv, sumIdx_nil, amp_nil]
  congr 1
  split <;> simp

theorem leftEnv_iso {ds : List ℕ} {As : List (ND K)} {m : ℕ} (h : MpsChain ds As 1 m) (hi : ∀ A ∈ As, LeftIso A)
    (a : ℕ) (ha : a < m) (b : ℕ) (hb : b < m) : leftEnv ds As a b = if a = b then 1 else 0 := by
  have := leftIso_env h hi a ha b hb
  simpa [leftEnv] using this

theorem rightEnv_iso {ds : List ℕ} {As : List (ND K)} {m : ℕ} (h : MpsChain ds As m 1) (hi : ∀ A ∈ As, RightIso A)
    (a : ℕ) (ha : a < m) (b : ℕ) (hb : b < m) : rightEnv ds As a b = if a = b then 1 else 0 := by
  have := rightIso_env h hi a ha b hb
  simpa [rightEnv] using this

theorem leftEnv_star (ds : List ℕ) (As : List (ND K)) (a b : ℕ) : star (leftEnv ds As a b) = leftEnv ds As b a := by
  unfold leftEnv
  rw [sumIdx_star]
  exact sumIdx_congr fun s _ => by rw [star_mul', star_star, mul_comm]

theorem rightEnv_star (ds : List ℕ) (As : List (ND K)) (a b : ℕ) : star (rightEnv ds As a b) = rightEnv ds As b a := by
  unfold rightEnv
  rw [sumIdx_star]
  exact sumIdx_congr fun s _ => by rw [star_mul', star_star, mul_comm]

/-- summing out everything outside a block leaves the environments; the blocks of bra and ket may differ -/
theorem block_env {ds1 ds0 ds2 : List ℕ} {As1 As2 Bs0 Cs0 : List (ND K)} {m n : ℕ}
    (h1 : MpsChain ds1 As1 1 m) (hB : MpsChain ds0 Bs0 m n) (hC : MpsChain ds0 Cs0 m n) {s0 t0 : List ℕ}
    (hs0 : s0.length = ds0.length) (ht0 : t0.length = ds0.length) :
    sumIdx ds1 (fun s1 => sumIdx ds2 fun s2 =>
      star (amp (As1 ++ (Bs0 ++ As2)) (s1 ++ (s0 ++ s2)) 0 0) * amp (As1 ++ (Cs0 ++ As2)) (s1 ++ (t0 ++ s2)) 0 0) =
    ∑ c ∈ range m, ∑ e ∈ range n, ∑ c' ∈ range m, ∑ e' ∈ range n,
      (star (amp Bs0 s0 c e) * amp Cs0 t0 c' e') * (leftEnv ds1 As1 c c' * rightEnv ds2 As2 e' e) := by
  have e1 : ∀ Xs0, MpsChain ds0 Xs0 m n → ∀ s1, InB ds1 s1 → ∀ s2, ∀ u, u.length = ds0.length →
      amp (As1 ++ (Xs0 ++ As2)) (s1 ++ (u ++ s2)) 0 0 =
      ∑ c ∈ range m, ∑ e ∈ range n, amp As1 s1 0 c * (amp Xs0 u c e * amp As2 s2 e 0) := by
    intro Xs0 hX s1 hs1 s2 u hu
    rw [amp_append h1 hs1.length_eq 0 0 (by omega)]
    refine Finset.sum_congr rfl fun c hc => ?_
    rw [amp_append hX hu c 0 (by simpa using hc), Finset.mul_sum]
  unfold leftEnv rightEnv
  simp only [← sumIdx_mul_left, ← sumIdx_mul_right, ← sumIdx_finset_sum]
  rw [sumIdx_comm ds1 ds2]
  refine sumIdx_congr fun s2 _ => sumIdx_congr fun s1 hs1 => ?_
  rw [e1 Bs0 hB s1 hs1 s2 s0 hs0, e1 Cs0 hC s1 hs1 s2 t0 ht0]
  simp only [star_sum, star_mul', Finset.sum_mul]
  refine Finset.sum_congr rfl fun c _ => Finset.sum_congr rfl fun e _ => ?_
  simp only [Finset.mul_sum]
  refine Finset.sum_congr rfl fun c' _ => Finset.sum_congr rfl fun e' _ => ?_
  ring

/-- an expectation value in terms of the environments of the block -/
theorem opExpect_env {ds1 ds0 ds2 : List ℕ} {As1 As0 As2 : List (ND K)} {m n : ℕ}
    (h1 : MpsChain ds1 As1 1 m) (h0 : MpsChain ds0 As0 m n) (h2 : MpsChain ds2 As2 n 1) (hne : As0 ≠ [])
    (G : List ℕ → List ℕ → K) :
    opExpect (ds1 ++ (ds0 ++ ds2)) (As1 ++ (As0 ++ As2)) ds1.length ds0.length G =
    sumIdx ds0 fun s => sumIdx ds0 fun t => G s t *
      ∑ c ∈ range m, ∑ e ∈ range n, ∑ c' ∈ range m, ∑ e' ∈ range n,
        (star (amp As0 s c e) * amp As0 t c' e') * (leftEnv ds1 As1 c c' * rightEnv ds2 As2 e' e) := by
  rw [opExpect_split]
  refine sumIdx_congr fun s hs => sumIdx_congr fun t ht => ?_
  have hc : MpsChain (ds1 ++ (ds0 ++ ds2)) (As1 ++ (As0 ++ As2)) 1 1 :=
    (mpsChain_append h1.length_eq).2 ⟨m, h1, (mpsChain_append h0.length_eq).2 ⟨n, h0, h2⟩⟩
  have hps : ∀ u w v, InB ds1 u → InB ds0 v → InB ds2 w →
      psi (As1 ++ (As0 ++ As2)) (u ++ (v ++ w)) = amp (As1 ++ (As0 ++ As2)) (u ++ (v ++ w)) 0 0 := by
    intro u w v hu hv hw
    exact psi_eq_amp hc (by simp [hne]) (by simp [hu.length_eq, hv.length_eq, hw.length_eq])
  rw [show (sumIdx ds1 fun u => sumIdx ds2 fun w => star (psi (As1 ++ (As0 ++ As2)) (u ++ (s ++ w))) *
      psi (As1 ++ (As0 ++ As2)) (u ++ (t ++ w))) = _ from
    sumIdx_congr fun u hu => sumIdx_congr fun w hw => by rw [hps u w s hu hs hw, hps u w t hu ht hw],
    block_env h1 h0 h0 hs.length_eq ht.length_eq]

omit [CommSemiring K] [StarRing K] in
/-- the bond of a chain at a cut -/
theorem chain_cut {ds : List ℕ} {As : List (ND K)} {l r : ℕ} (h : MpsChain ds As l r) (k : ℕ) :
    ∃ m, MpsChain (ds.take k) (As.take k) l m ∧ MpsChain (ds.drop k) (As.drop k) m r := by
  have hl := h.length_eq
  have := (mpsChain_append (ds := ds.take k) (As := As.take k) (ds' := ds.drop k) (As' := As.drop k) (l := l) (r := r) (by simp [hl])).1
    (by simpa using h)
  exact this

omit [CommSemiring K] [StarRing K] in
theorem chain_bond_unique : ∀ {ds : List ℕ} {As : List (ND K)} {l m n : ℕ}, MpsChain ds As l m → MpsChain ds As l n → m = n
  | [], [], _, _, _, h, h' => by
    have h : _ = _ := h
    have h' : _ = _ := h'
    omega
  | d :: ds, A :: As, l, m, n, ⟨p, hA, h⟩, ⟨q, hA', h'⟩ => by
    rw [hA] at hA'
    have : p = q := by simpa using hA'
    subst this
    exact chain_bond_unique h h'
  | [], _ :: _, _, _, _, h, _ => by simp at h
  | _ :: _, [], _, _, _, h, _ => by simp at h

end Xmps
