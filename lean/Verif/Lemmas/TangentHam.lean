import Verif.Lemmas.Tangent

/-!
# The environment of a site in a term of the Hamiltonian applied to the chain
-/

namespace Xmps

open Finset Xmps.Spec

section swaps
variable {R : Type} [AddCommMonoid R] {s1 s2 s3 s4 s5 s6 t : Finset ℕ}

theorem sum_swap2 (f : ℕ → ℕ → ℕ → R) : ∑ a ∈ s1, ∑ b ∈ s2, ∑ j ∈ t, f a b j = ∑ j ∈ t, ∑ a ∈ s1, ∑ b ∈ s2, f a b j := by
  rw [Finset.sum_congr rfl fun a _ => Finset.sum_comm, Finset.sum_comm]

theorem sum_swap3 (f : ℕ → ℕ → ℕ → ℕ → R) :
    ∑ a ∈ s1, ∑ b ∈ s2, ∑ c ∈ s3, ∑ j ∈ t, f a b c j = ∑ j ∈ t, ∑ a ∈ s1, ∑ b ∈ s2, ∑ c ∈ s3, f a b c j := by
  rw [Finset.sum_congr rfl fun a _ => sum_swap2 _, Finset.sum_comm]

theorem sum_swap4 (f : ℕ → ℕ → ℕ → ℕ → ℕ → R) :
    ∑ a ∈ s1, ∑ b ∈ s2, ∑ c ∈ s3, ∑ e ∈ s4, ∑ j ∈ t, f a b c e j = ∑ j ∈ t, ∑ a ∈ s1, ∑ b ∈ s2, ∑ c ∈ s3, ∑ e ∈ s4, f a b c e j := by
  rw [Finset.sum_congr rfl fun a _ => sum_swap3 _, Finset.sum_comm]

theorem sum_swap5 (f : ℕ → ℕ → ℕ → ℕ → ℕ → ℕ → R) :
    ∑ a ∈ s1, ∑ b ∈ s2, ∑ c ∈ s3, ∑ e ∈ s4, ∑ g ∈ s5, ∑ j ∈ t, f a b c e g j =
      ∑ j ∈ t, ∑ a ∈ s1, ∑ b ∈ s2, ∑ c ∈ s3, ∑ e ∈ s4, ∑ g ∈ s5, f a b c e g j := by
  rw [Finset.sum_congr rfl fun a _ => sum_swap4 _, Finset.sum_comm]

theorem sum_swap6 (f : ℕ → ℕ → ℕ → ℕ → ℕ → ℕ → ℕ → R) :
    ∑ a ∈ s1, ∑ b ∈ s2, ∑ c ∈ s3, ∑ e ∈ s4, ∑ g ∈ s5, ∑ i ∈ s6, ∑ j ∈ t, f a b c e g i j =
      ∑ j ∈ t, ∑ a ∈ s1, ∑ b ∈ s2, ∑ c ∈ s3, ∑ e ∈ s4, ∑ g ∈ s5, ∑ i ∈ s6, f a b c e g i j := by
  rw [Finset.sum_congr rfl fun a _ => sum_swap5 _, Finset.sum_comm]

end swaps

theorem gateAct_next (d : ℕ) (h : ND ℂ) (f : List ℕ → ℂ) {s0 s3 : List ℕ} {m : ℕ} (hm : s0.length = m) (x y : ℕ) :
    gateAct d h m (m + 1) f (s0 ++ x :: y :: s3) = ∑ p1 ∈ range d, ∑ p2 ∈ range d, h.val [x * d + y, p1 * d + p2] * f (s0 ++ p1 :: p2 :: s3) := by
  unfold gateAct
  subst hm
  refine Finset.sum_congr rfl fun p1 _ => Finset.sum_congr rfl fun p2 _ => ?_
  congr 2
  · simp
  · simp

/-- the tensor `h A B` with physical indices `t`, `u` and bonds `a`, `e` -/
def hAA (d q : ℕ) (h A B : ND ℂ) (t u a e : ℕ) : ℂ :=
  ∑ p1 ∈ range d, ∑ p2 ∈ range d, h.val [t * d + u, p1 * d + p2] * ∑ k ∈ range q, A.val [p1, a, k] * B.val [p2, k, e]

variable {ds0 ds3 : List ℕ} {As0 As3 : List (ND ℂ)} {A B h : ND ℂ} {d p q n : ℕ}

theorem amp_two {s t a e : ℕ} (hA : A.shape = [d, p, q]) (hB : B.shape = [d, q, n]) (he : e < n) :
    amp [A, B] [s, t] a e = ∑ k ∈ range q, A.val [s, a, k] * B.val [t, k, e] := by
  rw [amp_cons, dim2 hA]
  exact Finset.sum_congr rfl fun k _ => by rw [amp_single _ _ _ _ (by rw [dim2 hB]; exact he)]

/-- the term acts on the site and its right neighbour -/
theorem envAmp_right (h0 : MpsChain ds0 As0 1 p) (hA : A.shape = [d, p, q]) (hB : B.shape = [d, q, n]) (h3 : MpsChain ds3 As3 n 1)
    {t b c : ℕ} (ht : t < d) (hb : b < p) (hc : c < q) :
    envAmp ds0 As0 (d :: ds3) (B :: As3) (gateAct d h ds0.length (ds0.length + 1) (psi (As0 ++ A :: B :: As3))) t b c =
      ∑ u ∈ range d, ∑ e ∈ range n, (∑ a' ∈ range p, ∑ e' ∈ range n, leftEnv ds0 As0 b a' * hAA d q h A B t u a' e' * rightEnv ds3 As3 e' e) *
        star (B.val [u, c, e]) := by
  have hch : MpsChain (ds0 ++ d :: d :: ds3) (As0 ++ A :: B :: As3) 1 1 :=
    (mpsChain_append h0.length_eq).2 ⟨p, h0, q, hA, n, hB, h3⟩
  have key := envAmp_block (ds0 := ds0) (dv := []) (dw := [d]) (ds3 := ds3) (dU := [d, d]) (As0 := As0) (P := []) (Q := [B]) (As3 := As3)
    (Cs := [A, B]) (dC := [d, d]) (m0 := p) (m3 := n) (n := q) h0 ⟨n, hB, rfl⟩ ⟨q, hA, n, hB, rfl⟩
    (f := gateAct d h ds0.length (ds0.length + 1) (psi (As0 ++ A :: B :: As3))) (t := t)
    (G := fun _ w u => h.val [t * d + w.headI, ravel [d, d] u]) (κ := fun _ _ u => u)
    (fun v _ w _ u hu => hu.length_eq) (by
      intro s0 hs0 v hv w hw s3 hs3
      obtain rfl : v = [] := by simpa using hv.length_eq
      match w, hw with
      | [y], hw =>
        simp only [List.append_nil, List.cons_append, List.nil_append]
        rw [gateAct_next d h _ hs0.length_eq]
        simp only [sumIdx_cons, sumIdx_nil]
        refine Finset.sum_congr rfl fun p1 _ => Finset.sum_congr rfl fun p2 _ => ?_
        rw [psi_eq_amp hch (by simp) (by simp [hs0.length_eq, hs3.length_eq])]
        simp) (b := b) (c := c) hc
  simp only [List.append_nil, List.cons_append, List.nil_append, sumIdx_nil, sumIdx_cons] at key
  rw [key]
  refine Finset.sum_congr rfl fun u _ => ?_
  calc _ = ∑ p1 ∈ range d, ∑ p2 ∈ range d, ∑ e ∈ range n, ∑ a' ∈ range p, ∑ e' ∈ range n,
      star (B.val [u, c, e]) * (h.val [t * d + u, p1 * d + p2] * ∑ k ∈ range q, A.val [p1, a', k] * B.val [p2, k, e']) *
        (leftEnv ds0 As0 b a' * rightEnv ds3 As3 e' e) := by
        refine Finset.sum_congr rfl fun p1 _ => Finset.sum_congr rfl fun p2 _ => ?_
        rw [Finset.sum_eq_single b]
        · refine Finset.sum_congr rfl fun e he => Finset.sum_congr rfl fun a' _ => Finset.sum_congr rfl fun e' he' => ?_
          rw [amp_two hA hB (by simpa using he'), amp_single _ _ _ _ (by rw [dim2 hB]; simpa using he)]
          simp
        · intro a _ hab
          refine Finset.sum_eq_zero fun e _ => Finset.sum_eq_zero fun a' _ => Finset.sum_eq_zero fun e' _ => ?_
          simp [hab]
        · intro hn
          exact absurd (Finset.mem_range.2 hb) hn
    _ = _ := by
        rw [Finset.sum_congr rfl fun p1 _ => Finset.sum_comm, Finset.sum_comm]
        refine Finset.sum_congr rfl fun e _ => ?_
        rw [Finset.sum_congr rfl fun p1 _ => Finset.sum_comm, Finset.sum_comm, Finset.sum_mul]
        refine Finset.sum_congr rfl fun a' _ => ?_
        rw [Finset.sum_congr rfl fun p1 _ => Finset.sum_comm, Finset.sum_comm, Finset.sum_mul]
        refine Finset.sum_congr rfl fun e' _ => ?_
        unfold hAA
        rw [Finset.mul_sum, Finset.sum_mul, Finset.sum_mul]
        refine Finset.sum_congr rfl fun p1 _ => ?_
        rw [Finset.mul_sum, Finset.sum_mul, Finset.sum_mul]
        refine Finset.sum_congr rfl fun p2 _ => ?_
        ring

/-- the term acts on the site and its left neighbour -/
theorem envAmp_here (h0 : MpsChain ds0 As0 1 p) (hA : A.shape = [d, p, q]) (hB : B.shape = [d, q, n]) (h3 : MpsChain ds3 As3 n 1)
    {t b c : ℕ} (ht : t < d) (hb : b < q) (hc : c < n) :
    envAmp (ds0 ++ [d]) (As0 ++ [A]) ds3 As3 (gateAct d h ds0.length (ds0.length + 1) (psi (As0 ++ A :: B :: As3))) t b c =
      ∑ e' ∈ range n, (∑ u ∈ range d, ∑ a' ∈ range p, (∑ a ∈ range p, leftEnv ds0 As0 a a' * star (A.val [u, a, b])) * hAA d q h A B u t a' e') *
        rightEnv ds3 As3 e' c := by
  have hch : MpsChain (ds0 ++ d :: d :: ds3) (As0 ++ A :: B :: As3) 1 1 :=
    (mpsChain_append h0.length_eq).2 ⟨p, h0, q, hA, n, hB, h3⟩
  have key := envAmp_block (ds0 := ds0) (dv := [d]) (dw := []) (ds3 := ds3) (dU := [d, d]) (As0 := As0) (P := [A]) (Q := []) (As3 := As3)
    (Cs := [A, B]) (dC := [d, d]) (m0 := p) (m3 := n) (n := n) h0 rfl ⟨q, hA, n, hB, rfl⟩
    (f := gateAct d h ds0.length (ds0.length + 1) (psi (As0 ++ A :: B :: As3))) (t := t)
    (G := fun v _ u => h.val [v.headI * d + t, ravel [d, d] u]) (κ := fun _ _ u => u)
    (fun v _ w _ u hu => hu.length_eq) (by
      intro s0 hs0 v hv w hw s3 hs3
      obtain rfl : w = [] := by simpa using hw.length_eq
      match v, hv with
      | [y], hv =>
        simp only [List.append_assoc, List.cons_append, List.nil_append]
        rw [gateAct_next d h _ hs0.length_eq]
        simp only [sumIdx_cons, sumIdx_nil]
        refine Finset.sum_congr rfl fun p1 _ => Finset.sum_congr rfl fun p2 _ => ?_
        rw [psi_eq_amp hch (by simp) (by simp [hs0.length_eq, hs3.length_eq])]
        simp) (b := b) (c := c) hc
  simp only [List.nil_append, sumIdx_nil, sumIdx_cons] at key
  rw [key]
  calc _ = ∑ u ∈ range d, ∑ p1 ∈ range d, ∑ p2 ∈ range d, ∑ a ∈ range p, ∑ a' ∈ range p, ∑ e' ∈ range n,
      star (A.val [u, a, b]) * (h.val [u * d + t, p1 * d + p2] * ∑ k ∈ range q, A.val [p1, a', k] * B.val [p2, k, e']) *
        (leftEnv ds0 As0 a a' * rightEnv ds3 As3 e' c) := by
        refine Finset.sum_congr rfl fun u _ => Finset.sum_congr rfl fun p1 _ => Finset.sum_congr rfl fun p2 _ => ?_
        refine Finset.sum_congr rfl fun a _ => ?_
        rw [Finset.sum_eq_single c]
        · refine Finset.sum_congr rfl fun a' _ => Finset.sum_congr rfl fun e' he' => ?_
          rw [amp_two hA hB (by simpa using he'), amp_single _ _ _ _ (by rw [dim2 hA]; exact hb)]
          simp
        · intro e _ hec
          refine Finset.sum_eq_zero fun a' _ => Finset.sum_eq_zero fun e' _ => ?_
          simp [Ne.symm hec]
        · intro hn
          exact absurd (Finset.mem_range.2 hc) hn
    _ = ∑ u ∈ range d, ∑ e' ∈ range n, ∑ a' ∈ range p, ∑ a ∈ range p, ∑ p1 ∈ range d, ∑ p2 ∈ range d,
      star (A.val [u, a, b]) * (h.val [u * d + t, p1 * d + p2] * ∑ k ∈ range q, A.val [p1, a', k] * B.val [p2, k, e']) *
        (leftEnv ds0 As0 a a' * rightEnv ds3 As3 e' c) := by
        refine Finset.sum_congr rfl fun u _ => ?_
        rw [Finset.sum_congr rfl fun p1 _ => Finset.sum_comm, Finset.sum_comm]
        rw [Finset.sum_congr rfl fun a _ => Finset.sum_congr rfl fun p1 _ => Finset.sum_comm]
        rw [Finset.sum_congr rfl fun a _ => Finset.sum_comm]
        rw [Finset.sum_comm]
        rw [Finset.sum_comm (s := range n)]
        refine Finset.sum_congr rfl fun a' _ => ?_
        rw [Finset.sum_congr rfl fun a _ => Finset.sum_congr rfl fun p1 _ => Finset.sum_comm]
        rw [Finset.sum_congr rfl fun a _ => Finset.sum_comm]
        rw [Finset.sum_comm]
    _ = _ := by
        rw [Finset.sum_comm]
        refine Finset.sum_congr rfl fun e' _ => ?_
        rw [Finset.sum_mul]
        refine Finset.sum_congr rfl fun u _ => ?_
        rw [Finset.sum_mul]
        refine Finset.sum_congr rfl fun a' _ => ?_
        rw [Finset.sum_mul, Finset.sum_mul]
        refine Finset.sum_congr rfl fun a _ => ?_
        unfold hAA
        rw [Finset.mul_sum, Finset.sum_mul]
        refine Finset.sum_congr rfl fun p1 _ => ?_
        rw [Finset.mul_sum, Finset.sum_mul]
        refine Finset.sum_congr rfl fun p2 _ => ?_
        ring

/-- the left environment after a term of the Hamiltonian: ket bond `k'`, bra bond `k` -/
noncomputable def envK (ds0 : List ℕ) (As0 : List (ND ℂ)) (d p q : ℕ) (h A B : ND ℂ) (k' k : ℕ) : ℂ :=
  ∑ u1 ∈ range d, ∑ u2 ∈ range d, ∑ a' ∈ range p, ∑ x ∈ range q,
    (∑ a ∈ range p, leftEnv ds0 As0 a a' * star (A.val [u1, a, x])) * star (B.val [u2, x, k]) * hAA d q h A B u1 u2 a' k'

/-- the term acts on two sites further to the left, with the sites `M` in between -/
theorem envAmp_left {dM : List ℕ} {M : List (ND ℂ)} {E : ND ℂ} {r n' : ℕ} (h0 : MpsChain ds0 As0 1 p) (hA : A.shape = [d, p, q]) (hB : B.shape = [d, q, n])
    (hM : MpsChain dM M n r) (hE : E.shape = [d, r, n']) (h3 : MpsChain ds3 As3 n' 1)
    {t b c : ℕ} (hb : b < r) (hc : c < n') :
    envAmp (ds0 ++ d :: d :: dM) (As0 ++ A :: B :: M) ds3 As3
      (gateAct d h ds0.length (ds0.length + 1) (psi (As0 ++ A :: B :: (M ++ E :: As3)))) t b c =
      ∑ e' ∈ range n', (∑ k' ∈ range n, ∑ k ∈ range n, envK ds0 As0 d p q h A B k' k *
        pullBack dM M r (fun y' y => E.val [t, y', e'] * if y = b then 1 else 0) k' k) * rightEnv ds3 As3 e' c := by
  have hC : MpsChain (d :: d :: (dM ++ [d])) (A :: B :: (M ++ [E])) p n' :=
    ⟨q, hA, n, hB, (mpsChain_append hM.length_eq).2 ⟨r, hM, n', hE, rfl⟩⟩
  have hch : MpsChain (ds0 ++ (d :: d :: (dM ++ [d]) ++ ds3)) (As0 ++ (A :: B :: (M ++ [E]) ++ As3)) 1 1 :=
    (mpsChain_append h0.length_eq).2 ⟨p, h0, (mpsChain_append hC.length_eq).2 ⟨n', hC, h3⟩⟩
  have key := envAmp_block (ds0 := ds0) (dv := d :: d :: dM) (dw := []) (ds3 := ds3) (dU := [d, d]) (As0 := As0) (P := A :: B :: M) (Q := []) (As3 := As3)
    (Cs := A :: B :: (M ++ [E])) (dC := d :: d :: (dM ++ [d])) (m0 := p) (m3 := n') (n := n') h0 rfl hC
    (f := gateAct d h ds0.length (ds0.length + 1) (psi (As0 ++ A :: B :: (M ++ E :: As3)))) (t := t)
    (G := fun v _ u => h.val [v.headI * d + v.tail.headI, ravel [d, d] u]) (κ := fun v _ u => u ++ (v.drop 2 ++ [t]))
    (fun v hv w _ u hu => by
      have := hv.length_eq
      have := hu.length_eq
      simp at *
      omega) (by
      intro s0 hs0 v hv w hw s3 hs3
      obtain rfl : w = [] := by simpa using hw.length_eq
      match v, hv with
      | y1 :: y2 :: v, hv =>
        have e : (s0 ++ y1 :: y2 :: v) ++ t :: ([] ++ s3) = s0 ++ y1 :: y2 :: (v ++ t :: s3) := by simp
        rw [e, gateAct_next d h _ hs0.length_eq]
        simp only [sumIdx_cons, sumIdx_nil]
        refine Finset.sum_congr rfl fun p1 _ => Finset.sum_congr rfl fun p2 _ => ?_
        have e2 : As0 ++ A :: B :: (M ++ E :: As3) = As0 ++ (A :: B :: (M ++ [E]) ++ As3) := by simp
        have e3 : s0 ++ p1 :: p2 :: (v ++ t :: s3) = s0 ++ ((p1 :: p2 :: (v ++ [t])) ++ s3) := by simp
        have := hv.2.2.length_eq
        rw [e2, e3, psi_eq_amp hch (by simp) (by simp [hs0.length_eq, hs3.length_eq, this])]
        simp) (b := b) (c := c) hc
  simp only [List.nil_append, sumIdx_nil, sumIdx_cons] at key
  rw [key]
  have hamp : ∀ (y1 y2 p1 p2 : ℕ) (v : List ℕ), InB dM v → ∀ a < p, ∀ a' e', e' < n' →
      star (amp (A :: B :: M) (y1 :: y2 :: v) a b) * amp (A :: B :: (M ++ [E])) (p1 :: p2 :: (v ++ [t])) a' e' =
      ∑ k' ∈ range n, ∑ k ∈ range n, (∑ x ∈ range q, star (A.val [y1, a, x]) * star (B.val [y2, x, k])) * (∑ x ∈ range q, A.val [p1, a', x] * B.val [p2, x, k']) *
        (star (amp M v k b) * ∑ y' ∈ range r, amp M v k' y' * E.val [t, y', e']) := by
    intro y1 y2 p1 p2 v hv a ha a' e' he'
    have e1 : amp (A :: B :: M) (y1 :: y2 :: v) a b = ∑ k ∈ range n, (∑ x ∈ range q, A.val [y1, a, x] * B.val [y2, x, k]) * amp M v k b := by
      rw [amp_cons, dim2 hA]
      simp only [amp_cons, dim2 hB, Finset.mul_sum, Finset.sum_mul]
      rw [Finset.sum_comm]
      exact Finset.sum_congr rfl fun k _ => Finset.sum_congr rfl fun x _ => by ring
    have e2 : amp (A :: B :: (M ++ [E])) (p1 :: p2 :: (v ++ [t])) a' e' = ∑ k ∈ range n, (∑ x ∈ range q, A.val [p1, a', x] * B.val [p2, x, k]) *
        ∑ y' ∈ range r, amp M v k y' * E.val [t, y', e'] := by
      rw [amp_cons, dim2 hA]
      simp only [amp_cons, dim2 hB]
      rw [Finset.sum_congr rfl fun x _ => Finset.mul_sum _ _ _, Finset.sum_comm]
      refine Finset.sum_congr rfl fun k hk => ?_
      rw [Finset.sum_mul]
      refine Finset.sum_congr rfl fun x _ => ?_
      rw [amp_append hM hv.length_eq k e' (by simpa using hk)]
      rw [Finset.sum_congr rfl fun y' _ => by rw [amp_single _ _ _ _ (by rw [dim2 hE]; exact he')]]
      ring
    rw [e1, e2, star_sum, Finset.sum_mul_sum, Finset.sum_comm]
    refine Finset.sum_congr rfl fun k' _ => Finset.sum_congr rfl fun k _ => ?_
    rw [star_mul', star_sum, Finset.sum_congr rfl fun x _ => star_mul' _ _]
    ring
  have hpb : ∀ e' k' k, pullBack dM M r (fun y' y => E.val [t, y', e'] * if y = b then 1 else 0) k' k =
      sumIdx dM fun v => star (amp M v k b) * ∑ y' ∈ range r, amp M v k' y' * E.val [t, y', e'] := by
    intro e' k' k
    unfold pullBack
    refine sumIdx_congr fun v _ => ?_
    rw [Finset.mul_sum]
    refine Finset.sum_congr rfl fun y' _ => ?_
    rw [Finset.sum_eq_single b]
    · simp
      ring
    · intro y _ hy
      simp [hy]
    · intro hn
      exact absurd (Finset.mem_range.2 hb) hn
  have hK : ∀ k' k, envK ds0 As0 d p q h A B k' k = ∑ y1 ∈ range d, ∑ y2 ∈ range d, ∑ p1 ∈ range d, ∑ p2 ∈ range d, ∑ a ∈ range p, ∑ a' ∈ range p,
      h.val [y1 * d + y2, p1 * d + p2] * leftEnv ds0 As0 a a' * (∑ x ∈ range q, star (A.val [y1, a, x]) * star (B.val [y2, x, k])) *
        (∑ x ∈ range q, A.val [p1, a', x] * B.val [p2, x, k']) := by
    intro k' k
    unfold envK
    refine Finset.sum_congr rfl fun y1 _ => Finset.sum_congr rfl fun y2 _ => ?_
    symm
    rw [sum_swap3]
    refine Finset.sum_congr rfl fun a' _ => ?_
    have e1 : ∀ x, (∑ a ∈ range p, leftEnv ds0 As0 a a' * star (A.val [y1, a, x])) * star (B.val [y2, x, k]) * hAA d q h A B y1 y2 a' k' =
        ∑ a ∈ range p, leftEnv ds0 As0 a a' * (star (A.val [y1, a, x]) * star (B.val [y2, x, k])) * hAA d q h A B y1 y2 a' k' := by
      intro x
      rw [Finset.sum_mul, Finset.sum_mul]
      exact Finset.sum_congr rfl fun a _ => by ring
    rw [Finset.sum_congr rfl fun x _ => e1 x]
    symm
    rw [Finset.sum_comm, sum_swap2]
    refine Finset.sum_congr rfl fun a _ => ?_
    rw [← Finset.sum_mul, ← Finset.mul_sum]
    unfold hAA
    rw [Finset.mul_sum]
    refine Finset.sum_congr rfl fun p1 _ => ?_
    rw [Finset.mul_sum]
    exact Finset.sum_congr rfl fun p2 _ => by ring
  calc _ = ∑ y1 ∈ range d, ∑ y2 ∈ range d, ∑ p1 ∈ range d, ∑ p2 ∈ range d, ∑ a ∈ range p, ∑ a' ∈ range p, ∑ e' ∈ range n', ∑ k' ∈ range n, ∑ k ∈ range n,
      h.val [y1 * d + y2, p1 * d + p2] * leftEnv ds0 As0 a a' * (∑ x ∈ range q, star (A.val [y1, a, x]) * star (B.val [y2, x, k])) *
        (∑ x ∈ range q, A.val [p1, a', x] * B.val [p2, x, k']) * (pullBack dM M r (fun y' y => E.val [t, y', e'] * if y = b then 1 else 0) k' k *
          rightEnv ds3 As3 e' c) := by
        refine Finset.sum_congr rfl fun y1 _ => Finset.sum_congr rfl fun y2 _ => ?_
        rw [sumIdx_congr (g := fun v => ∑ p1 ∈ range d, ∑ p2 ∈ range d, ∑ a ∈ range p, ∑ a' ∈ range p, ∑ e' ∈ range n', ∑ k' ∈ range n, ∑ k ∈ range n,
          h.val [y1 * d + y2, p1 * d + p2] * leftEnv ds0 As0 a a' * (∑ x ∈ range q, star (A.val [y1, a, x]) * star (B.val [y2, x, k])) *
            (∑ x ∈ range q, A.val [p1, a', x] * B.val [p2, x, k']) * ((star (amp M v k b) * ∑ y' ∈ range r, amp M v k' y' * E.val [t, y', e']) *
              rightEnv ds3 As3 e' c))]
        · simp only [sumIdx_finset_sum]
          refine Finset.sum_congr rfl fun p1 _ => Finset.sum_congr rfl fun p2 _ => Finset.sum_congr rfl fun a _ => Finset.sum_congr rfl fun a' _ =>
            Finset.sum_congr rfl fun e' _ => Finset.sum_congr rfl fun k' _ => Finset.sum_congr rfl fun k _ => ?_
          rw [hpb, sumIdx_mul_left, sumIdx_mul_right]
        · intro v hv
          refine Finset.sum_congr rfl fun p1 _ => Finset.sum_congr rfl fun p2 _ => Finset.sum_congr rfl fun a ha => ?_
          rw [Finset.sum_eq_single c]
          · refine Finset.sum_congr rfl fun a' _ => Finset.sum_congr rfl fun e' he' => ?_
            have := hamp y1 y2 p1 p2 v hv a (by simpa using ha) a' e' (by simpa using he')
            simp only [amp_nil, if_true, star_one, mul_one, List.headI_cons, List.tail_cons, ravel_cons, ravel_nil, List.prod_cons, List.prod_nil,
              List.drop_succ_cons, List.drop_zero, List.cons_append, List.nil_append, Nat.mul_one, Nat.add_zero]
            rw [show ∀ x h y z : ℂ, x * (h * y) * z = x * y * (h * z) from fun x h y z => by ring, this, Finset.sum_mul]
            refine Finset.sum_congr rfl fun k' _ => ?_
            rw [Finset.sum_mul]
            refine Finset.sum_congr rfl fun k _ => ?_
            ring
          · intro e _ hec
            refine Finset.sum_eq_zero fun a' _ => Finset.sum_eq_zero fun e' _ => ?_
            simp [Ne.symm hec]
          · intro hn
            exact absurd (Finset.mem_range.2 hc) hn
    _ = _ := by
        rw [sum_swap6]
        refine Finset.sum_congr rfl fun e' _ => ?_
        rw [sum_swap6, Finset.sum_mul]
        refine Finset.sum_congr rfl fun k' _ => ?_
        rw [sum_swap6, Finset.sum_mul]
        refine Finset.sum_congr rfl fun k _ => ?_
        rw [hK]
        simp only [← Finset.sum_mul]
        ring

end Xmps
