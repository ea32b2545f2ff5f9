import Verif.Lemmas.TwoSiteTangent
import Verif.Lemmas.F1Value

/-!
# When `Σ h_m` applied to a chain is a tangent vector
-/

namespace Xmps

open Finset Spec Xmps.Ncon

/-- the vector agrees with the chain `As1` on the left of the cut -/
def LeftIntact (ds1 ds2 : List ℕ) (As1 : List (ND ℂ)) (q : ℕ) (f : List ℕ → ℂ) : Prop :=
  ∃ g : List ℕ → ℕ → ℂ, ∀ s1, InB ds1 s1 → ∀ s2, InB ds2 s2 → f (s1 ++ s2) = ∑ c ∈ range q, amp As1 s1 0 c * g s2 c

/-- the vector agrees with the chain `As2` on the right of the cut -/
def RightIntact (ds1 ds2 : List ℕ) (As2 : List (ND ℂ)) (q : ℕ) (f : List ℕ → ℂ) : Prop :=
  ∃ g : List ℕ → ℕ → ℂ, ∀ s1, InB ds1 s1 → ∀ s2, InB ds2 s2 → f (s1 ++ s2) = ∑ c ∈ range q, g s1 c * amp As2 s2 c 0

section intact
variable {ds1 ds2 : List ℕ} {As1 As2 : List (ND ℂ)} {q : ℕ}

theorem psi_cut (h1 : MpsChain ds1 As1 1 q) (h2 : MpsChain ds2 As2 q 1) (hne : As1 ≠ []) {s1 s2 : List ℕ} (hs1 : s1.length = ds1.length)
    (hs2 : s2.length = ds2.length) : psi (As1 ++ As2) (s1 ++ s2) = ∑ c ∈ range q, amp As1 s1 0 c * amp As2 s2 c 0 := by
  rw [psi_eq_amp ((mpsChain_append h1.length_eq).2 ⟨q, h1, h2⟩) (by simp [hne]) (by simp [hs1, hs2]), amp_append h1 hs1 0 0 (by omega)]

theorem rightIntact_psi (h1 : MpsChain ds1 As1 1 q) (h2 : MpsChain ds2 As2 q 1) (hne : As1 ≠ []) : RightIntact ds1 ds2 As2 q (psi (As1 ++ As2)) :=
  ⟨fun s1 c => amp As1 s1 0 c, fun s1 hs1 s2 hs2 => psi_cut h1 h2 hne hs1.length_eq hs2.length_eq⟩

theorem leftIntact_psi (h1 : MpsChain ds1 As1 1 q) (h2 : MpsChain ds2 As2 q 1) (hne : As1 ≠ []) : LeftIntact ds1 ds2 As1 q (psi (As1 ++ As2)) :=
  ⟨fun s2 c => amp As2 s2 c 0, fun s1 hs1 s2 hs2 => psi_cut h1 h2 hne hs1.length_eq hs2.length_eq⟩

/-- a gate on the left of the cut -/
theorem rightIntact_gate (h1 : MpsChain ds1 As1 1 q) (h2 : MpsChain ds2 As2 q 1) (hne : As1 ≠ []) (d : ℕ) (h : ND ℂ) {k : ℕ} (hk : k + 1 < ds1.length) :
    RightIntact ds1 ds2 As2 q (gateAct d h k (k + 1) (psi (As1 ++ As2))) := by
  refine ⟨fun s1 c => gateAct d h k (k + 1) (fun s => amp As1 s 0 c) s1, ?_⟩
  intro s1 hs1 s2 hs2
  have l1 := hs1.length_eq
  unfold gateAct
  simp only [Finset.sum_mul]
  symm
  rw [Finset.sum_comm]
  refine Finset.sum_congr rfl fun p1 _ => ?_
  rw [Finset.sum_comm]
  refine Finset.sum_congr rfl fun p2 _ => ?_
  rw [List.set_append_left _ _ (by omega), List.set_append_left _ _ (by rw [List.length_set]; omega), psi_cut h1 h2 hne (by simp [l1]) hs2.length_eq,
    List.getD_append _ _ _ _ (by omega), List.getD_append _ _ _ _ (by omega), Finset.mul_sum]
  exact Finset.sum_congr rfl fun c _ => by ring

/-- a gate on the right of the cut -/
theorem leftIntact_gate (h1 : MpsChain ds1 As1 1 q) (h2 : MpsChain ds2 As2 q 1) (hne : As1 ≠ []) (d : ℕ) (h : ND ℂ) {k : ℕ} (hk : ds1.length ≤ k) :
    LeftIntact ds1 ds2 As1 q (gateAct d h k (k + 1) (psi (As1 ++ As2))) := by
  refine ⟨fun s2 c => gateAct d h (k - ds1.length) (k + 1 - ds1.length) (fun s => amp As2 s c 0) s2, ?_⟩
  intro s1 hs1 s2 hs2
  have l1 := hs1.length_eq
  unfold gateAct
  simp only [Finset.mul_sum]
  symm
  rw [Finset.sum_comm]
  refine Finset.sum_congr rfl fun p1 _ => ?_
  rw [Finset.sum_comm]
  refine Finset.sum_congr rfl fun p2 _ => ?_
  rw [List.set_append_right _ _ (by omega), List.set_append_right _ _ (by omega), psi_cut h1 h2 hne l1 (by simp [hs2.length_eq]),
    List.getD_append_right _ _ _ _ (by omega), List.getD_append_right _ _ _ _ (by omega), Finset.mul_sum, l1]
  exact Finset.sum_congr rfl fun c _ => by ring

end intact

section bond
variable {ds0 ds3 : List ℕ} {P Q : List (ND ℂ)} {A B V W vL vR h : ND ℂ} {d p q n kL kR : ℕ} {rho : ℕ → ℝ}

/-- the column `k` of the left null vectors as a tensor with a bond of extent 1 -/
def colL (d p : ℕ) (vL : ND ℂ) (k : ℕ) : ND ℂ := ⟨[d, p, 1], fun
  | [t, a, _] => vL.val [t, a, k]
  | _ => 0⟩

/-- the row `k` of the right null vectors as a tensor with a bond of extent 1 -/
def rowR (d n : ℕ) (vR : ND ℂ) (k : ℕ) : ND ℂ := ⟨[d, 1, n], fun
  | [u, _, b] => vR.val [u, k, b]
  | _ => 0⟩

/-- the overlap with a chain cut in two -/
theorem pairing_cut {ds1 ds2 : List ℕ} {Xs Ys : List (ND ℂ)} (h1 : MpsChain ds1 Xs 1 1) (h2 : MpsChain ds2 Ys 1 1) (hne : Xs ≠ [])
    {f : List ℕ → ℂ} {F G : List ℕ → ℕ → ℂ} (hf : ∀ s1, InB ds1 s1 → ∀ s2, InB ds2 s2 → f (s1 ++ s2) = ∑ c ∈ range q, F s1 c * G s2 c) :
    pairing (ds1 ++ ds2) (psi (Xs ++ Ys)) f = ∑ c ∈ range q, (sumIdx ds1 fun s1 => star (amp Xs s1 0 0) * F s1 c) *
      sumIdx ds2 fun s2 => star (amp Ys s2 0 0) * G s2 c := by
  unfold pairing
  rw [sumIdx_append]
  have e : ∀ s1, InB ds1 s1 → ∀ s2, InB ds2 s2 → star (psi (Xs ++ Ys) (s1 ++ s2)) * f (s1 ++ s2) =
      ∑ c ∈ range q, (star (amp Xs s1 0 0) * F s1 c) * (star (amp Ys s2 0 0) * G s2 c) := by
    intro s1 hs1 s2 hs2
    rw [psi_cut h1 h2 hne hs1.length_eq hs2.length_eq, hf s1 hs1 s2 hs2]
    simp only [Finset.sum_range_one, star_mul', Finset.mul_sum]
    exact Finset.sum_congr rfl fun c _ => by ring
  rw [sumIdx_congr fun s1 hs1 => sumIdx_congr fun s2 hs2 => e s1 hs1 s2 hs2]
  simp only [sumIdx_finset_sum, sumIdx_mul_left, sumIdx_mul_right]

/-- vectors that agree with the chain up to the bond are orthogonal to the left null vectors -/
theorem pairing_left (h0 : MpsChain ds0 P 1 p) (hA : A.shape = [d, p, q]) (h3 : MpsChain ds3 Q n 1)
    (hl : ∀ a < p, ∀ b < p, leftEnv ds0 P a b = if a = b then 1 else 0) {k1 k2 : ℕ}
    (hnull : ∀ c < q, ∑ s ∈ range d, ∑ a ∈ range p, star (vL.val [s, a, k1]) * A.val [s, a, c] = 0) {f : List ℕ → ℂ}
    (hf : LeftIntact (ds0 ++ [d]) (d :: ds3) (P ++ [A]) q f) :
    pairing ((ds0 ++ [d]) ++ (d :: ds3)) (psi ((P ++ [colL d p vL k1]) ++ (rowR d n vR k2 :: Q))) f = 0 := by
  obtain ⟨g, hg⟩ := hf
  have hXs : MpsChain (ds0 ++ [d]) (P ++ [colL d p vL k1]) 1 1 := (mpsChain_append h0.length_eq).2 ⟨p, h0, 1, rfl, rfl⟩
  have hYs : MpsChain (d :: ds3) (rowR d n vR k2 :: Q) 1 1 := ⟨n, rfl, h3⟩
  rw [pairing_cut hXs hYs (by simp) hg]
  refine Finset.sum_eq_zero fun c hc => ?_
  rw [mul_eq_zero]
  left
  have hc := Finset.mem_range.1 hc
  rw [← hnull c hc, sumIdx_append]
  have e : ∀ s1, InB ds0 s1 → ∀ t, star (amp (P ++ [colL d p vL k1]) (s1 ++ [t]) 0 0) * amp (P ++ [A]) (s1 ++ [t]) 0 c =
      ∑ a ∈ range p, ∑ b ∈ range p, star (vL.val [t, a, k1]) * A.val [t, b, c] * (star (amp P s1 0 a) * amp P s1 0 b) := by
    intro s1 hs1 t
    rw [amp_append h0 hs1.length_eq 0 0 (by omega), amp_append h0 hs1.length_eq 0 c (by omega), star_sum, Finset.sum_mul]
    refine Finset.sum_congr rfl fun a _ => ?_
    rw [Finset.mul_sum]
    refine Finset.sum_congr rfl fun b _ => ?_
    rw [amp_single _ _ _ _ (by simp [colL, ND.dim]), amp_single _ _ _ _ (by rw [dim2 hA]; exact hc), star_mul']
    simp only [colL]
    ring
  simp only [sumIdx_cons, sumIdx_nil]
  rw [sumIdx_congr fun s1 hs1 => Finset.sum_congr rfl fun t _ => e s1 hs1 t]
  rw [sumIdx_finset_sum]
  refine Finset.sum_congr rfl fun t _ => ?_
  rw [sumIdx_finset_sum]
  refine Finset.sum_congr rfl fun a ha => ?_
  rw [sumIdx_finset_sum, Finset.sum_eq_single a]
  · rw [sumIdx_mul_left]
    have := hl a (Finset.mem_range.1 ha) a (Finset.mem_range.1 ha)
    rw [if_pos rfl] at this
    unfold leftEnv at this
    rw [this, mul_one]
  · intro b hb hne
    rw [sumIdx_mul_left]
    have := hl a (Finset.mem_range.1 ha) b (Finset.mem_range.1 hb)
    rw [if_neg (Ne.symm hne)] at this
    unfold leftEnv at this
    rw [this, mul_zero]
  · intro hn
    exact absurd ha hn

/-- vectors that agree with the chain behind the bond are orthogonal to the right null vectors -/
theorem pairing_right (h0 : MpsChain ds0 P 1 p) (hB : B.shape = [d, q, n]) (h3 : MpsChain ds3 Q n 1)
    (hr : ∀ a < n, ∀ b < n, rightEnv ds3 Q a b = if a = b then (rho a : ℂ) else 0) {k1 k2 : ℕ}
    (hnull : ∀ c < q, ∑ s ∈ range d, ∑ a ∈ range n, B.val [s, c, a] * (rho a : ℂ) * star (vR.val [s, k2, a]) = 0) {f : List ℕ → ℂ}
    (hf : RightIntact (ds0 ++ [d]) (d :: ds3) (B :: Q) q f) :
    pairing ((ds0 ++ [d]) ++ (d :: ds3)) (psi ((P ++ [colL d p vL k1]) ++ (rowR d n vR k2 :: Q))) f = 0 := by
  obtain ⟨g, hg⟩ := hf
  have hXs : MpsChain (ds0 ++ [d]) (P ++ [colL d p vL k1]) 1 1 := (mpsChain_append h0.length_eq).2 ⟨p, h0, 1, rfl, rfl⟩
  have hYs : MpsChain (d :: ds3) (rowR d n vR k2 :: Q) 1 1 := ⟨n, rfl, h3⟩
  rw [pairing_cut hXs hYs (by simp) hg]
  refine Finset.sum_eq_zero fun c hc => ?_
  rw [mul_eq_zero]
  right
  have hc := Finset.mem_range.1 hc
  rw [← hnull c hc, sumIdx_cons]
  refine Finset.sum_congr rfl fun u _ => ?_
  have e : ∀ s, star (amp (rowR d n vR k2 :: Q) (u :: s) 0 0) * amp (B :: Q) (u :: s) c 0 =
      ∑ b ∈ range n, ∑ a ∈ range n, B.val [u, c, b] * star (vR.val [u, k2, a]) * (amp Q s b 0 * star (amp Q s a 0)) := by
    intro s
    rw [amp_cons, amp_cons, dim2 hB, star_sum, Finset.sum_mul, Finset.sum_comm]
    refine Finset.sum_congr rfl fun a _ => ?_
    rw [Finset.mul_sum]
    refine Finset.sum_congr rfl fun b _ => ?_
    rw [star_mul']
    simp only [rowR]
    ring
  simp only [e]
  rw [sumIdx_finset_sum]
  refine Finset.sum_congr rfl fun b hb => ?_
  rw [sumIdx_finset_sum, Finset.sum_eq_single b]
  · rw [sumIdx_mul_left]
    have := hr b (Finset.mem_range.1 hb) b (Finset.mem_range.1 hb)
    rw [if_pos rfl] at this
    unfold rightEnv at this
    rw [this]
    ring
  · intro a ha hne
    rw [sumIdx_mul_left]
    have := hr b (Finset.mem_range.1 hb) a (Finset.mem_range.1 ha)
    rw [if_neg (Ne.symm hne)] at this
    unfold rightEnv at this
    rw [this, mul_zero]
  · intro hn
    exact absurd hb hn

/-- the gate on the bond itself -/
theorem gate_here (h0 : MpsChain ds0 P 1 p) (hA : A.shape = [d, p, q]) (hB : B.shape = [d, q, n]) (h3 : MpsChain ds3 Q n 1) {s0 s3 : List ℕ}
    (hs0 : s0.length = ds0.length) (hs3 : s3.length = ds3.length) (t u : ℕ) :
    gateAct d h ds0.length (ds0.length + 1) (psi (P ++ A :: B :: Q)) (s0 ++ t :: u :: s3) =
      ∑ a ∈ range p, ∑ b ∈ range n, amp P s0 0 a * hAA d q h A B t u a b * amp Q s3 b 0 := by
  have hch : MpsChain (ds0 ++ d :: d :: ds3) (P ++ A :: B :: Q) 1 1 := (mpsChain_append h0.length_eq).2 ⟨p, h0, q, hA, n, hB, h3⟩
  rw [gateAct_next d h _ hs0]
  unfold hAA
  simp only [Finset.mul_sum, Finset.sum_mul]
  symm
  rw [sum_swap2]
  refine Finset.sum_congr rfl fun p1 _ => ?_
  rw [sum_swap2]
  refine Finset.sum_congr rfl fun p2 _ => ?_
  rw [psi_eq_amp hch (by simp) (by simp [hs0, hs3]), amp_mid h0 hs0 hA p1 0 0 (by omega), Finset.mul_sum]
  refine Finset.sum_congr rfl fun a _ => ?_
  rw [Finset.sum_comm, Finset.mul_sum]
  refine Finset.sum_congr rfl fun c _ => ?_
  rw [amp_cons, dim2 hB, Finset.mul_sum, Finset.mul_sum, Finset.mul_sum]
  exact Finset.sum_congr rfl fun b _ => by ring

/-- the overlap of the null vectors with the gate on the bond -/
theorem pairing_here (h0 : MpsChain ds0 P 1 p) (hA : A.shape = [d, p, q]) (hB : B.shape = [d, q, n]) (h3 : MpsChain ds3 Q n 1)
    (hl : ∀ a < p, ∀ b < p, leftEnv ds0 P a b = if a = b then 1 else 0)
    (hr : ∀ a < n, ∀ b < n, rightEnv ds3 Q a b = if a = b then (rho a : ℂ) else 0) (k1 k2 : ℕ) :
    pairing ((ds0 ++ [d]) ++ (d :: ds3)) (psi ((P ++ [colL d p vL k1]) ++ (rowR d n vR k2 :: Q)))
      (gateAct d h ds0.length (ds0.length + 1) (psi (P ++ A :: B :: Q))) = gSum d p n vL vR rho (hAA d q h A B) k1 k2 := by
  unfold pairing gSum
  rw [sumIdx_append, sumIdx_append]
  simp only [sumIdx_cons, sumIdx_nil]
  have e : ∀ s0, InB ds0 s0 → ∀ t, ∀ s3, InB ds3 s3 → ∀ u,
      star (psi ((P ++ [colL d p vL k1]) ++ (rowR d n vR k2 :: Q)) ((s0 ++ [t]) ++ (u :: s3))) *
        gateAct d h ds0.length (ds0.length + 1) (psi (P ++ A :: B :: Q)) ((s0 ++ [t]) ++ (u :: s3)) =
      ∑ a ∈ range p, ∑ b ∈ range n, ∑ a' ∈ range p, ∑ b' ∈ range n, star (vL.val [t, a, k1]) * star (vR.val [u, k2, b]) * hAA d q h A B t u a' b' *
        ((star (amp P s0 0 a) * amp P s0 0 a') * (amp Q s3 b' 0 * star (amp Q s3 b 0))) := by
    intro s0 hs0 t s3 hs3 u
    have hXs : MpsChain (ds0 ++ [d]) (P ++ [colL d p vL k1]) 1 1 := (mpsChain_append h0.length_eq).2 ⟨p, h0, 1, rfl, rfl⟩
    have hYs : MpsChain (d :: ds3) (rowR d n vR k2 :: Q) 1 1 := ⟨n, rfl, h3⟩
    rw [psi_cut hXs hYs (by simp) (by simp [hs0.length_eq]) (by simp [hs3.length_eq]),
      Finset.sum_range_one, amp_append h0 hs0.length_eq 0 0 (by omega), star_mul', star_sum, amp_cons, star_sum, Finset.sum_mul_sum]
    rw [show (s0 ++ [t]) ++ (u :: s3) = s0 ++ t :: u :: s3 by simp, gate_here h0 hA hB h3 hs0.length_eq hs3.length_eq]
    rw [Finset.sum_mul]
    refine Finset.sum_congr rfl fun a _ => ?_
    rw [Finset.sum_mul]
    refine Finset.sum_congr rfl fun b _ => ?_
    rw [Finset.mul_sum]
    refine Finset.sum_congr rfl fun a' _ => ?_
    rw [Finset.mul_sum]
    refine Finset.sum_congr rfl fun b' _ => ?_
    rw [amp_single _ _ _ _ (by simp [colL, ND.dim]), star_mul', star_mul']
    simp only [colL, rowR]
    ring
  rw [sumIdx_congr fun s0 hs0 => Finset.sum_congr rfl fun t _ => Finset.sum_congr rfl fun u _ => sumIdx_congr fun s3 hs3 => e s0 hs0 t s3 hs3 u]
  rw [sumIdx_finset_sum]
  refine Finset.sum_congr rfl fun t _ => ?_
  simp only [sumIdx_finset_sum]
  refine Finset.sum_congr rfl fun u _ => Finset.sum_congr rfl fun a ha => Finset.sum_congr rfl fun b hb => ?_
  have ha := Finset.mem_range.1 ha
  have hb := Finset.mem_range.1 hb
  have e2 : ∀ a' b', (sumIdx ds0 fun s0 => sumIdx ds3 fun s3 => star (vL.val [t, a, k1]) * star (vR.val [u, k2, b]) * hAA d q h A B t u a' b' *
        ((star (amp P s0 0 a) * amp P s0 0 a') * (amp Q s3 b' 0 * star (amp Q s3 b 0)))) =
      star (vL.val [t, a, k1]) * star (vR.val [u, k2, b]) * hAA d q h A B t u a' b' * (leftEnv ds0 P a a' * rightEnv ds3 Q b' b) := by
    intro a' b'
    unfold leftEnv rightEnv
    simp only [sumIdx_mul_left, sumIdx_mul_right]
  simp only [e2]
  rw [Finset.sum_eq_single a]
  · rw [Finset.sum_eq_single b]
    · rw [hl a ha a ha, hr b hb b hb, if_pos rfl, if_pos rfl]
      ring
    · intro b' hb' hne
      rw [hr b' (Finset.mem_range.1 hb') b hb, if_neg hne]
      ring
    · intro hn
      exact absurd (Finset.mem_range.2 hb) hn
  · intro a' ha' hne
    refine Finset.sum_eq_zero fun b' _ => ?_
    rw [hl a ha a' (Finset.mem_range.1 ha'), if_neg (Ne.symm hne)]
    ring
  · intro hn
    exact absurd (Finset.mem_range.2 ha) hn

/-- the gate splits off a change of each tensor -/
theorem gate_split (h0 : MpsChain ds0 P 1 p) (hA : A.shape = [d, p, q]) (hB : B.shape = [d, q, n]) (h3 : MpsChain ds3 Q n 1)
    (hV : V.shape = [d, p, q]) (hW : W.shape = [d, q, n])
    (hX : ∀ t < d, ∀ u < d, ∀ a < p, ∀ b < n, hAA d q h A B t u a b =
      ∑ c ∈ range q, A.val [t, a, c] * W.val [u, c, b] + ∑ c ∈ range q, V.val [t, a, c] * B.val [u, c, b]) {s : List ℕ}
    (hs : InB (ds0 ++ d :: d :: ds3) s) :
    gateAct d h ds0.length (ds0.length + 1) (psi (P ++ A :: B :: Q)) s = psi (P ++ A :: W :: Q) s + psi (P ++ V :: B :: Q) s := by
  obtain ⟨s0, t, s', rfl, hs0, ht, hs'⟩ := InB.split hs
  match s', hs' with
  | u :: s3, hs3 =>
    have key : ∀ X Y : ND ℂ, X.shape = [d, p, q] → Y.shape = [d, q, n] → psi (P ++ X :: Y :: Q) (s0 ++ t :: u :: s3) =
        ∑ a ∈ range p, ∑ b ∈ range n, amp P s0 0 a * (∑ c ∈ range q, X.val [t, a, c] * Y.val [u, c, b]) * amp Q s3 b 0 := by
      intro X Y hX hY
      have hch : MpsChain (ds0 ++ d :: d :: ds3) (P ++ X :: Y :: Q) 1 1 := (mpsChain_append h0.length_eq).2 ⟨p, h0, q, hX, n, hY, h3⟩
      rw [psi_eq_amp hch (by simp)
        (by simp [hs0.length_eq, hs3.2.length_eq]), amp_mid h0 hs0.length_eq hX t 0 0 (by omega)]
      refine Finset.sum_congr rfl fun a _ => ?_
      simp only [Finset.mul_sum, Finset.sum_mul]
      rw [Finset.sum_comm]
      refine Finset.sum_congr rfl fun c _ => ?_
      rw [amp_cons, dim2 hY, Finset.mul_sum, Finset.mul_sum]
      exact Finset.sum_congr rfl fun b _ => by ring
    rw [gate_here h0 hA hB h3 hs0.length_eq hs3.2.length_eq, key A W hA hW, key V B hV hB, ← Finset.sum_add_distrib]
    refine Finset.sum_congr rfl fun a ha => ?_
    rw [← Finset.sum_add_distrib]
    refine Finset.sum_congr rfl fun b hb => ?_
    rw [hX t ht u hs3.1 a (Finset.mem_range.1 ha) b (Finset.mem_range.1 hb)]
    ring

end bond

section chain
variable {L d : ℕ} {As H : List (ND ℂ)}

theorem list_cut2 {K : Type} {As : List K} {i : ℕ} (hi : i + 1 < As.length) : As = As.take i ++ As[i] :: As[i + 1] :: As.drop (i + 2) := by
  conv_lhs => rw [list_cut (As := As) (i := i) (by omega), List.drop_eq_getElem_cons (i := i + 1) hi]

theorem replicate_cut2 {L d i : ℕ} (hi : i + 1 < L) :
    List.replicate L d = (List.replicate L d).take i ++ d :: d :: (List.replicate L d).drop (i + 2) := by
  have h := list_cut2 (As := List.replicate L d) (i := i) (by simpa using hi)
  simpa using h

/-- if every gate splits at its bond, the sum is a tangent vector -/
theorem ham_tangent (hc : MpsChain (List.replicate L d) As 1 1) (hH : H.length < L)
    (hT : ∀ m (hm : m < H.length) (h1 : m + 1 < As.length), ∃ p q n, As[m].shape = [d, p, q] ∧ As[m + 1].shape = [d, q, n] ∧
      TwoTangent d p q n As[m] As[m + 1] (hAA d q H[m] As[m] As[m + 1])) :
    ∃ Bs : List (ND ℂ), Bs.length = As.length ∧ (∀ i (h1 : i < Bs.length) (h2 : i < As.length), Bs[i].shape = As[i].shape) ∧
      ∀ s, InB (List.replicate L d) s → hamAct d H (psi As) s = tangentPsi As Bs s := by
  have hlen := hc.length_eq
  rw [List.length_replicate] at hlen
  have hex : ∀ m, ∃ W V : ND ℂ, ∀ (hm : m < H.length) (h1 : m + 1 < As.length), W.shape = As[m + 1].shape ∧ V.shape = As[m].shape ∧
      ∀ s, InB (List.replicate L d) s → gateAct d H[m] m (m + 1) (psi As) s = psi (As.set (m + 1) W) s + psi (As.set m V) s := by
    intro m
    by_cases hm : m < H.length
    · have h1 : m + 1 < As.length := by omega
      obtain ⟨p, q, n, sA, sB, W, V, sW, sV, hX⟩ := hT m hm h1
      obtain ⟨p', q', c1, sA', c2, c3⟩ := chain_site hc (i := m) (by omega)
      obtain ⟨q'', n', c2', sB', c4, c5⟩ := chain_site hc h1
      rw [sA] at sA'
      rw [sB] at sB'
      obtain ⟨rfl, rfl⟩ : p = p' ∧ q = q' := by simpa using sA'
      obtain ⟨rfl, rfl⟩ : q = q'' ∧ n = n' := by simpa using sB'
      refine ⟨W, V, fun _ _ => ⟨by rw [sW, sB], by rw [sV, sA], ?_⟩⟩
      intro s hs
      have hl1 : ((List.replicate L d).take m).length = m := by simp; omega
      have key := gate_split (h := H[m]) c1 sA sB c5 sV sW hX (s := s) (by rw [← replicate_cut2 (by omega)]; exact hs)
      rw [hl1, ← list_cut2 h1] at key
      rw [key, set_cut h1, set_cut (i := m) (by omega), List.take_succ_eq_append_getElem (by omega : m < As.length),
        List.drop_eq_getElem_cons (i := m + 1) h1]
      simp only [List.append_assoc, List.cons_append, List.nil_append]
    · exact ⟨⟨[], fun _ => 0⟩, ⟨[], fun _ => 0⟩, fun h => absurd h hm⟩
  choose W V hWV using hex
  set B : ℕ → ND ℂ := fun i => ⟨(As.getD i ⟨[], fun _ => 0⟩).shape, fun v =>
    (if 0 < i ∧ i - 1 < H.length then (W (i - 1)).val v else 0) + (if i < H.length then (V i).val v else 0)⟩ with hB
  refine ⟨(List.range As.length).map B, by simp, ?_, ?_⟩
  · intro i h1 h2
    rw [List.getElem_map, List.getElem_range]
    show (As.getD i ⟨[], fun _ => 0⟩).shape = _
    rw [List.getD_eq_getElem _ _ h2]
  · intro s hs
    have hterm : ∀ i ∈ range As.length, psi (swapIn As i (((List.range As.length).map B).getD i ⟨[], fun _ => 0⟩)) s =
        (if 0 < i ∧ i - 1 < H.length then psi (As.set i (W (i - 1))) s else 0) + (if i < H.length then psi (As.set i (V i)) s else 0) := by
      intro i hi
      have hi := Finset.mem_range.1 hi
      obtain ⟨p, q, c1, sA, c2, c3⟩ := chain_site hc hi
      have eB : ((List.range As.length).map B).getD i ⟨[], fun _ => 0⟩ = B i := by
        rw [List.getD_eq_getElem _ _ (by simpa using hi)]
        simp
      have hBs : (B i).shape = [d, p, q] := by
        show (As.getD i ⟨[], fun _ => 0⟩).shape = _
        rw [List.getD_eq_getElem _ _ hi, sA]
      rw [eB]
      unfold swapIn
      obtain ⟨s1, t, s2, rfl, hs1, ht, hs2⟩ := InB.split (ds1 := (List.replicate L d).take i) (d := d) (ds2 := (List.replicate L d).drop (i + 1)) (s := s)
        (by rw [← replicate_cut (by omega)]; exact hs)
      have key : ∀ X : ND ℂ, X.shape = [d, p, q] → psi (As.set i X) (s1 ++ t :: s2) =
          ∑ c ∈ range p, ∑ e ∈ range q, amp (As.take i) s1 0 c * (X.val [t, c, e] * amp (As.drop (i + 1)) s2 e 0) := by
        intro X hX
        rw [psi_eq_amp (ds := List.replicate L d) (chain_set hi hc (by rw [hX, sA]))
          (by intro hn; have := congrArg List.length hn; rw [List.length_set, List.length_nil] at this; omega) hs.length_eq, set_cut hi]
        exact amp_mid c1 hs1.length_eq hX t 0 0 (by omega)
      rw [key _ hBs]
      simp only [hB]
      split_ifs with g1 g2 g2
      · obtain ⟨w1, w2, -⟩ := hWV (i - 1) g1.2 (by omega)
        obtain ⟨-, v2, -⟩ := hWV i g2 (by omega)
        have e1 : i - 1 + 1 = i := by omega
        simp only [e1] at w1
        rw [key _ (w1.trans sA), key _ (v2.trans sA), ← Finset.sum_add_distrib]
        refine Finset.sum_congr rfl fun c _ => ?_
        rw [← Finset.sum_add_distrib]
        exact Finset.sum_congr rfl fun e _ => by ring
      · obtain ⟨w1, w2, -⟩ := hWV (i - 1) g1.2 (by omega)
        have e1 : i - 1 + 1 = i := by omega
        simp only [e1] at w1
        rw [key _ (w1.trans sA)]
        simp
      · obtain ⟨-, v2, -⟩ := hWV i g2 (by omega)
        rw [key _ (v2.trans sA)]
        simp
      · simp
    unfold tangentPsi hamAct
    rw [Finset.sum_congr rfl hterm, Finset.sum_add_distrib]
    have e1 : ∑ i ∈ range As.length, (if 0 < i ∧ i - 1 < H.length then psi (As.set i (W (i - 1))) s else 0) =
        ∑ m ∈ range H.length, psi (As.set (m + 1) (W m)) s := by
      obtain ⟨N, hN⟩ : ∃ N, As.length = N + 1 := ⟨As.length - 1, by omega⟩
      rw [hN, Finset.sum_range_succ']
      simp only [Nat.add_sub_cancel, Nat.succ_pos, true_and, lt_irrefl, false_and, if_false, add_zero]
      rw [← Finset.sum_filter]
      congr 1
      ext i
      simp
      omega
    have e2 : ∑ i ∈ range As.length, (if i < H.length then psi (As.set i (V i)) s else 0) = ∑ m ∈ range H.length, psi (As.set m (V m)) s := by
      rw [← Finset.sum_filter]
      congr 1
      ext i
      simp
      omega
    rw [e1, e2, ← Finset.sum_add_distrib]
    refine Finset.sum_congr rfl fun m hm => ?_
    have hm := Finset.mem_range.1 hm
    rw [List.getD_eq_getElem _ _ hm]
    exact (hWV m hm (by omega)).2.2 s hs

/-- if the sum is a tangent vector, no gate has a component along the null vectors of its bond -/
theorem tangent_gSum (hc : MpsChain (List.replicate L d) As 1 1) (hH : H.length < L) {Bs : List (ND ℂ)}
    (hB : Bs.length = As.length) (hBs : ∀ i (h1 : i < Bs.length) (h2 : i < As.length), Bs[i].shape = As[i].shape)
    (hT : ∀ s, InB (List.replicate L d) s → hamAct d H (psi As) s = tangentPsi As Bs s)
    {m p q n : ℕ} (hm : m < H.length) (h1 : m + 1 < As.length) (sA : As[m].shape = [d, p, q]) (sB : As[m + 1].shape = [d, q, n])
    {rho : ℕ → ℝ}
    (hl : ∀ a < p, ∀ b < p, leftEnv ((List.replicate L d).take m) (As.take m) a b = if a = b then 1 else 0)
    (hr : ∀ a < n, ∀ b < n, rightEnv ((List.replicate L d).drop (m + 2)) (As.drop (m + 2)) a b = if a = b then (rho a : ℂ) else 0)
    {vL vR : ND ℂ} {k1 k2 : ℕ}
    (hnL : ∀ c < q, ∑ s ∈ range d, ∑ a ∈ range p, star (vL.val [s, a, k1]) * As[m].val [s, a, c] = 0)
    (hnR : ∀ c < q, ∑ s ∈ range d, ∑ a ∈ range n, As[m + 1].val [s, c, a] * (rho a : ℂ) * star (vR.val [s, k2, a]) = 0) :
    gSum d p n vL vR rho (hAA d q H[m] As[m] As[m + 1]) k1 k2 = 0 := by
  have hlen := hc.length_eq
  rw [List.length_replicate] at hlen
  obtain ⟨p', q', c1, sA', c2, c3⟩ := chain_site hc (i := m) (by omega)
  obtain ⟨q'', n', c2', sB', c4, c5⟩ := chain_site hc h1
  rw [sA] at sA'
  rw [sB] at sB'
  obtain ⟨rfl, rfl⟩ : p = p' ∧ q = q' := by simpa using sA'
  obtain ⟨rfl, rfl⟩ : q = q'' ∧ n = n' := by simpa using sB'
  have hl1 : ((List.replicate L d).take m).length = m := by simp; omega
  have t1 : (List.replicate L d).take (m + 1) = (List.replicate L d).take m ++ [d] := by
    rw [List.take_succ_eq_append_getElem (by simp; omega)]
    simp
  have t2 : As.take (m + 1) = As.take m ++ [As[m]] := List.take_succ_eq_append_getElem (by omega)
  have t3 : (List.replicate L d).drop (m + 1) = d :: (List.replicate L d).drop (m + 2) := by
    rw [List.drop_eq_getElem_cons (by simp; omega)]
    simp
  have t4 : As.drop (m + 1) = As[m + 1] :: As.drop (m + 2) := List.drop_eq_getElem_cons h1
  have eds : List.replicate L d = ((List.replicate L d).take m ++ [d]) ++ (d :: (List.replicate L d).drop (m + 2)) := by
    rw [← t1, ← t3, List.take_append_drop]
  have eAs : As = (As.take m ++ [As[m]]) ++ (As[m + 1] :: As.drop (m + 2)) := by
    rw [← t2, ← t4, List.take_append_drop]
  rw [t1, t2] at c2
  rw [t3, t4] at c3
  have hAne : As.take m ++ [As[m]] ≠ [] := List.append_ne_nil_of_right_ne_nil _ (List.cons_ne_nil _ _)
  set φ := psi ((As.take m ++ [colL d p vL k1]) ++ (rowR d n vR k2 :: As.drop (m + 2))) with hφ
  have hleft : ∀ f : List ℕ → ℂ, LeftIntact ((List.replicate L d).take m ++ [d]) (d :: (List.replicate L d).drop (m + 2)) (As.take m ++ [As[m]]) q f →
      pairing (List.replicate L d) φ f = 0 := by
    intro f hf
    rw [eds]
    exact pairing_left c1 sA c5 hl hnL hf
  have hright : ∀ f : List ℕ → ℂ, RightIntact ((List.replicate L d).take m ++ [d]) (d :: (List.replicate L d).drop (m + 2)) (As[m + 1] :: As.drop (m + 2)) q f →
      pairing (List.replicate L d) φ f = 0 := by
    intro f hf
    rw [eds]
    exact pairing_right c1 sB c5 hr hnR hf
  have hgate : ∀ k < H.length, k ≠ m → pairing (List.replicate L d) φ (gateAct d (H.getD k ⟨[], fun _ => 0⟩) k (k + 1) (psi As)) = 0 := by
    intro k hk hne
    rcases Nat.lt_or_gt_of_ne hne with h | h
    · refine hright _ ?_
      have := rightIntact_gate c2 c3 hAne d (H.getD k ⟨[], fun _ => 0⟩) (k := k) (by simp; omega)
      rwa [← eAs] at this
    · refine hleft _ ?_
      have := leftIntact_gate c2 c3 hAne d (H.getD k ⟨[], fun _ => 0⟩) (k := k) (by simp; omega)
      rwa [← eAs] at this
  have htan : ∀ i < As.length, pairing (List.replicate L d) φ (psi (swapIn As i (Bs.getD i ⟨[], fun _ => 0⟩))) = 0 := by
    intro i hi
    have sBi : (Bs.getD i ⟨[], fun _ => 0⟩).shape = As[i].shape := by
      rw [List.getD_eq_getElem _ _ (by omega)]
      exact hBs i (by omega) hi
    generalize Bs.getD i ⟨[], fun _ => 0⟩ = Bi at sBi
    unfold swapIn
    have hla : (As.take m ++ [As[m]]).length = m + 1 := by simp; omega
    by_cases him : i ≤ m
    · refine hright _ ?_
      have e : As.set i Bi = (As.take m ++ [As[m]]).set i Bi ++ (As[m + 1] :: As.drop (m + 2)) := by
        conv_lhs => rw [eAs]
        rw [List.set_append_left _ _ (by omega)]
      rw [e]
      refine rightIntact_psi (chain_set (by omega) c2 ?_) c3 (by intro hn; have := congrArg List.length hn; rw [List.length_set, hla, List.length_nil] at this; omega)
      rw [sBi]
      congr 1
      simp only [← t2, List.getElem_take]
    · refine hleft _ ?_
      have e : As.set i Bi = (As.take m ++ [As[m]]) ++ (As[m + 1] :: As.drop (m + 2)).set (i - (m + 1)) Bi := by
        conv_lhs => rw [eAs]
        rw [List.set_append_right _ _ (by omega), hla]
      rw [e]
      refine leftIntact_psi c2 (chain_set (by simp; omega) c3 ?_) hAne
      rw [sBi]
      congr 1
      simp only [← t4, List.getElem_drop]
      congr 1
      omega
  have hz : pairing (List.replicate L d) φ (hamAct d H (psi As)) = 0 := by
    rw [pairing_congr (g' := tangentPsi As Bs) (fun s _ => rfl) hT]
    unfold tangentPsi
    rw [pairing_sum]
    exact Finset.sum_eq_zero fun i hi => htan i (Finset.mem_range.1 hi)
  unfold hamAct at hz
  rw [pairing_sum, Finset.sum_eq_single m] at hz
  · rw [List.getD_eq_getElem _ _ hm] at hz
    have key := pairing_here (h := H[m]) (vL := vL) (vR := vR) c1 sA sB c5 hl hr k1 k2
    rw [hl1, ← list_cut2 h1, ← eds] at key
    rw [← key]
    exact hz
  · intro k hk hne
    exact hgate k (Finset.mem_range.1 hk) hne
  · intro hn
    exact absurd (Finset.mem_range.2 hm) hn

end chain

end Xmps
