import Verif.Lemmas.DAdtSite
import Verif.Props.DAdt

/-!
# Matrix elements of a two-site term between chains that agree up to the term
-/

namespace Xmps

open Finset Spec Xmps.Ncon

/-- the right environment of two chains, `Bs` conjugated: the index of `As` first -/
def mixR (ds : List ℕ) (Bs As : List (ND ℂ)) (a b : ℕ) : ℂ := sumIdx ds fun s => amp As s a 0 * star (amp Bs s b 0)

theorem mixR_self (ds : List ℕ) (As : List (ND ℂ)) (a b : ℕ) : mixR ds As As a b = rightEnv ds As a b := rfl

theorem mixR_cons {ds : List ℕ} {Bs As : List (ND ℂ)} {B A : ND ℂ} {d p q : ℕ} (hA : A.shape = [d, p, q]) (hB : B.shape = [d, p, q]) (a b : ℕ) :
    mixR (d :: ds) (B :: Bs) (A :: As) a b =
      ∑ s ∈ range d, ∑ c ∈ range q, ∑ c' ∈ range q, A.val [s, a, c] * mixR ds Bs As c c' * star (B.val [s, b, c']) := by
  unfold mixR
  rw [sumIdx_cons]
  refine Finset.sum_congr rfl fun s _ => ?_
  simp only [← sumIdx_mul_left, ← sumIdx_mul_right, ← sumIdx_finset_sum]
  refine sumIdx_congr fun t _ => ?_
  simp only [amp_cons, dim2 hA, dim2 hB, star_sum, star_mul']
  rw [Finset.sum_mul_sum]
  refine Finset.sum_congr rfl fun c _ => Finset.sum_congr rfl fun c' _ => ?_
  ring

theorem mixR_append {dM ds : List ℕ} {M Bs As : List (ND ℂ)} {n r : ℕ} (hM : MpsChain dM M n r) {a b : ℕ} (ha : a < n) (hb : b < n) :
    mixR (dM ++ ds) (M ++ Bs) (M ++ As) a b = pullBack dM M r (mixR ds Bs As) a b := by
  unfold mixR pullBack
  rw [sumIdx_append]
  refine sumIdx_congr fun v hv => ?_
  simp only [← sumIdx_mul_left, ← sumIdx_mul_right, ← sumIdx_finset_sum]
  refine sumIdx_congr fun t _ => ?_
  rw [amp_append hM hv.length_eq a 0 ha, amp_append hM hv.length_eq b 0 hb, star_sum, Finset.sum_mul_sum]
  refine Finset.sum_congr rfl fun c _ => Finset.sum_congr rfl fun c' _ => ?_
  rw [star_mul']
  ring

variable {ds0 ds3 : List ℕ} {As0 As3 Bs3 : List (ND ℂ)} {A B P Q h : ND ℂ} {d p q n : ℕ}

/-- a term between a chain and a chain that differs from the first site of the term on -/
theorem pair_gate (h0 : MpsChain ds0 As0 1 p) (hA : A.shape = [d, p, q]) (hB : B.shape = [d, q, n]) (h3 : MpsChain ds3 As3 n 1)
    (hP : P.shape = [d, p, q]) (hQ : Q.shape = [d, q, n]) (k3 : MpsChain ds3 Bs3 n 1) {lam : ℕ → ℂ}
    (hlam : ∀ a < p, ∀ b < p, leftEnv ds0 As0 a b = if a = b then lam a else 0) :
    pairing (ds0 ++ d :: d :: ds3) (psi (As0 ++ P :: Q :: Bs3)) (gateAct d h ds0.length (ds0.length + 1) (psi (As0 ++ A :: B :: As3))) =
      ∑ t ∈ range d, ∑ u ∈ range d, ∑ a ∈ range p, ∑ x ∈ range q, ∑ k ∈ range n, ∑ k' ∈ range n,
        lam a * star (P.val [t, a, x]) * star (Q.val [u, x, k]) * hAA d q h A B t u a k' * mixR ds3 Bs3 As3 k' k := by
  have hch : MpsChain (ds0 ++ d :: d :: ds3) (As0 ++ A :: B :: As3) 1 1 :=
    (mpsChain_append h0.length_eq).2 ⟨p, h0, q, hA, n, hB, h3⟩
  have hbr : MpsChain (ds0 ++ d :: d :: ds3) (As0 ++ P :: Q :: Bs3) 1 1 :=
    (mpsChain_append h0.length_eq).2 ⟨p, h0, q, hP, n, hQ, k3⟩
  have two : ∀ (X Y : ND ℂ) (As : List (ND ℂ)), X.shape = [d, p, q] → Y.shape = [d, q, n] → ∀ (t u : ℕ) (s3 : List ℕ) (a : ℕ),
      amp (X :: Y :: As) (t :: u :: s3) a 0 = ∑ k ∈ range n, (∑ x ∈ range q, X.val [t, a, x] * Y.val [u, x, k]) * amp As s3 k 0 := by
    intro X Y As hX hY t u s3 a
    rw [amp_cons, dim2 hX]
    simp only [amp_cons, dim2 hY, Finset.mul_sum, Finset.sum_mul]
    rw [Finset.sum_comm]
    exact Finset.sum_congr rfl fun k _ => Finset.sum_congr rfl fun x _ => by ring
  have ket : ∀ s0, InB ds0 s0 → ∀ t u s3, InB ds3 s3 →
      gateAct d h ds0.length (ds0.length + 1) (psi (As0 ++ A :: B :: As3)) (s0 ++ t :: u :: s3) =
        ∑ a' ∈ range p, amp As0 s0 0 a' * ∑ k' ∈ range n, hAA d q h A B t u a' k' * amp As3 s3 k' 0 := by
    intro s0 hs0 t u s3 hs3
    rw [gateAct_next d h _ hs0.length_eq]
    calc _ = ∑ p1 ∈ range d, ∑ p2 ∈ range d, ∑ a' ∈ range p, ∑ k' ∈ range n, h.val [t * d + u, p1 * d + p2] *
          (amp As0 s0 0 a' * ((∑ x ∈ range q, A.val [p1, a', x] * B.val [p2, x, k']) * amp As3 s3 k' 0)) := by
          refine Finset.sum_congr rfl fun p1 _ => Finset.sum_congr rfl fun p2 _ => ?_
          rw [psi_eq_amp hch (by simp) (by simp [hs0.length_eq, hs3.length_eq]), amp_append h0 hs0.length_eq 0 0 (by omega), Finset.mul_sum]
          refine Finset.sum_congr rfl fun a' _ => ?_
          rw [two A B As3 hA hB, Finset.mul_sum, Finset.mul_sum]
      _ = _ := by
          rw [sum_swap2]
          refine Finset.sum_congr rfl fun a' _ => ?_
          rw [sum_swap2, Finset.mul_sum]
          refine Finset.sum_congr rfl fun k' _ => ?_
          unfold hAA
          simp only [Finset.sum_mul, Finset.mul_sum]
          refine Finset.sum_congr rfl fun p1 _ => Finset.sum_congr rfl fun p2 _ => Finset.sum_congr rfl fun x _ => ?_
          ring
  calc _ = ∑ t ∈ range d, ∑ u ∈ range d, ∑ a ∈ range p, ∑ a' ∈ range p, ∑ k ∈ range n, ∑ k' ∈ range n,
        leftEnv ds0 As0 a a' * ((∑ x ∈ range q, star (P.val [t, a, x]) * star (Q.val [u, x, k])) * hAA d q h A B t u a' k' * mixR ds3 Bs3 As3 k' k) := by
        unfold pairing leftEnv mixR
        rw [sumIdx_append]
        simp only [sumIdx_cons]
        simp only [← sumIdx_mul_left, ← sumIdx_mul_right, ← sumIdx_finset_sum]
        conv_rhs => rw [sumIdx_comm]
        refine sumIdx_congr fun s0 hs0 => ?_
        refine sumIdx_congr fun s3 hs3 => ?_
        refine Finset.sum_congr rfl fun t _ => Finset.sum_congr rfl fun u _ => ?_
        rw [ket s0 hs0 t u s3 hs3, psi_eq_amp hbr (by simp) (by simp [hs0.length_eq, hs3.length_eq]), amp_append h0 hs0.length_eq 0 0 (by omega),
          star_sum, Finset.sum_mul_sum]
        refine Finset.sum_congr rfl fun a _ => Finset.sum_congr rfl fun a' _ => ?_
        rw [two P Q Bs3 hP hQ, star_mul', star_sum]
        rw [show ∀ X Y Z W : ℂ, X * Y * (Z * W) = X * Z * (Y * W) by intros; ring, Finset.sum_mul_sum, Finset.mul_sum]
        refine Finset.sum_congr rfl fun k _ => ?_
        rw [Finset.mul_sum]
        refine Finset.sum_congr rfl fun k' _ => ?_
        simp only [star_mul', star_sum]
        ring
    _ = _ := by
        refine Finset.sum_congr rfl fun t _ => Finset.sum_congr rfl fun u _ => Finset.sum_congr rfl fun a ha => ?_
        have ha := Finset.mem_range.1 ha
        rw [Finset.sum_eq_single a]
        · rw [hlam a ha a ha, if_pos rfl]
          conv_rhs => rw [Finset.sum_comm]
          refine Finset.sum_congr rfl fun k _ => ?_
          conv_rhs => rw [Finset.sum_comm]
          refine Finset.sum_congr rfl fun k' _ => ?_
          simp only [Finset.sum_mul, Finset.mul_sum]
          exact Finset.sum_congr rfl fun x _ => by ring
        · intro a' ha' hne
          rw [hlam a ha a' (Finset.mem_range.1 ha'), if_neg (Ne.symm hne)]
          simp
        · intro hn
          exact absurd (Finset.mem_range.2 ha) hn

end Xmps
