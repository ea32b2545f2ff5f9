import Verif.Spec.Tangent
import Verif.Lemmas.Envs

/-!
# The environment of one site in an overlap
-/

namespace Xmps

open Finset Xmps.Spec

/-- what is left of `⟨As1 .. W .. As2| f⟩` when the tensor `W` is taken out -/
def envAmp (ds1 : List ℕ) (As1 : List (ND ℂ)) (ds2 : List ℕ) (As2 : List (ND ℂ)) (f : List ℕ → ℂ) (t b c : ℕ) : ℂ :=
  sumIdx ds1 fun s1 => sumIdx ds2 fun s2 => star (amp As1 s1 0 b) * star (amp As2 s2 c 0) * f (s1 ++ t :: s2)

variable {ds1 ds2 : List ℕ} {As1 As2 : List (ND ℂ)} {d p n : ℕ}

theorem inner_site {W : ND ℂ} (h1 : MpsChain ds1 As1 1 p) (hW : W.shape = [d, p, n]) (h2 : MpsChain ds2 As2 n 1) (f : List ℕ → ℂ) :
    pairing (ds1 ++ d :: ds2) (psi (As1 ++ W :: As2)) f =
      ∑ t ∈ range d, ∑ b ∈ range p, ∑ c ∈ range n, star (W.val [t, b, c]) * envAmp ds1 As1 ds2 As2 f t b c := by
  have hc : MpsChain (ds1 ++ d :: ds2) (As1 ++ W :: As2) 1 1 := (mpsChain_append h1.length_eq).2 ⟨p, h1, n, hW, h2⟩
  unfold pairing envAmp
  rw [sumIdx_append]
  simp only [sumIdx_cons]
  simp only [← sumIdx_mul_left, ← sumIdx_finset_sum]
  refine sumIdx_congr fun s1 hs1 => ?_
  refine sumIdx_congr fun s2 hs2 => ?_
  refine Finset.sum_congr rfl fun t _ => ?_
  rw [psi_eq_amp hc (by simp) (by simp [hs1.length_eq, hs2.length_eq]), amp_mid h1 hs1.length_eq hW t 0 0 (by omega), star_sum,
    Finset.sum_mul]
  refine Finset.sum_congr rfl fun b _ => ?_
  rw [star_sum, Finset.sum_mul]
  refine Finset.sum_congr rfl fun c _ => ?_
  simp only [star_mul']
  ring

theorem envAmp_add (f g : List ℕ → ℂ) (t b c : ℕ) :
    envAmp ds1 As1 ds2 As2 (fun s => f s + g s) t b c = envAmp ds1 As1 ds2 As2 f t b c + envAmp ds1 As1 ds2 As2 g t b c := by
  unfold envAmp
  simp only [mul_add, sumIdx_add]

theorem envAmp_congr {f g : List ℕ → ℂ} {t : ℕ} (h : ∀ s1, InB ds1 s1 → ∀ s2, InB ds2 s2 → f (s1 ++ t :: s2) = g (s1 ++ t :: s2)) (b c : ℕ) :
    envAmp ds1 As1 ds2 As2 f t b c = envAmp ds1 As1 ds2 As2 g t b c := by
  unfold envAmp
  exact sumIdx_congr fun s1 h1 => sumIdx_congr fun s2 h2 => by rw [h s1 h1 s2 h2]

/-- the environment in a vector that agrees with the chain on both sides of a block -/
theorem envAmp_block {ds0 dv dw ds3 dU : List ℕ} {As0 P Q As3 Cs : List (ND ℂ)} {dC : List ℕ} {m0 m3 : ℕ}
    (h0 : MpsChain ds0 As0 1 m0) (hQ : MpsChain dw Q n m3) (hC : MpsChain dC Cs m0 m3)
    {f : List ℕ → ℂ} {t : ℕ} {G : List ℕ → List ℕ → List ℕ → ℂ} {κ : List ℕ → List ℕ → List ℕ → List ℕ}
    (hκ : ∀ v, InB dv v → ∀ w, InB dw w → ∀ u, InB dU u → (κ v w u).length = dC.length)
    (hf : ∀ s0, InB ds0 s0 → ∀ v, InB dv v → ∀ w, InB dw w → ∀ s3, InB ds3 s3 → f ((s0 ++ v) ++ t :: (w ++ s3)) =
      sumIdx dU fun u => G v w u * amp (As0 ++ (Cs ++ As3)) (s0 ++ (κ v w u ++ s3)) 0 0) {b c : ℕ} (hc : c < n) :
    envAmp (ds0 ++ dv) (As0 ++ P) (dw ++ ds3) (Q ++ As3) f t b c =
      sumIdx dv fun v => sumIdx dw fun w => sumIdx dU fun u => ∑ a ∈ range m0, ∑ e ∈ range m3, ∑ a' ∈ range m0, ∑ e' ∈ range m3,
        star (amp P v a b) * star (amp Q w c e) * (G v w u * amp Cs (κ v w u) a' e') * (leftEnv ds0 As0 a a' * rightEnv ds3 As3 e' e) := by
  unfold envAmp leftEnv rightEnv
  rw [sumIdx_append, sumIdx_comm]
  refine sumIdx_congr fun v hv => ?_
  rw [sumIdx_congr fun s0 _ => sumIdx_append dw ds3 _, sumIdx_comm]
  refine sumIdx_congr fun w hw => ?_
  simp only [← sumIdx_mul_left, ← sumIdx_mul_right, ← sumIdx_finset_sum]
  rw [sumIdx_congr (s := dU) (g := fun u => sumIdx ds0 fun s0 => sumIdx ds3 fun s3 => _) fun u _ => sumIdx_comm _ _ _]
  rw [sumIdx_comm dU]
  refine sumIdx_congr fun s0 hs0 => ?_
  rw [sumIdx_comm dU]
  refine sumIdx_congr fun s3 hs3 => ?_
  rw [hf s0 hs0 v hv w hw s3 hs3, ← sumIdx_mul_left]
  refine sumIdx_congr fun u hu => ?_
  rw [amp_append h0 hs0.length_eq 0 b (by omega), amp_append hQ hw.length_eq c 0 hc, amp_append h0 hs0.length_eq 0 0 (by omega)]
  rw [star_sum, star_sum, Finset.sum_mul_sum, Finset.sum_mul]
  refine Finset.sum_congr rfl fun a _ => ?_
  rw [Finset.sum_mul]
  refine Finset.sum_congr rfl fun e _ => ?_
  rw [Finset.mul_sum, Finset.mul_sum]
  refine Finset.sum_congr rfl fun a' ha' => ?_
  rw [amp_append hC (hκ v hv w hw u hu) a' 0 (by simpa using ha'), Finset.mul_sum, Finset.mul_sum, Finset.mul_sum]
  refine Finset.sum_congr rfl fun e' _ => ?_
  simp only [star_mul']
  ring

/-- the environment in the chain with the tensor of the site replaced -/
theorem envAmp_psi {B : ND ℂ} (h1 : MpsChain ds1 As1 1 p) (hB : B.shape = [d, p, n]) (h2 : MpsChain ds2 As2 n 1) (t b c : ℕ) :
    envAmp ds1 As1 ds2 As2 (psi (As1 ++ B :: As2)) t b c =
      ∑ b' ∈ range p, ∑ c' ∈ range n, leftEnv ds1 As1 b b' * B.val [t, b', c'] * rightEnv ds2 As2 c' c := by
  have hch : MpsChain (ds1 ++ d :: ds2) (As1 ++ B :: As2) 1 1 := (mpsChain_append h1.length_eq).2 ⟨p, h1, n, hB, h2⟩
  unfold envAmp leftEnv rightEnv
  simp only [← sumIdx_mul_left, ← sumIdx_mul_right, ← sumIdx_finset_sum]
  rw [sumIdx_comm]
  refine sumIdx_congr fun s2 hs2 => sumIdx_congr fun s1 hs1 => ?_
  rw [psi_eq_amp hch (by simp) (by simp [hs1.length_eq, hs2.length_eq]), amp_mid h1 hs1.length_eq hB t 0 0 (by omega), Finset.mul_sum]
  refine Finset.sum_congr rfl fun b' _ => ?_
  rw [Finset.mul_sum]
  refine Finset.sum_congr rfl fun c' _ => ?_
  ring

/-- a tensor in the left gauge is orthogonal to everything that agrees with the chain up to its site -/
theorem inner_gauge {W A : ND ℂ} (h1 : MpsChain ds1 As1 1 p) (hW : W.shape = [d, p, n]) (h2 : MpsChain ds2 As2 n 1)
    (hg : LeftGauge d p n (leftEnv ds1 As1) A W) {f : List ℕ → ℂ} {g : List ℕ → ℕ → ℂ}
    (hf : ∀ s1, InB ds1 s1 → ∀ t < d, ∀ s2, InB ds2 s2 →
      f (s1 ++ t :: s2) = ∑ b ∈ range p, ∑ c ∈ range n, amp As1 s1 0 b * A.val [t, b, c] * g s2 c) :
    pairing (ds1 ++ d :: ds2) (psi (As1 ++ W :: As2)) f = 0 := by
  have key : ∀ t < d, ∀ b c, envAmp ds1 As1 ds2 As2 f t b c = ∑ c' ∈ range n, (∑ b' ∈ range p, leftEnv ds1 As1 b b' * A.val [t, b', c']) *
      sumIdx ds2 fun s2 => star (amp As2 s2 c 0) * g s2 c' := by
    intro t ht b c
    unfold envAmp leftEnv
    simp only [Finset.sum_mul, ← sumIdx_mul_left, ← sumIdx_mul_right, ← sumIdx_finset_sum]
    rw [sumIdx_comm]
    refine sumIdx_congr fun s2 hs2 => sumIdx_congr fun s1 hs1 => ?_
    rw [hf s1 hs1 t ht s2 hs2, Finset.sum_comm, Finset.mul_sum]
    refine Finset.sum_congr rfl fun c' _ => ?_
    rw [Finset.mul_sum]
    exact Finset.sum_congr rfl fun b' _ => by ring
  rw [inner_site h1 hW h2]
  calc _ = ∑ t ∈ range d, ∑ b ∈ range p, ∑ c ∈ range n, ∑ c' ∈ range n, ∑ b' ∈ range p,
        star (W.val [t, b, c]) * leftEnv ds1 As1 b b' * A.val [t, b', c'] * sumIdx ds2 fun s2 => star (amp As2 s2 c 0) * g s2 c' := by
        refine Finset.sum_congr rfl fun t ht => Finset.sum_congr rfl fun b _ => Finset.sum_congr rfl fun c _ => ?_
        rw [key t (by simpa using ht), Finset.mul_sum]
        refine Finset.sum_congr rfl fun c' _ => ?_
        rw [Finset.sum_mul, Finset.mul_sum]
        exact Finset.sum_congr rfl fun b' _ => by ring
    _ = ∑ c ∈ range n, ∑ c' ∈ range n, (∑ t ∈ range d, ∑ b ∈ range p, ∑ b' ∈ range p,
        star (W.val [t, b, c]) * leftEnv ds1 As1 b b' * A.val [t, b', c']) * sumIdx ds2 fun s2 => star (amp As2 s2 c 0) * g s2 c' := by
        rw [Finset.sum_congr rfl fun t _ => Finset.sum_comm, Finset.sum_comm]
        refine Finset.sum_congr rfl fun c _ => ?_
        rw [Finset.sum_congr rfl fun t _ => Finset.sum_comm, Finset.sum_comm]
        refine Finset.sum_congr rfl fun c' _ => ?_
        rw [Finset.sum_mul]
        refine Finset.sum_congr rfl fun t _ => ?_
        rw [Finset.sum_mul]
        refine Finset.sum_congr rfl fun b _ => ?_
        rw [Finset.sum_mul]
    _ = 0 := by
        refine Finset.sum_eq_zero fun c hc => Finset.sum_eq_zero fun c' hc' => ?_
        have h := congrArg star (hg c' (by simpa using hc') c (by simpa using hc))
        rw [star_zero] at h
        have e : ∑ t ∈ range d, ∑ b ∈ range p, ∑ b' ∈ range p, star (W.val [t, b, c]) * leftEnv ds1 As1 b b' * A.val [t, b', c'] = 0 := by
          rw [← h]
          simp only [star_sum, star_mul', star_star]
          refine Finset.sum_congr rfl fun t _ => ?_
          rw [Finset.sum_comm]
          refine Finset.sum_congr rfl fun b _ => Finset.sum_congr rfl fun b' _ => ?_
          rw [leftEnv_star]
          ring
        rw [e, zero_mul]

end Xmps
