import Verif.Lemmas.CanonSweeps
import Mathlib.LinearAlgebra.Matrix.NonsingularInverse

/-! # The sweep back of `left_canonicalise` and the rank reduction -/

namespace Xmps

open Finset Xmps.Spec

/-- a square matrix with orthonormal columns has orthonormal rows -/
theorem rows_of_cols {n : ℕ} {v : ℕ → ℕ → ℂ}
    (h : ∀ k < n, ∀ k' < n, ∑ i ∈ range n, star (v i k) * v i k' = if k = k' then 1 else 0) :
    ∀ i < n, ∀ j < n, ∑ k ∈ range n, v i k * star (v j k) = if i = j then 1 else 0 := by
  let M : Matrix (Fin n) (Fin n) ℂ := Matrix.of fun i j => v i.1 j.1
  have h1 : M.conjTranspose * M = 1 := by
    ext k k'
    rw [Matrix.mul_apply]
    simp only [Matrix.conjTranspose_apply, M, Matrix.of_apply, Matrix.one_apply]
    have := h k.1 k.2 k'.1 k'.2
    rw [Finset.sum_range] at this
    rw [this]
    simp [Fin.ext_iff]
  have h2 := mul_eq_one_comm.1 h1
  intro i hi j hj
  have := congrFun (congrFun h2 ⟨i, hi⟩) ⟨j, hj⟩
  rw [Matrix.mul_apply] at this
  simp only [Matrix.conjTranspose_apply, M, Matrix.of_apply, Matrix.one_apply, Fin.mk.injEq] at this
  rw [Finset.sum_range]
  exact this

/-- a diagonal matrix with diagonal `w` -/
def IsDiag (S : ND ℂ) (w : List ℂ) : Prop :=
  S.shape = [w.length, w.length] ∧ ∀ i < w.length, ∀ j < w.length, S.val [i, j] = if i = j then w.getD i 0 else 0

theorem isDiag_diagND (w : List ℂ) : IsDiag (diagND w) w := ⟨rfl, fun _ _ _ _ => rfl⟩

theorem isDiag_eye : IsDiag (eyeND 1) [1] := by
  refine ⟨rfl, ?_⟩
  intro i hi j hj
  simp at hi hj
  subst hi hj
  rfl

/-- non-negative reals, zeros last -/
def NonnegLast (w : List ℂ) : Prop :=
  (∀ i, ∃ x : ℝ, 0 ≤ x ∧ w.getD i 0 = x) ∧ ∀ i j, i < j → w.getD i 0 = 0 → w.getD j 0 = 0

/-- positive reals -/
def AllPos (w : List ℂ) : Prop := ∀ i < w.length, ∃ x : ℝ, 0 < x ∧ w.getD i 0 = x

/-- one site of a chain whose right environments are diagonal: `Σ A w' A^H = w` -/
def SiteL (A : ND ℂ) (w w' : List ℂ) : Prop :=
  ∃ d, A.shape = [d, w.length, w'.length] ∧ ∀ a < w.length, ∀ a' < w.length,
    ∑ s ∈ range d, ∑ c ∈ range w'.length, A.val [s, a, c] * w'.getD c 0 * star (A.val [s, a', c]) =
      if a = a' then w.getD a 0 else 0

/-- every right environment of the chain is diagonal; `Ls` are the environments -/
def EnvL (P : List ℂ → Prop) : List (ND ℂ) → List ℂ → List (ND ℂ) → Prop
  | [], w, Ls => w = [1] ∧ Ls = []
  | A :: As, w, L :: Ls => IsDiag L w ∧ P w ∧ ∃ w', SiteL A w w' ∧ EnvL P As w' Ls
  | _ :: _, _, [] => False

theorem hc2 {A : ND ℂ} {m n : ℕ} (h : A.shape = [m, n]) : A.hc.shape = [n, m] ∧ ∀ i j, A.hc.val [i, j] = star (A.val [j, i]) := by
  simp [ND.hc, h]

theorem hc3 {A : ND ℂ} {d m n : ℕ} (h : A.shape = [d, m, n]) :
    A.hc.shape = [d, n, m] ∧ ∀ s i j, A.hc.val [s, i, j] = star (A.val [s, j, i]) := by
  simp [ND.hc, h]

/-- `dot` of two site tensors over the inner bond and trace over the site index -/
theorem env_trace {A B : ND ℂ} {d l n m : ℕ} (hA : A.shape = [d, l, n]) (hB : B.shape = [d, n, m]) :
    ∃ t M, A.tensordot B [2] [1] = .ok t ∧ t.trace 0 2 = .ok M ∧ M.shape = [l, m] ∧
      ∀ a b, M.val [a, b] = ∑ s ∈ range d, ∑ c ∈ range n, A.val [s, a, c] * B.val [s, c, b] := by
  refine ⟨A.tensordotR B [2] [1], (A.tensordotR B [2] [1]).traceR 0 2, ?_, ?_, ?_, ?_⟩
  · simp [ND.tensordot, ND.rank, ND.dim, hA, hB]
  · simp [ND.trace, ND.rank, ND.tensordotR, ND.others, hA, hB, List.range_succ]
  · simp [ND.traceR, ND.rank, ND.tensordotR, ND.others, ND.dim, hA, hB, List.range_succ]
  · intro a b
    simp [ND.traceR, ND.tensordotR, ND.transposeR, ND.rank, ND.others, ND.dim, hA, hB, List.range_succ]

/-- `swapaxes(dot(dot(W, A), V), 0, 1)` -/
theorem gauge_eval {W A V : ND ℂ} {d k l n m : ℕ} (hW : W.shape = [k, l]) (hA : A.shape = [d, l, n]) (hV : V.shape = [n, m]) :
    ∃ u u' A', W.tensordot A [1] [1] = .ok u ∧ u.matmul V = .ok u' ∧ u'.transpose [1, 0, 2] = .ok A' ∧
      A'.shape = [d, k, m] ∧ ∀ s a c, A'.val [s, a, c] = ∑ e ∈ range n, (∑ b ∈ range l, W.val [a, b] * A.val [s, b, e]) * V.val [e, c] := by
  have hu : ∃ u, W.tensordot A [1] [1] = .ok u ∧ u.shape = [k, d, n] ∧
      ∀ a s e, u.val [a, s, e] = ∑ b ∈ range l, W.val [a, b] * A.val [s, b, e] := by
    refine ⟨W.tensordotR A [1] [1], by simp [ND.tensordot, ND.rank, ND.dim, hA, hW], ?_, ?_⟩
    · simp [ND.tensordotR, ND.others, ND.rank, ND.dim, hA, hW, List.range_succ]
    · intro a s e
      simp [ND.tensordotR, ND.transposeR, ND.rank, ND.others, ND.dim, hA, hW, List.range_succ]
  obtain ⟨u, e1, hus, huv⟩ := hu
  obtain ⟨u', e2, hus', huv'⟩ := ND.matmul32 hus hV
  refine ⟨u, u', u'.transposeR [1, 0, 2], e1, e2,
    ND.transpose_ok (by rw [ND.rank, hus']; exact (by decide : [1, 0, 2].Perm (List.range 3))), ?_, ?_⟩
  · simp [ND.transposeR, ND.dim, hus']
  · intro s a c
    have : (u'.transposeR [1, 0, 2]).val [s, a, c] = u'.val [a, s, c] := by
      simp [ND.transposeR, ND.rank, hus', List.range_succ]
    rw [this, huv']
    simp only [huv]

theorem sum_star_mul_nonneg (n : ℕ) (f : ℕ → ℂ) (w : ℕ → ℝ) (hw : ∀ i, 0 ≤ w i) :
    0 ≤ (∑ i ∈ range n, f i * (w i : ℂ) * star (f i)).re := by
  rw [Complex.re_sum]
  refine Finset.sum_nonneg fun i _ => ?_
  have : f i * (w i : ℂ) * star (f i) = ((w i * Complex.normSq (f i) : ℝ) : ℂ) := by
    rw [Complex.ofReal_mul, Complex.normSq_eq_conj_mul_self]
    simp
    ring
  rw [this, Complex.ofReal_re]
  exact mul_nonneg (hw i) (Complex.normSq_nonneg _)

/-- an environment `Σ_s X w X^H` is positive semidefinite -/
theorem posSemi_env {d l n : ℕ} {X : ℕ → ℕ → ℕ → ℂ} {w : ℕ → ℂ} (hw : ∀ i, ∃ x : ℝ, 0 ≤ x ∧ w i = x) :
    PosSemi l (fun a a' => ∑ s ∈ range d, ∑ c ∈ range n, X s a c * w c * star (X s a' c)) := by
  choose y hy0 hy using hw
  simp only [hy]
  refine ⟨?_, ?_⟩
  · intro i _ j _
    rw [star_sum]
    refine Finset.sum_congr rfl fun s _ => ?_
    rw [star_sum]
    refine Finset.sum_congr rfl fun c _ => ?_
    rw [star_mul', star_mul', star_star]
    have : star (y c : ℂ) = (y c : ℂ) := Complex.conj_ofReal _
    rw [this]
    ring
  · intro v
    have e : (∑ i ∈ range l, ∑ j ∈ range l, star (v i) * (∑ s ∈ range d, ∑ c ∈ range n, X s i c * (y c : ℂ) * star (X s j c)) * v j) =
        ∑ s ∈ range d, ∑ c ∈ range n, (∑ i ∈ range l, star (v i) * X s i c) * (y c : ℂ) * star (∑ i ∈ range l, star (v i) * X s i c) := by
      simp only [Finset.mul_sum, Finset.sum_mul, star_sum, star_mul', star_star]
      rw [Finset.sum_congr rfl fun i _ => Finset.sum_comm]
      rw [Finset.sum_comm]
      refine Finset.sum_congr rfl fun s _ => ?_
      rw [Finset.sum_congr rfl fun i _ => Finset.sum_comm]
      rw [Finset.sum_comm]
      refine Finset.sum_congr rfl fun c _ => ?_
      rw [Finset.sum_comm]
      refine Finset.sum_congr rfl fun i _ => Finset.sum_congr rfl fun j _ => ?_
      ring
    rw [e, Complex.re_sum]
    exact Finset.sum_nonneg fun s _ => sum_star_mul_nonneg n _ y hy0

/-- `Σ_s Σ_c Y w Y^H` for a gauge transformed `Y = V'^H X` with `M V' = V' w'` -/
theorem env_diag {d l n : ℕ} {X : ℕ → ℕ → ℕ → ℂ} {w : ℕ → ℂ} {v : ℕ → ℕ → ℂ} {w' : ℕ → ℂ}
    (ho : ∀ k < l, ∀ k' < l, ∑ i ∈ range l, star (v i k) * v i k' = if k = k' then 1 else 0)
    (he : ∀ i < l, ∀ k < l, ∑ j ∈ range l, (∑ s ∈ range d, ∑ c ∈ range n, X s i c * w c * star (X s j c)) * v j k = v i k * w' k)
    (a : ℕ) (ha : a < l) (a' : ℕ) (ha' : a' < l) :
    ∑ s ∈ range d, ∑ c ∈ range n, (∑ b ∈ range l, star (v b a) * X s b c) * w c * star (∑ b ∈ range l, star (v b a') * X s b c) =
      if a = a' then w' a else 0 := by
  have e : ∑ s ∈ range d, ∑ c ∈ range n, (∑ b ∈ range l, star (v b a) * X s b c) * w c * star (∑ b ∈ range l, star (v b a') * X s b c) =
      ∑ i ∈ range l, star (v i a) * ∑ j ∈ range l, (∑ s ∈ range d, ∑ c ∈ range n, X s i c * w c * star (X s j c)) * v j a' := by
    simp only [Finset.mul_sum, Finset.sum_mul, star_sum, star_mul', star_star]
    symm
    rw [Finset.sum_congr rfl fun i _ => Finset.sum_comm]
    rw [Finset.sum_comm]
    refine Finset.sum_congr rfl fun s _ => ?_
    rw [Finset.sum_congr rfl fun i _ => Finset.sum_comm]
    rw [Finset.sum_comm]
    refine Finset.sum_congr rfl fun c _ => ?_
    rw [Finset.sum_comm]
    refine Finset.sum_congr rfl fun i _ => Finset.sum_congr rfl fun j _ => ?_
    ring
  rw [e, Finset.sum_congr rfl fun i hi => by rw [he i (by simpa using hi) a' ha', ← mul_assoc], ← Finset.sum_mul,
    ho a ha a' ha']
  split
  · next h => rw [h, one_mul]
  · simp

/-- the step of the sweep back -/
theorem backLeftStep_ok {eig : Eig} (heig : EigOrthoLaw eig) {A V S : ND ℂ} {d l n : ℕ} {w : List ℂ}
    (hA : A.shape = [d, l, n]) (hl : 0 < l) (hV : V.shape = [n, n]) (hoV : ColsOrtho V) (hw : w.length = n)
    (hS : IsDiag S w) (hwn : NonnegLast w) :
    ∃ A' V' w', FMPS.backLeftStep eig A V S = .ok (A', V', diagND w') ∧ w'.length = l ∧ V'.shape = [l, l] ∧ ColsOrtho V' ∧
      NonnegLast w' ∧ SiteL A' w' w ∧ (LeftIso A → LeftIso A') ∧ A'.shape = [d, l, n] ∧
      ∀ s a c, A'.val [s, a, c] = ∑ e ∈ range n, (∑ b ∈ range l, star (V'.val [b, a]) * A.val [s, b, e]) * V.val [e, c] := by
  obtain ⟨t1, e1, ht1, hv1⟩ := ND.matmul32 hA hV
  have hSs : S.shape = [n, n] := by rw [hS.1, hw]
  obtain ⟨t2, e2, ht2, hv2⟩ := ND.matmul32 ht1 hSs
  obtain ⟨hVh, hVhv⟩ := hc2 hV
  obtain ⟨t3, e3, ht3, hv3⟩ := ND.matmul32 ht2 hVh
  obtain ⟨hAh, hAhv⟩ := hc3 hA
  obtain ⟨t4, M, e4, e5, hM, hMv⟩ := env_trace ht3 hAh
  let X : ℕ → ℕ → ℕ → ℂ := fun s a c => ∑ e ∈ range n, A.val [s, a, e] * V.val [e, c]
  have hMX : ∀ a a', M.val [a, a'] = ∑ s ∈ range d, ∑ c ∈ range n, X s a c * w.getD c 0 * star (X s a' c) := by
    intro a a'
    rw [hMv]
    refine Finset.sum_congr rfl fun s _ => ?_
    have e2' : ∀ c < n, t2.val [s, a, c] = X s a c * w.getD c 0 := by
      intro c hc
      rw [hv2]
      rw [Finset.sum_congr rfl fun f hf => by
        rw [hS.2 f (by rw [hw]; simpa using hf) c (by omega), mul_ite, mul_zero]]
      simp only [Finset.sum_ite_eq', mem_range, hc, if_true, hv1]
      rfl
    simp only [hAhv, hv3, hVhv]
    simp only [X, star_sum, star_mul', Finset.mul_sum, Finset.sum_mul]
    rw [Finset.sum_comm]
    refine Finset.sum_congr rfl fun c hc => ?_
    refine Finset.sum_congr rfl fun e _ => ?_
    rw [e2' c (by simpa using hc)]
    simp only [X, Finset.sum_mul]
    exact Finset.sum_congr rfl fun _ _ => by ring
  have hps : PosSemi l (fun i j => M.val [i, j]) := by
    have := posSemi_env (d := d) (l := l) (n := n) (X := X) (w := fun c => w.getD c 0) hwn.1
    simpa only [hMX] using this
  obtain ⟨w', V', e6, hw', hV', hoV', heq, hz⟩ := heig M l hM hl hps
  obtain ⟨hVh', hVhv'⟩ := hc2 hV'
  obtain ⟨u, u', A', e7, e8, e9, hA', hA'v⟩ := gauge_eval hVh' hA hV
  have d0 : V'.dim 0 = l := by simp [ND.dim, hV']
  have d1 : V'.dim 1 = l := by simp [ND.dim, hV']
  have d0' : V.dim 0 = n := by simp [ND.dim, hV]
  have d1' : V.dim 1 = n := by simp [ND.dim, hV]
  have ho' : ∀ k < l, ∀ k' < l, ∑ i ∈ range l, star (V'.val [i, k]) * V'.val [i, k'] = if k = k' then 1 else 0 := by
    unfold ColsOrtho at hoV'
    rwa [d0, d1] at hoV'
  have hoV2 : ∀ k < n, ∀ k' < n, ∑ i ∈ range n, star (V.val [i, k]) * V.val [i, k'] = if k = k' then 1 else 0 := by
    unfold ColsOrtho at hoV
    rwa [d0', d1'] at hoV
  have hA'X : ∀ s a c, A'.val [s, a, c] = ∑ b ∈ range l, star (V'.val [b, a]) * X s b c := by
    intro s a c
    rw [hA'v]
    simp only [hVhv', X, Finset.sum_mul, Finset.mul_sum]
    rw [Finset.sum_comm]
    exact Finset.sum_congr rfl fun b _ => Finset.sum_congr rfl fun e _ => by ring
  have hsite : ∀ a < l, ∀ a' < l, ∑ s ∈ range d, ∑ c ∈ range n, A'.val [s, a, c] * w.getD c 0 * star (A'.val [s, a', c]) =
      if a = a' then w'.getD a 0 else 0 := by
    intro a ha a' ha'
    simp only [hA'X]
    refine env_diag (w' := fun k => w'.getD k 0) ho' ?_ a ha a' ha'
    intro i hi k hk
    rw [← heq i hi k hk]
    simp only [hMX]
  refine ⟨A', V', w', ?_, hw', hV', hoV', ⟨?_, hz⟩, ⟨d, by rw [hA', hw', hw], ?_⟩, ?_, hA', ?_⟩
  · unfold FMPS.backLeftStep
    rw [e1, ok_bind, e2, ok_bind, e3, ok_bind, e4, ok_bind, e5, ok_bind, e6, ok_bind]
    simp only
    rw [e7, ok_bind, e8, ok_bind, e9, ok_bind]
  · intro i
    by_cases hi : i < l
    · have h := hsite i hi i hi
      rw [if_pos rfl] at h
      choose y hy0 hy using hwn.1
      refine ⟨∑ s ∈ range d, ∑ c ∈ range n, y c * Complex.normSq (A'.val [s, i, c]),
        Finset.sum_nonneg fun s _ => Finset.sum_nonneg fun c _ => mul_nonneg (hy0 c) (Complex.normSq_nonneg _), ?_⟩
      rw [← h, Complex.ofReal_sum]
      refine Finset.sum_congr rfl fun s _ => ?_
      rw [Complex.ofReal_sum]
      refine Finset.sum_congr rfl fun c _ => ?_
      rw [hy, Complex.ofReal_mul, Complex.normSq_eq_conj_mul_self]
      simp
      ring
    · exact ⟨0, le_rfl, by rw [List.getD_eq_default _ _ (by omega)]; simp⟩
  · rw [hw', hw]
    exact hsite
  · intro hiA c hc c' hc'
    rw [dim2 hA'] at hc hc'
    rw [dim0 hA', dim1 hA']
    have hrow := rows_of_cols ho'
    have hX : ∀ s, ∑ a ∈ range l, star (A'.val [s, a, c]) * A'.val [s, a, c'] = ∑ b ∈ range l, star (X s b c) * X s b c' := by
      intro s
      simp only [hA'X, star_sum, star_mul', star_star, Finset.sum_mul, Finset.mul_sum]
      rw [Finset.sum_comm]
      rw [Finset.sum_congr rfl fun b _ => Finset.sum_comm]
      refine Finset.sum_congr rfl fun b' hb' => ?_
      rw [Finset.sum_congr rfl fun b hb => show _ = if b = b' then star (X s b c) * X s b' c' else 0 by
        rw [Finset.sum_congr rfl fun a _ => show _ = V'.val [b, a] * star (V'.val [b', a]) * (star (X s b c) * X s b' c') by ring]
        rw [← Finset.sum_mul, hrow b (by simpa using hb) b' (by simpa using hb')]
        split <;> simp]
      rw [Finset.sum_ite_eq', if_pos hb']
    rw [Finset.sum_congr rfl fun s _ => hX s]
    have hiA' : ∀ e < n, ∀ e' < n, ∑ s ∈ range d, ∑ a ∈ range l, star (A.val [s, a, e]) * A.val [s, a, e'] = if e = e' then 1 else 0 := by
      unfold LeftIso at hiA
      rw [dim0 hA, dim1 hA, dim2 hA] at hiA
      exact hiA
    have e0 : ∑ s ∈ range d, ∑ b ∈ range l, star (X s b c) * X s b c' =
        ∑ e ∈ range n, ∑ e' ∈ range n, (∑ s ∈ range d, ∑ a ∈ range l, star (A.val [s, a, e]) * A.val [s, a, e']) *
          (star (V.val [e, c]) * V.val [e', c']) := by
      simp only [X, star_sum, star_mul', Finset.sum_mul, Finset.mul_sum]
      symm
      rw [Finset.sum_congr rfl fun e _ => Finset.sum_comm]
      rw [Finset.sum_comm]
      refine Finset.sum_congr rfl fun s _ => ?_
      rw [Finset.sum_congr rfl fun e _ => Finset.sum_comm]
      rw [Finset.sum_comm]
      refine Finset.sum_congr rfl fun b _ => ?_
      rw [Finset.sum_comm]
      refine Finset.sum_congr rfl fun e _ => Finset.sum_congr rfl fun e' _ => ?_
      ring
    rw [e0, ← hoV2 c hc c' hc']
    refine Finset.sum_congr rfl fun e he => ?_
    rw [Finset.sum_congr rfl fun e' he' => by rw [hiA' e (by simpa using he) e' (by simpa using he'), ite_mul, one_mul, zero_mul]]
    rw [Finset.sum_ite_eq, if_pos he]
  · intro s a c
    rw [hA'v]
    simp only [hVhv']

/-- the sweep back of `left_canonicalise` -/
theorem backLeft_ok {eig : Eig} (heig : EigOrthoLaw eig) : ∀ (As : List (ND ℂ)) (ds : List ℕ) (l : ℕ), MpsChain ds As l 1 →
    PosDims As → ∃ As' V S Ls w, FMPS.backLeft eig As = .ok (As', V, S, Ls) ∧ MpsChain ds As' l 1 ∧ w.length = l ∧
      V.shape = [l, l] ∧ ColsOrtho V ∧ IsDiag S w ∧ NonnegLast w ∧ EnvL NonnegLast As' w Ls ∧
      ((∀ A ∈ As, LeftIso A) → ∀ A ∈ As', LeftIso A) ∧ (As' ≠ [] → Ls.head? = some S) ∧
      (∀ D0, (∀ A ∈ As, A.dim 2 ≤ D0) → ∀ A ∈ As', A.dim 2 ≤ D0) ∧
      ∀ ss, InB ds ss → ∀ a < l, amp As' ss a 0 = ∑ b ∈ range l, star (V.val [b, a]) * amp As ss b 0
  | [], [], l, h, _ => by
    have h : l = 1 := h
    subst h
    refine ⟨[], eyeND 1, eyeND 1, [], [1], rfl, rfl, rfl, rfl, ?_, isDiag_eye, ?_, ⟨rfl, rfl⟩, by simp, by simp, by simp, ?_⟩
    · intro k hk k' hk'
      simp [eyeND, ND.dim] at hk hk' ⊢
      simp [hk, hk']
    · refine ⟨?_, ?_⟩
      · intro i
        cases i with
        | zero => exact ⟨1, by norm_num, by simp⟩
        | succ i => exact ⟨0, le_rfl, by simp⟩
      · intro i j hij _
        cases j with
        | zero => omega
        | succ j => simp
    · intro ss hs a ha
      match ss, hs with
      | [], _ =>
        obtain rfl : a = 0 := by omega
        simp [eyeND]
  | [], d :: ds, l, h, _ => by simp at h
  | A :: As, [], l, h, _ => by simp at h
  | A :: As, d :: ds, l, h, hp => by
    obtain ⟨n, hA, hc⟩ := h
    rw [PosDims.cons, posDims3 hA] at hp
    obtain ⟨⟨hd, hl, hn⟩, hp⟩ := hp
    obtain ⟨As', V, S, Ls, w, e, hch, hwl, hVs, hoV, hS, hwn, henv, hiso, hhead, hbd, hamp⟩ := backLeft_ok heig As ds n hc hp
    obtain ⟨A', V', w', e', hwl', hVs', hoV', hwn', hsite, hiso', hA', hA'v⟩ := backLeftStep_ok heig hA hl hVs hoV hwl hS hwn
    refine ⟨A' :: As', V', diagND w', diagND w' :: Ls, w', ?_, ⟨n, hA', hch⟩, hwl', hVs', hoV', isDiag_diagND w', hwn',
      ⟨isDiag_diagND w', hwn', w, hsite, henv⟩, ?_, by simp, ?_, ?_⟩
    · simp only [FMPS.backLeft, e, ok_bind, e']
    · intro hAll B hB
      rcases List.mem_cons.1 hB with rfl | hB
      · exact hiso' (hAll A (by simp))
      · exact hiso (fun B hB => hAll B (List.mem_cons_of_mem _ hB)) B hB
    · intro D0 hAll B hB
      rcases List.mem_cons.1 hB with rfl | hB
      · have := hAll A (by simp)
        rwa [dim2 hA', ← dim2 hA]
      · exact hbd D0 (fun B hB => hAll B (List.mem_cons_of_mem _ hB)) B hB
    · intro ss hs a ha
      match ss, hs with
      | s :: ss, hs =>
        have d0' : V.dim 0 = n := by simp [ND.dim, hVs]
        have d1' : V.dim 1 = n := by simp [ND.dim, hVs]
        have hoV2 : ∀ k < n, ∀ k' < n, ∑ i ∈ range n, star (V.val [i, k]) * V.val [i, k'] = if k = k' then 1 else 0 := by
          unfold ColsOrtho at hoV
          rwa [d0', d1'] at hoV
        have hrow := rows_of_cols hoV2
        simp only [amp_cons, dim2 hA, dim2 hA']
        rw [Finset.sum_congr rfl fun c hc => by rw [hamp ss hs.2 c (by simpa using hc)]]
        simp only [hA'v, Finset.mul_sum, Finset.sum_mul]
        -- left: Σ_c Σ_f Σ_e Σ_b, right: Σ_b Σ_e
        rw [Finset.sum_congr rfl fun c _ => Finset.sum_comm]
        rw [Finset.sum_comm]
        rw [Finset.sum_congr rfl fun e he => show _ = ∑ b ∈ range l, star (V'.val [b, a]) * (A.val [s, b, e] * amp As ss e 0) by
          rw [Finset.sum_comm]
          rw [Finset.sum_congr rfl fun f hf => show _ = if e = f then ∑ b ∈ range l, star (V'.val [b, a]) * (A.val [s, b, e] * amp As ss f 0) else 0 by
            rw [Finset.sum_comm]
            rw [Finset.sum_congr rfl fun b _ => show _ = (∑ c ∈ range n, V.val [e, c] * star (V.val [f, c])) * (star (V'.val [b, a]) * (A.val [s, b, e] * amp As ss f 0)) by
              rw [Finset.sum_mul]
              exact Finset.sum_congr rfl fun c _ => by ring]
            rw [hrow e (by simpa using he) f (by simpa using hf)]
            split <;> simp]
          rw [Finset.sum_ite_eq, if_pos he]]
        rw [Finset.sum_comm]

end Xmps
