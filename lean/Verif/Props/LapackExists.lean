import Verif.Spec.Lapack
import Mathlib.Analysis.InnerProductSpace.GramSchmidtOrtho
import Mathlib.Analysis.InnerProductSpace.PiL2

/-!
# The LAPACK contracts can be met

Over `ℂ` there are functions satisfying the contracts of `Spec/Lapack.lean`, so the theorems that
assume them are not vacuous.
-/

namespace Xmps

open Finset Xmps.Spec

/-- Every complex matrix has an economic QR factorisation. -/
theorem qr_exists (m n : ℕ) (a : ℕ → ℕ → ℂ) : ∃ q r : ℕ → ℕ → ℂ,
    (∀ k < min m n, ∀ k' < min m n, ∑ i ∈ range m, star (q i k) * q i k' = if k = k' then 1 else 0) ∧
    (∀ i < m, ∀ j < n, a i j = ∑ k ∈ range (min m n), q i k * r k j) ∧
    ∀ k < min m n, ∀ j < k, r k j = 0 := by
  let col : ℕ → EuclideanSpace ℂ (Fin m) := fun j => WithLp.toLp 2 fun i => a i j
  let f : Fin m → EuclideanSpace ℂ (Fin m) := fun j => if j.1 < n then col j else 0
  have hcard : Module.finrank ℂ (EuclideanSpace ℂ (Fin m)) = Fintype.card (Fin m) := by simp
  let b := InnerProductSpace.gramSchmidtOrthonormalBasis hcard f
  have hcol : ∀ j i, col j i = a i j := fun j i => rfl
  have hexp : ∀ j (i : Fin m), a i j = ∑ k : Fin m, b k i * inner ℂ (b k) (col j) := by
    intro j i
    have := b.sum_repr' (col j)
    have h2 := congrArg (fun v : EuclideanSpace ℂ (Fin m) => v i) this
    simp only [WithLp.ofLp_sum, Finset.sum_apply, PiLp.smul_apply, smul_eq_mul] at h2
    rw [hcol] at h2
    rw [← h2]
    exact Finset.sum_congr rfl fun k _ => mul_comm _ _
  have htri : ∀ (k : Fin m) (j : ℕ), j < k.1 → j < n → inner ℂ (b k) (col j) = 0 := by
    intro k j hj hn
    have := InnerProductSpace.gramSchmidtOrthonormalBasis_inv_triangular hcard f (i := ⟨j, by omega⟩) (j := k) hj
    simpa [f, hn] using this
  refine ⟨fun i k => if h : k < m ∧ i < m then b ⟨k, h.1⟩ ⟨i, h.2⟩ else 0,
    fun k j => if h : k < m then inner ℂ (b ⟨k, h⟩) (col j) else 0, ?_, ?_, ?_⟩
  · intro k hk k' hk'
    have h1 : k < m := by omega
    have h2 : k' < m := by omega
    rw [Finset.sum_range]
    have ho := b.inner_eq_ite ⟨k, h1⟩ ⟨k', h2⟩
    rw [PiLp.inner_apply] at ho
    simp only [RCLike.inner_apply, Fin.mk.injEq] at ho
    rw [← ho]
    refine Finset.sum_congr rfl fun i _ => ?_
    simp [h1, h2, mul_comm]
  · intro i hi j hj
    rw [hexp j ⟨i, hi⟩]
    by_cases hmn : m ≤ n
    · rw [min_eq_left hmn, Finset.sum_range]
      refine Finset.sum_congr rfl fun k _ => ?_
      simp [hi]
    · have hmn' : n ≤ m := by omega
      rw [min_eq_right hmn']
      have : ∀ g : ℕ → ℂ, (∀ k, n ≤ k → k < m → g k = 0) → ∑ k ∈ range m, g k = ∑ k ∈ range n, g k := by
        intro g hg
        symm
        refine Finset.sum_subset (Finset.range_mono hmn') ?_
        intro k hk hk'
        simp at hk hk'
        exact hg k hk' hk
      rw [← this]
      · rw [Finset.sum_range]
        refine Finset.sum_congr rfl fun k _ => ?_
        simp [hi]
      · intro k hk hkm
        simp [hkm, htri ⟨k, hkm⟩ j (by simp; omega) hj]
  · intro k hk j hj
    have h1 : k < m := by omega
    simp [h1, htri ⟨k, h1⟩ j hj (by omega)]

/-- A function meeting the QR contract exists. -/
theorem qrLaw_exists : ∃ qr : ND ℂ → Py (ND ℂ × ND ℂ), QRLaw qr := by
  choose q r h1 h2 h3 using qr_exists
  refine ⟨fun A => .ok (⟨[A.dim 0, min (A.dim 0) (A.dim 1)], fun idx => q (A.dim 0) (A.dim 1) (fun i j => A.val [i, j]) (idx.getD 0 0) (idx.getD 1 0)⟩,
    ⟨[min (A.dim 0) (A.dim 1), A.dim 1], fun idx => r (A.dim 0) (A.dim 1) (fun i j => A.val [i, j]) (idx.getD 0 0) (idx.getD 1 0)⟩), ?_⟩
  intro A m n hA _ _
  have e0 : A.dim 0 = m := by simp [ND.dim, hA]
  have e1 : A.dim 1 = n := by simp [ND.dim, hA]
  simp only [e0, e1]
  exact ⟨_, _, rfl, rfl, rfl, fun k hk k' hk' => h1 m n _ k hk k' hk', fun i hi j hj => h2 m n (fun i j => A.val [i, j]) i hi j hj,
    fun k hk j hj => h3 m n _ k hk j hj⟩

/-- A function meeting the RQ contract exists. -/
theorem rqLaw_exists : ∃ rq : ND ℂ → Py (ND ℂ × ND ℂ), RQLaw rq := by
  choose q r h1 h2 h3 using qr_exists
  refine ⟨fun A => .ok (
    ⟨[A.dim 0, min (A.dim 0) (A.dim 1)], fun idx => r (A.dim 1) (A.dim 0) (fun i j => A.val [j, i]) (idx.getD 1 0) (idx.getD 0 0)⟩,
    ⟨[min (A.dim 0) (A.dim 1), A.dim 1], fun idx => q (A.dim 1) (A.dim 0) (fun i j => A.val [j, i]) (idx.getD 1 0) (idx.getD 0 0)⟩), ?_⟩
  intro A m n hA _ _
  have e0 : A.dim 0 = m := by simp [ND.dim, hA]
  have e1 : A.dim 1 = n := by simp [ND.dim, hA]
  simp only [e0, e1]
  refine ⟨_, _, rfl, rfl, rfl, ?_, ?_⟩
  · intro k hk k' hk'
    simp only [ND.dim, List.getD_cons_zero] at hk hk'
    have := h1 n m (fun i j => A.val [j, i]) k' (by omega) k (by omega)
    simp only [ND.dim, List.getD_cons_succ, List.getD_cons_zero]
    simp only [eq_comm (a := k')] at this
    rw [← this]
    exact Finset.sum_congr rfl fun i _ => mul_comm _ _
  · intro i hi j hj
    have := h2 n m (fun i j => A.val [j, i]) j hj i hi
    rw [this, min_comm]
    exact Finset.sum_congr rfl fun k _ => mul_comm _ _

end Xmps
