import Verif.Spec.Lapack
import Mathlib.Analysis.InnerProductSpace.SingularValues
import Mathlib.Analysis.InnerProductSpace.PiL2
import Mathlib.Analysis.Complex.Basic

/-!
# The SVD and eigenvalue contracts can be met

Over `ℂ` there are functions satisfying `SVDLaw`, `EigLaw` and `EigOrthoLaw` of `Spec/Lapack.lean`.
-/

namespace Xmps

open Finset Xmps.Spec LinearMap

/-- Singular value decomposition of a linear map between Euclidean spaces. -/




theorem svd_space (m n : ℕ) (T : EuclideanSpace ℂ (Fin n) →ₗ[ℂ] EuclideanSpace ℂ (Fin m)) :
    ∃ (u : OrthonormalBasis (Fin m) ℂ (EuclideanSpace ℂ (Fin m))) (v : OrthonormalBasis (Fin n) ℂ (EuclideanSpace ℂ (Fin n))),
      (∀ (j : Fin n) (h : j.1 < m), T (v j) = (T.singularValues j : ℂ) • u ⟨j, h⟩) ∧
      (∀ (j : Fin n), m ≤ j.1 → T (v j) = 0) := by
  have hn : Module.finrank ℂ (EuclideanSpace ℂ (Fin n)) = n := by simp
  have hm : Module.finrank ℂ (EuclideanSpace ℂ (Fin m)) = Fintype.card (Fin m) := by simp
  let hs := T.isPositive_adjoint_comp_self.isSymmetric
  let v := hs.eigenvectorBasis hn
  have hv : ∀ i j, inner ℂ (T (v i)) (T (v j)) = if i = j then ((T.singularValues j : ℝ) : ℂ) ^ 2 else 0 := by
    intro i j
    rw [← LinearMap.adjoint_inner_right]
    have := hs.apply_eigenvectorBasis hn j
    simp only [LinearMap.comp_apply] at this
    change inner ℂ (v i) ((adjoint T) (T (v j))) = _
    rw [show (adjoint T) (T (v j)) = _ from this, inner_smul_right, v.inner_eq_ite]
    rw [← T.sq_singularValues_fin hn j]
    split <;> simp
  have hz : ∀ j : Fin n, T.singularValues j = 0 → T (v j) = 0 := by
    intro j h
    have := hv j j
    rw [if_pos rfl, h] at this
    simpa using this
  let f : Fin m → EuclideanSpace ℂ (Fin m) := fun i =>
    if h : i.1 < n then ((T.singularValues i : ℝ) : ℂ)⁻¹ • T (v ⟨i, h⟩) else 0
  let s : Set (Fin m) := {i | i.1 < n ∧ T.singularValues i ≠ 0}
  have ho : Orthonormal ℂ (s.domRestrict f) := by
    rw [orthonormal_iff_ite]
    rintro ⟨i, hi, hi'⟩ ⟨j, hj, hj'⟩
    simp only [Set.domRestrict, f, hi, hj, dif_pos, inner_smul_left, inner_smul_right, hv, Subtype.mk.injEq, Fin.mk.injEq]
    by_cases e : i = j
    · subst e
      have : ((T.singularValues i : ℝ) : ℂ) ≠ 0 := by exact_mod_cast hi'
      simp
      field_simp
    · have e' : i.1 ≠ j.1 := fun h => e (Fin.ext h)
      simp [e, e']
  obtain ⟨u, hu⟩ := ho.exists_orthonormalBasis_extension_of_card_eq hm
  refine ⟨u, v, ?_, ?_⟩
  · intro j h
    by_cases h0 : T.singularValues j = 0
    · rw [hz j h0, h0]; simp
    · rw [hu ⟨j, h⟩ ⟨j.2, h0⟩]
      have : ((T.singularValues j : ℝ) : ℂ) ≠ 0 := by exact_mod_cast h0
      simp [f, smul_smul, this]
  · intro j h
    apply hz
    rw [T.singularValues_eq_zero_iff_le_finrank_range]
    refine le_trans ?_ h
    refine (Submodule.finrank_le _).trans ?_
    simp

/-- Every complex matrix has a singular value decomposition. -/
theorem svd_exists (m n : ℕ) (a : ℕ → ℕ → ℂ) : ∃ (u v : ℕ → ℕ → ℂ) (s : ℕ → ℝ),
    (∀ k < min m n, ∀ k' < min m n, ∑ i ∈ range m, star (u i k) * u i k' = if k = k' then 1 else 0) ∧
    (∀ k < min m n, ∀ k' < min m n, ∑ j ∈ range n, v k j * star (v k' j) = if k = k' then 1 else 0) ∧
    (∀ k, 0 ≤ s k) ∧ Antitone s ∧
    ∀ i < m, ∀ j < n, a i j = ∑ k ∈ range (min m n), u i k * (s k : ℝ) * v k j := by
  let T : EuclideanSpace ℂ (Fin n) →ₗ[ℂ] EuclideanSpace ℂ (Fin m) := Matrix.toEuclideanLin (Matrix.of fun i j => a i.1 j.1)
  obtain ⟨u, v, h1, h2⟩ := svd_space m n T
  refine ⟨fun i k => if h : k < m ∧ i < m then u ⟨k, h.1⟩ ⟨i, h.2⟩ else 0,
    fun k j => if h : k < n ∧ j < n then star (v ⟨k, h.1⟩ ⟨j, h.2⟩) else 0, T.singularValues, ?_, ?_,
    T.singularValues_nonneg, T.singularValues_antitone, ?_⟩
  · intro k hk k' hk'
    have e1 : k < m := by omega
    have e2 : k' < m := by omega
    rw [Finset.sum_range]
    have ho := u.inner_eq_ite ⟨k, e1⟩ ⟨k', e2⟩
    rw [PiLp.inner_apply] at ho
    simp only [RCLike.inner_apply, Fin.mk.injEq] at ho
    rw [← ho]
    refine Finset.sum_congr rfl fun i _ => ?_
    simp [e1, e2, mul_comm]
  · intro k hk k' hk'
    have e1 : k < n := by omega
    have e2 : k' < n := by omega
    rw [Finset.sum_range]
    have ho := v.inner_eq_ite ⟨k, e1⟩ ⟨k', e2⟩
    rw [PiLp.inner_apply] at ho
    simp only [RCLike.inner_apply, Fin.mk.injEq] at ho
    rw [← ho]
    refine Finset.sum_congr rfl fun i _ => ?_
    simp [e1, e2, mul_comm]
  · intro i hi j hj
    have e0 : a i j = T (EuclideanSpace.single ⟨j, hj⟩ 1) ⟨i, hi⟩ := by
      simp [T, Matrix.toEuclideanLin]
    have e1 := v.sum_repr' (EuclideanSpace.single ⟨j, hj⟩ 1)
    rw [e0, ← e1, map_sum]
    simp only [map_smul, EuclideanSpace.inner_single_right, WithLp.ofLp_sum, Finset.sum_apply, PiLp.smul_apply, smul_eq_mul]
    have key : ∀ g : ℕ → ℂ, (∀ k, m ≤ k → k < n → g k = 0) → ∑ k ∈ range n, g k = ∑ k ∈ range (min m n), g k := by
      intro g hg
      symm
      refine Finset.sum_subset (Finset.range_mono (by omega)) ?_
      intro k hk hk'
      simp at hk hk'
      exact hg k (by omega) hk
    rw [← key]
    · rw [Finset.sum_range]
      refine Finset.sum_congr rfl fun k _ => ?_
      by_cases hk : k.1 < m
      · rw [h1 k hk]
        simp [hk, hi, hj]
        ring
      · rw [h2 k (by omega)]
        simp [hk]
    · intro k hk _
      have : ¬ k < m := by omega
      simp [this]

/-- A function meeting the SVD contract exists. -/
theorem svdLaw_exists : ∃ svd : ND ℂ → Py (ND ℂ × List ℝ × ND ℂ), SVDLaw svd := by
  choose u v s h1 h2 h3 h4 h5 using svd_exists
  refine ⟨fun A => .ok (⟨[A.dim 0, min (A.dim 0) (A.dim 1)], fun idx => u (A.dim 0) (A.dim 1) (fun i j => A.val [i, j]) (idx.getD 0 0) (idx.getD 1 0)⟩,
    (List.range (min (A.dim 0) (A.dim 1))).map (s (A.dim 0) (A.dim 1) (fun i j => A.val [i, j])),
    ⟨[min (A.dim 0) (A.dim 1), A.dim 1], fun idx => v (A.dim 0) (A.dim 1) (fun i j => A.val [i, j]) (idx.getD 0 0) (idx.getD 1 0)⟩), ?_⟩
  intro A m n hA _ _
  have e0 : A.dim 0 = m := by simp [ND.dim, hA]
  have e1 : A.dim 1 = n := by simp [ND.dim, hA]
  simp only [e0, e1]
  refine ⟨_, _, _, rfl, rfl, by simp, rfl, fun k hk k' hk' => h1 m n _ k hk k' hk', fun k hk k' hk' => h2 m n _ k hk k' hk', ?_, ?_, ?_⟩
  · intro x hx
    obtain ⟨k, -, rfl⟩ := List.mem_map.1 hx
    exact h3 m n _ k
  · rw [List.pairwise_map]
    refine List.pairwise_lt_range.imp fun {a b} h => h4 m n _ h.le
  · intro i hi j hj
    rw [h5 m n (fun i j => A.val [i, j]) i hi j hj]
    refine Finset.sum_congr rfl fun k hk => ?_
    have : k < min m n := by simpa using hk
    simp [this]

/-- Every positive semidefinite matrix has an orthonormal basis of eigenvectors, null vectors last. -/
theorem eig_exists (n : ℕ) (a : ℕ → ℕ → ℂ) : ∃ (v : ℕ → ℕ → ℂ) (w : ℕ → ℂ), PosSemi n a →
    (∀ k < n, ∀ k' < n, ∑ i ∈ range n, star (v i k) * v i k' = if k = k' then 1 else 0) ∧
    (∀ i < n, ∀ k < n, ∑ j ∈ range n, a i j * v j k = v i k * w k) ∧
    ∀ i j, i < j → j < n → w i = 0 → w j = 0 := by
  by_cases hp : PosSemi n a
  swap
  · exact ⟨fun _ _ => 0, fun _ => 0, fun h => absurd h hp⟩
  obtain ⟨hh, hpos⟩ := hp
  let M : Matrix (Fin n) (Fin n) ℂ := Matrix.of fun i j => a i.1 j.1
  let T : EuclideanSpace ℂ (Fin n) →ₗ[ℂ] EuclideanSpace ℂ (Fin n) := Matrix.toEuclideanLin M
  have hT : ∀ x i, T x i = ∑ j : Fin n, a i j * x j := by
    intro x i
    simp [T, Matrix.toEuclideanLin, Matrix.mulVec, dotProduct, M]
  have hM : M.IsHermitian := by
    ext i j
    simp [M, hh i.1 i.2 j.1 j.2]
  have hs : T.IsSymmetric := Matrix.isSymmetric_toEuclideanLin_iff.2 hM
  have hn : Module.finrank ℂ (EuclideanSpace ℂ (Fin n)) = n := by simp
  let v := hs.eigenvectorBasis hn
  have hw : ∀ i, 0 ≤ hs.eigenvalues hn i := by
    intro i
    have h1 := hs.apply_eigenvectorBasis hn i
    have h2 : inner ℂ (v i) (T (v i)) = (hs.eigenvalues hn i : ℂ) := by
      rw [show T (v i) = _ from h1, inner_smul_right, v.inner_eq_ite]
      simp
    have h3 := hpos fun j => if h : j < n then v i ⟨j, h⟩ else 0
    have h4 : (∑ k ∈ range n, ∑ j ∈ range n, star (if h : k < n then v i ⟨k, h⟩ else 0) * a k j *
        (if h : j < n then v i ⟨j, h⟩ else 0)) = inner ℂ (v i) (T (v i)) := by
      rw [PiLp.inner_apply, Finset.sum_range]
      refine Finset.sum_congr rfl fun k _ => ?_
      rw [RCLike.inner_apply, hT, Finset.sum_range, Finset.sum_mul]
      refine Finset.sum_congr rfl fun j _ => ?_
      simp
      ring
    rw [h4, h2] at h3
    simpa using h3
  refine ⟨fun i k => if h : k < n ∧ i < n then v ⟨k, h.1⟩ ⟨i, h.2⟩ else 0,
    fun k => if h : k < n then (hs.eigenvalues hn ⟨k, h⟩ : ℂ) else 0, fun _ => ⟨?_, ?_, ?_⟩⟩
  · intro k hk k' hk'
    rw [Finset.sum_range]
    have ho := v.inner_eq_ite ⟨k, hk⟩ ⟨k', hk'⟩
    rw [PiLp.inner_apply] at ho
    simp only [RCLike.inner_apply, Fin.mk.injEq] at ho
    rw [← ho]
    refine Finset.sum_congr rfl fun i _ => ?_
    simp [hk, hk', mul_comm]
  · intro i hi k hk
    have h1 := congrArg (fun x : EuclideanSpace ℂ (Fin n) => x ⟨i, hi⟩) (hs.apply_eigenvectorBasis hn ⟨k, hk⟩)
    simp only [hT, PiLp.smul_apply, smul_eq_mul] at h1
    rw [Finset.sum_range]
    simp only [hk, hi, Fin.is_lt, dite_true, and_self]
    rw [mul_comm]
    exact h1
  · intro i j hij hj h0
    have hi : i < n := by omega
    simp only [hi, hj, dite_true] at h0 ⊢
    have h1 := hs.eigenvalues_antitone hn (show (⟨i, hi⟩ : Fin n) ≤ ⟨j, hj⟩ from hij.le)
    have h2 := hw ⟨j, hj⟩
    have h3 : hs.eigenvalues hn ⟨i, hi⟩ = 0 := by exact_mod_cast h0
    have : hs.eigenvalues hn ⟨j, hj⟩ = 0 := by linarith
    simp [this]

/-- A function meeting the strong eigenvalue contract exists. -/
theorem eigOrthoLaw_exists : ∃ eig : ND ℂ → Py (List ℂ × ND ℂ), EigOrthoLaw eig := by
  choose v w h using eig_exists
  refine ⟨fun A => .ok ((List.range (A.dim 0)).map (w (A.dim 0) (fun i j => A.val [i, j])),
    ⟨[A.dim 0, A.dim 0], fun idx => v (A.dim 0) (fun i j => A.val [i, j]) (idx.getD 0 0) (idx.getD 1 0)⟩), ?_⟩
  intro A n hA _ hp
  have e0 : A.dim 0 = n := by simp [ND.dim, hA]
  simp only [e0]
  obtain ⟨h1, h2, h3⟩ := h n _ hp
  refine ⟨_, _, rfl, by simp, rfl, fun k hk k' hk' => h1 k hk k' hk', ?_, ?_⟩
  · intro i hi k hk
    rw [show (((List.range n).map (w n fun i j => A.val [i, j])).getD k 0) = w n (fun i j => A.val [i, j]) k by simp [hk]]
    exact h2 i hi k hk
  · intro i j hij h0
    by_cases hj : j < n
    · have hi : i < n := by omega
      simp [hi, hj] at h0 ⊢
      exact h3 i j hij hj h0
    · simp [hj]

/-- The strong eigenvalue contract implies the documented one. -/
theorem EigOrthoLaw.eigLaw {eig : ND ℂ → Py (List ℂ × ND ℂ)} (h : EigOrthoLaw eig) : EigLaw eig := by
  intro M n hM hn hp
  obtain ⟨w, V, h1, h2, h3, h4, h5, -⟩ := h M n hM hn hp
  have d0 : V.dim 0 = n := by simp [ND.dim, h3]
  have d1 : V.dim 1 = n := by simp [ND.dim, h3]
  unfold ColsOrtho at h4
  rw [d0, d1] at h4
  refine ⟨w, V, h1, h2, h3, fun k hk => by rw [h4 k hk k hk, if_pos rfl], ?_, h5⟩
  intro c hc k hk
  have : ∑ i ∈ range n, star (V.val [i, k]) * ∑ k' ∈ range n, V.val [i, k'] * c k' = c k := by
    simp only [Finset.mul_sum]
    rw [Finset.sum_comm]
    rw [Finset.sum_congr rfl fun k' hk' => show _ = if k = k' then c k else 0 by
      simp only [← mul_assoc]
      rw [← Finset.sum_mul, h4 k hk k' (by simpa using hk')]
      split
      · next e => rw [e, one_mul]
      · simp]
    simp [hk]
  rw [← this]
  exact Finset.sum_eq_zero fun i hi => by rw [hc i (by simpa using hi), mul_zero]

/-- A function meeting the documented eigenvalue contract exists. -/
theorem eigLaw_exists : ∃ eig : ND ℂ → Py (List ℂ × ND ℂ), EigLaw eig :=
  let ⟨eig, h⟩ := eigOrthoLaw_exists
  ⟨eig, EigOrthoLaw.eigLaw h⟩

end Xmps
