import Verif.Model.Isometry
import Verif.Spec.Lapack
import Verif.Lemmas.CanonBack
import Verif.Lemmas.TwoSite
import Verif.Props.LapackExists
import Mathlib.LinearAlgebra.Matrix.Block
import Mathlib.LinearAlgebra.Matrix.ToLinearEquiv
import Mathlib.Tactic.LinearCombination
import Mathlib.Tactic.IntervalCases

/-!
# `unitary_extension`, `embed` and the unique factorisations
-/

namespace Xmps

open Finset Xmps.Spec

/-! ### null spaces -/

/-- A function with the contract of `null_space` exists. -/
theorem null_exists (m n : ℕ) (a : ℕ → ℕ → ℂ) : ∃ (k : ℕ) (N : ℕ → ℕ → ℂ),
    (∀ c < k, ∀ c' < k, ∑ j ∈ range n, star (N j c) * N j c' = if c = c' then 1 else 0) ∧
    (∀ i < m, ∀ c < k, ∑ j ∈ range n, a i j * N j c = 0) ∧
    ∀ v : ℕ → ℂ, (∀ i < m, ∑ j ∈ range n, a i j * v j = 0) →
      ∀ j < n, v j = ∑ c ∈ range k, N j c * ∑ j' ∈ range n, star (N j' c) * v j' := by
  let W : Submodule ℂ (EuclideanSpace ℂ (Fin n)) :=
    { carrier := {v | ∀ i < m, ∑ j : Fin n, a i j * v j = 0}
      add_mem' := by
        intro v w hv hw i hi
        simp only [PiLp.add_apply, mul_add, Finset.sum_add_distrib, hv i hi, hw i hi, add_zero]
      zero_mem' := by intro i _; simp
      smul_mem' := by
        intro c v hv i hi
        simp only [PiLp.smul_apply, smul_eq_mul]
        rw [Finset.sum_congr rfl fun j _ => mul_left_comm _ _ _, ← Finset.mul_sum, hv i hi, mul_zero] }
  let b := stdOrthonormalBasis ℂ W
  set k := Module.finrank ℂ W with hk
  refine ⟨k, fun j c => if h : j < n ∧ c < k then (b ⟨c, h.2⟩ : EuclideanSpace ℂ (Fin n)) ⟨j, h.1⟩ else 0, ?_, ?_, ?_⟩
  · intro c hc c' hc'
    have ho := b.inner_eq_ite ⟨c, hc⟩ ⟨c', hc'⟩
    rw [Submodule.coe_inner, PiLp.inner_apply] at ho
    simp only [RCLike.inner_apply, Fin.mk.injEq] at ho
    rw [← ho, Finset.sum_range]
    refine Finset.sum_congr rfl fun i _ => ?_
    simp [hc, hc', mul_comm]
  · intro i hi c hc
    have := (b ⟨c, hc⟩).2 i hi
    rw [Finset.sum_range, ← this]
    refine Finset.sum_congr rfl fun j _ => ?_
    simp [hc]
  · intro v hv j hj
    let w : W := ⟨WithLp.toLp 2 fun j : Fin n => v j, fun i hi => by rw [← hv i hi, Finset.sum_range]⟩
    have h2 := congrArg (fun u : W => (u : EuclideanSpace ℂ (Fin n)) ⟨j, hj⟩) (b.sum_repr' w)
    simp only [Submodule.coe_sum, Submodule.coe_smul, WithLp.ofLp_sum, Finset.sum_apply, PiLp.smul_apply, smul_eq_mul] at h2
    have h3 : (w : EuclideanSpace ℂ (Fin n)) ⟨j, hj⟩ = v j := rfl
    rw [h3] at h2
    rw [← h2, Finset.sum_range]
    refine Finset.sum_congr rfl fun c _ => ?_
    rw [Submodule.coe_inner, PiLp.inner_apply, mul_comm]
    simp only [hj, c.2, and_self, dif_pos]
    refine congrArg₂ (· * ·) rfl ?_
    rw [Finset.sum_range]
    refine Finset.sum_congr rfl fun j' _ => ?_
    simp only [RCLike.inner_apply, j'.2, and_self, dif_pos]
    rw [mul_comm]
    rfl

theorem nullLaw_exists : ∃ null : ND ℂ → Py (ND ℂ), NullLaw null := by
  choose k N h1 h2 h3 using null_exists
  refine ⟨fun A => .ok ⟨[A.dim 1, k (A.dim 0) (A.dim 1) (fun i j => A.val [i, j])],
    fun idx => N (A.dim 0) (A.dim 1) (fun i j => A.val [i, j]) (idx.getD 0 0) (idx.getD 1 0)⟩, ?_⟩
  intro A m n hA _ _
  have d0 : A.dim 0 = m := by simp [ND.dim, hA]
  have d1 : A.dim 1 = n := by simp [ND.dim, hA]
  refine ⟨_, _, rfl, by rw [d1], ?_, ?_, ?_⟩
  · intro c hc c' hc'
    simp only [ND.dim, List.getD_cons_succ, List.getD_cons_zero] at hc hc' ⊢
    exact h1 _ _ _ c hc c' hc'
  · rw [d0, d1]
    exact h2 m n _
  · rw [d0, d1]
    exact h3 m n _

theorem concatCols_ok {A B : ND ℂ} {m n k : ℕ} (hA : A.shape = [m, n]) (hB : B.shape = [m, k]) :
    ∃ R, A.concat B 1 = .ok R ∧ R.shape = [m, n + k] ∧ (∀ i j, j < n → R.val [i, j] = A.val [i, j]) ∧
      ∀ i j, R.val [i, n + j] = B.val [i, j] := by
  refine ⟨A.concatR B 1, by simp [ND.concat, ND.rank, hA, hB], by simp [ND.concatR, ND.dim, hA, hB], ?_, ?_⟩
  · intro i j hj
    simp [ND.concatR, ND.dim, hA, hj]
  · intro i j
    simp [ND.concatR, ND.dim, hA]

/-- The columns of an isometry together with a basis of the kernel of its adjoint form a unitary matrix. -/
theorem null_extend {null : ND ℂ → Py (ND ℂ)} (hn : NullLaw null) {Q : ND ℂ} {m n : ℕ} (hQ : Q.shape = [m, n]) (hm : 0 < m) (hn0 : 0 < n)
    (ho : ColsOrtho Q) : ∃ N R, null Q.hc = .ok N ∧ Q.concat N 1 = .ok R ∧ R.shape = [m, m] ∧ n ≤ m ∧ ColsOrtho R ∧ RowsOrtho R ∧
      (∀ i j, j < n → R.val [i, j] = Q.val [i, j]) ∧ N.shape = [m, m - n] := by
  obtain ⟨hc1, hc2'⟩ := hc2 hQ
  obtain ⟨N, k, e, hN, hNo, hNk, hNs⟩ := hn Q.hc n m hc1 hn0 hm
  obtain ⟨R, eR, hR, hR1, hR2⟩ := concatCols_ok hQ hN
  have ho' : ∀ a < n, ∀ b < n, ∑ i ∈ range m, star (Q.val [i, a]) * Q.val [i, b] = if a = b then 1 else 0 := by
    intro a ha b hb
    have := ho a (by simpa [ND.dim, hQ] using ha) b (by simpa [ND.dim, hQ] using hb)
    simpa [ND.dim, hQ] using this
  have hNo' : ∀ a < k, ∀ b < k, ∑ i ∈ range m, star (N.val [i, a]) * N.val [i, b] = if a = b then 1 else 0 := by
    intro a ha b hb
    have := hNo a (by simpa [ND.dim, hN] using ha) b (by simpa [ND.dim, hN] using hb)
    simpa [ND.dim, hN] using this
  have hQN : ∀ a < n, ∀ c < k, ∑ i ∈ range m, star (Q.val [i, a]) * N.val [i, c] = 0 := by
    intro a ha c hc
    rw [← hNk a ha c hc]
    exact Finset.sum_congr rfl fun i _ => by rw [hc2']
  have hNQ : ∀ a < n, ∀ c < k, ∑ i ∈ range m, star (N.val [i, c]) * Q.val [i, a] = 0 := by
    intro a ha c hc
    have := congrArg star (hQN a ha c hc)
    rw [star_sum, star_zero] at this
    rw [← this]
    exact Finset.sum_congr rfl fun i _ => by rw [star_mul', star_star, mul_comm]
  have hcol : ∀ a < n + k, ∀ b < n + k, ∑ i ∈ range m, star (R.val [i, a]) * R.val [i, b] = if a = b then 1 else 0 := by
    intro a ha b hb
    by_cases ha' : a < n
    · by_cases hb' : b < n
      · simp only [hR1 _ _ ha', hR1 _ _ hb', ho' a ha' b hb']
      · obtain ⟨c, rfl⟩ := Nat.exists_eq_add_of_le (Nat.le_of_not_lt hb')
        simp only [hR1 _ _ ha', hR2, hQN a ha' c (by omega)]
        rw [if_neg (by omega)]
    · obtain ⟨c, rfl⟩ := Nat.exists_eq_add_of_le (Nat.le_of_not_lt ha')
      by_cases hb' : b < n
      · simp only [hR1 _ _ hb', hR2, hNQ b hb' c (by omega)]
        rw [if_neg (by omega)]
      · obtain ⟨c', rfl⟩ := Nat.exists_eq_add_of_le (Nat.le_of_not_lt hb')
        simp only [hR2, hNo' c (by omega) c' (by omega), Nat.add_left_cancel_iff]
  have hrow : ∀ i < m, ∀ i' < m, ∑ j ∈ range (n + k), R.val [i, j] * star (R.val [i', j]) = if i = i' then 1 else 0 := by
    intro i hi i' hi'
    rw [Finset.sum_range_add]
    have e1 : ∑ j ∈ range n, R.val [i, j] * star (R.val [i', j]) = ∑ j ∈ range n, Q.val [i, j] * star (Q.val [i', j]) :=
      Finset.sum_congr rfl fun j hj => by rw [hR1 _ _ (mem_range.1 hj), hR1 _ _ (mem_range.1 hj)]
    rw [e1]
    simp only [hR2]
    let v : ℕ → ℂ := fun x => (if x = i' then 1 else 0) - ∑ j ∈ range n, Q.val [x, j] * star (Q.val [i', j])
    have swap : ∀ f : ℕ → ℂ, ∑ x ∈ range m, f x * v x = f i' - ∑ j ∈ range n, (∑ x ∈ range m, f x * Q.val [x, j]) * star (Q.val [i', j]) := by
      intro f
      simp only [v, mul_sub, Finset.sum_sub_distrib]
      refine congrArg₂ (· - ·) ?_ ?_
      · simp [hi']
      · simp only [Finset.mul_sum, Finset.sum_mul]
        rw [Finset.sum_comm]
        exact Finset.sum_congr rfl fun j _ => Finset.sum_congr rfl fun x _ => by ring
    have hv : ∀ a < n, ∑ x ∈ range m, Q.hc.val [a, x] * v x = 0 := by
      intro a ha
      rw [swap, hc2', Finset.sum_congr rfl fun j hj => show _ = (if a = j then star (Q.val [i', j]) else 0) by
        simp only [hc2']
        rw [ho' a ha j (mem_range.1 hj)]
        split <;> simp]
      simp [ha]
    have := hNs v hv i hi
    have e2 : ∀ c ∈ range k, N.val [i, c] * ∑ j' ∈ range m, star (N.val [j', c]) * v j' = N.val [i, c] * star (N.val [i', c]) := by
      intro c hc
      rw [swap, Finset.sum_eq_zero fun j hj => by rw [hNQ j (mem_range.1 hj) c (mem_range.1 hc), zero_mul], sub_zero]
    rw [Finset.sum_congr rfl e2] at this
    rw [← this]
    simp only [v]
    ring
  have hdim : n + k = m := by
    have h1 : ∑ i ∈ range m, ∑ j ∈ range (n + k), R.val [i, j] * star (R.val [i, j]) = (m : ℂ) := by
      rw [Finset.sum_congr rfl fun i hi => hrow i (mem_range.1 hi) i (mem_range.1 hi)]
      simp
    have h2 : ∑ i ∈ range m, ∑ j ∈ range (n + k), R.val [i, j] * star (R.val [i, j]) = ((n + k : ℕ) : ℂ) := by
      rw [Finset.sum_comm, Finset.sum_congr rfl fun j hj => show _ = (1 : ℂ) by
        have := hcol j (mem_range.1 hj) j (mem_range.1 hj)
        rw [if_pos rfl] at this
        rw [← this]
        exact Finset.sum_congr rfl fun i _ => mul_comm _ _]
      simp
    exact_mod_cast h2.symm.trans h1
  refine ⟨N, R, e, eR, by rw [hR, hdim], by omega, ?_, ?_, hR1, by rw [hN, ← hdim]; simp⟩
  · intro a ha b hb
    have d0 : R.dim 0 = m := by simp [ND.dim, hR]
    have d1 : R.dim 1 = n + k := by simp [ND.dim, hR]
    rw [d1] at ha hb
    rw [d0]
    exact hcol a ha b hb
  · intro a ha b hb
    have d0 : R.dim 0 = m := by simp [ND.dim, hR]
    have d1 : R.dim 1 = n + k := by simp [ND.dim, hR]
    rw [d0] at ha hb
    rw [d1]
    exact hrow a ha b hb

theorem hc2_hc {A : ND ℂ} {m n : ℕ} (h : A.shape = [m, n]) : A.hc.hc = A := by
  obtain ⟨sh, v⟩ := A
  subst h
  simp only [ND.hc]
  congr 1
  funext idx
  match idx with
  | [i, j] => simp
  | [] => rfl
  | [_] => rfl
  | _ :: _ :: _ :: _ => rfl

theorem ColsOrtho.hc {Q : ND ℂ} {m n : ℕ} (hQ : Q.shape = [m, n]) (h : ColsOrtho Q) : RowsOrtho Q.hc := by
  obtain ⟨h1, h2⟩ := hc2 hQ
  intro a ha b hb
  have := h a (by simpa [ND.dim, hQ, h1] using ha) b (by simpa [ND.dim, hQ, h1] using hb)
  rw [← this]
  simp only [ND.dim, hQ, h1, h2, star_star, List.getD_cons_zero, List.getD_cons_succ]

theorem RowsOrtho.hc {Q : ND ℂ} {m n : ℕ} (hQ : Q.shape = [m, n]) (h : RowsOrtho Q) : ColsOrtho Q.hc := by
  obtain ⟨h1, h2⟩ := hc2 hQ
  intro a ha b hb
  have := h a (by simpa [ND.dim, hQ, h1] using ha) b (by simpa [ND.dim, hQ, h1] using hb)
  rw [← this]
  simp only [ND.dim, hQ, h1, h2, star_star, List.getD_cons_zero, List.getD_cons_succ]

/-- A square matrix with orthonormal columns has orthonormal rows. -/
theorem ColsOrtho.rows {Q : ND ℂ} {n : ℕ} (hQ : Q.shape = [n, n]) (hn : 0 < n) (h : ColsOrtho Q) : RowsOrtho Q := by
  obtain ⟨null, hnull⟩ := nullLaw_exists
  obtain ⟨N, R, -, -, hR, -, -, hr, hv, -⟩ := null_extend hnull hQ hn hn h
  intro a ha b hb
  have := hr a (by simpa [ND.dim, hQ, hR] using ha) b (by simpa [ND.dim, hQ, hR] using hb)
  rw [← this]
  simp only [ND.dim, hQ, hR, List.getD_cons_zero, List.getD_cons_succ]
  exact Finset.sum_congr rfl fun j hj => by rw [hv _ _ (mem_range.1 hj), hv _ _ (mem_range.1 hj)]

theorem RowsOrtho.cols {Q : ND ℂ} {n : ℕ} (hQ : Q.shape = [n, n]) (hn : 0 < n) (h : RowsOrtho Q) : ColsOrtho Q := by
  obtain ⟨h1, h2⟩ := hc2 hQ
  have := ColsOrtho.rows h1 hn (RowsOrtho.hc hQ h)
  intro a ha b hb
  have := this a (by simpa [ND.dim, hQ, h1] using ha) b (by simpa [ND.dim, hQ, h1] using hb)
  rw [← this]
  simp only [ND.dim, hQ, h1, h2, star_star, List.getD_cons_zero, List.getD_cons_succ]

/-! ### unitary_extension -/

namespace Spec

/-- a square matrix is unitary -/
structure IsUnitary (R : ND ℂ) (n : ℕ) : Prop where
  shape : R.shape = [n, n]
  cols : ColsOrtho R
  rows : RowsOrtho R

end Spec

theorem directSum_eye {R : ND ℂ} {n k : ℕ} (h : IsUnitary R n) : ∃ S, directSum R (eyeND k) = .ok S ∧ IsUnitary S (n + k) ∧
    (∀ i < n, ∀ j < n, S.val [i, j] = R.val [i, j]) ∧
    ∀ i j, (n ≤ i ∨ n ≤ j) → S.val [i, j] = if i = j then 1 else 0 := by
  refine ⟨⟨[n + k, n + k], fun idx => if idx.getD 0 0 < n then (if idx.getD 1 0 < n then R.val idx else 0)
        else if idx.getD 1 0 < n then 0 else (eyeND k : ND ℂ).val [idx.getD 0 0 - n, idx.getD 1 0 - n]⟩, ?_, ⟨rfl, ?_, ?_⟩, ?_, ?_⟩
  · simp [directSum, h.shape, eyeND]
  · intro a ha b hb
    simp only [ND.dim, List.getD_cons_zero, List.getD_cons_succ] at ha hb ⊢
    rw [Finset.sum_range_add]
    have e1 : ∀ i ∈ range n, i < n := fun i hi => mem_range.1 hi
    have hR := h.cols
    simp only [ColsOrtho, ND.dim, h.shape, List.getD_cons_zero, List.getD_cons_succ] at hR
    by_cases ha' : a < n <;> by_cases hb' : b < n
    · simp only [ha', hb', if_true, if_false]
      rw [Finset.sum_congr rfl fun i hi => by rw [if_pos (e1 i hi), if_pos (e1 i hi)], hR a ha' b hb']
      simp
    · simp only [ha', hb', if_true, if_false]
      rw [Finset.sum_eq_zero fun i hi => by rw [if_pos (e1 i hi), if_pos (e1 i hi), mul_zero],
        Finset.sum_eq_zero fun i hi => by rw [if_neg (by omega : ¬ n + i < n), star_zero, zero_mul], if_neg (by omega), add_zero]
    · simp only [ha', hb', if_true, if_false]
      rw [Finset.sum_eq_zero fun i hi => by rw [if_pos (e1 i hi), if_pos (e1 i hi), star_zero, zero_mul],
        Finset.sum_eq_zero fun i hi => by rw [if_neg (by omega : ¬ n + i < n), if_neg (by omega : ¬ n + i < n), mul_zero], if_neg (by omega), add_zero]
    · simp only [ha', hb', if_true, if_false]
      rw [Finset.sum_eq_zero fun i hi => by rw [if_pos (e1 i hi), if_pos (e1 i hi), mul_zero], zero_add]
      have hk : a - n < k := by omega
      simp only [eyeND, show ∀ i, ¬ n + i < n from fun i => by omega, if_false, List.getD_cons_zero, List.getD_cons_succ, Nat.add_sub_cancel_left]
      rw [Finset.sum_congr rfl fun i _ => show _ = if a - n = i then (if a - n = b - n then (1 : ℂ) else 0) else 0 by
        by_cases hx : i = a - n
        · subst hx; simp
        · rw [if_neg hx, if_neg (Ne.symm hx)]; simp]
      rw [Finset.sum_ite_eq, if_pos (mem_range.2 hk)]
      refine if_congr ?_ rfl rfl
      omega
  · intro a ha b hb
    simp only [ND.dim, List.getD_cons_zero, List.getD_cons_succ] at ha hb ⊢
    rw [Finset.sum_range_add]
    have e1 : ∀ i ∈ range n, i < n := fun i hi => mem_range.1 hi
    have hR := h.rows
    simp only [RowsOrtho, ND.dim, h.shape, List.getD_cons_zero, List.getD_cons_succ] at hR
    by_cases ha' : a < n <;> by_cases hb' : b < n
    · simp only [ha', hb', if_true]
      rw [Finset.sum_congr rfl fun i hi => by rw [if_pos (e1 i hi), if_pos (e1 i hi)], hR a ha' b hb']
      simp
    · simp only [ha', hb', if_true, if_false]
      rw [Finset.sum_eq_zero fun i hi => by rw [if_pos (e1 i hi), if_pos (e1 i hi), star_zero, mul_zero],
        Finset.sum_eq_zero fun i hi => by rw [if_neg (by omega : ¬ n + i < n), zero_mul], if_neg (by omega), add_zero]
    · simp only [ha', hb', if_true, if_false]
      rw [Finset.sum_eq_zero fun i hi => by rw [if_pos (e1 i hi), zero_mul],
        Finset.sum_eq_zero fun i hi => by rw [if_neg (by omega : ¬ n + i < n), if_neg (by omega : ¬ n + i < n), star_zero, mul_zero], if_neg (by omega), add_zero]
    · simp only [ha', hb', if_false]
      rw [Finset.sum_eq_zero fun i hi => by rw [if_pos (e1 i hi), zero_mul], zero_add]
      have hk : a - n < k := by omega
      simp only [eyeND, show ∀ i, ¬ n + i < n from fun i => by omega, if_false, List.getD_cons_zero, List.getD_cons_succ, Nat.add_sub_cancel_left]
      rw [Finset.sum_congr rfl fun i _ => show _ = if a - n = i then (if a - n = b - n then (1 : ℂ) else 0) else 0 by
        by_cases hx : a - n = i
        · subst hx; simp [eq_comm]
        · rw [if_neg hx, if_neg hx]; simp]
      rw [Finset.sum_ite_eq, if_pos (mem_range.2 hk)]
      refine if_congr ?_ rfl rfl
      omega
  · intro i hi j hj
    simp [hi, hj]
  · intro i j hij
    simp only [List.getD_cons_zero, List.getD_cons_succ]
    by_cases hi : i < n
    · rw [if_pos hi, if_neg (by omega), if_neg (by omega)]
    · by_cases hj : j < n
      · rw [if_neg hi, if_pos hj, if_neg (by omega)]
      · rw [if_neg hi, if_neg hj]
        simp only [eyeND, List.getD_cons_zero, List.getD_cons_succ]
        refine if_congr ?_ rfl rfl
        omega

/-- **C44** `unitary_extension(Q, D)` of an isometry (orthonormal columns when `Q` is at least as tall as wide, orthonormal rows when at
least as wide as tall): it returns a unitary of size `max(Q.shape)`, or `D` when that is larger, with `Q` as its upper left block and the
identity outside the first `max(Q.shape)` rows and columns. -/
theorem unitaryExtension_spec {null : ND ℂ → Py (ND ℂ)} (hn : NullLaw null) {Q : ND ℂ} {m n : ℕ} (hQ : Q.shape = [m, n]) (hm : 0 < m) (hn0 : 0 < n)
    (ho : (n ≤ m ∧ ColsOrtho Q) ∨ (m ≤ n ∧ RowsOrtho Q)) (D : Option ℕ) :
    ∃ R, unitaryExtension null Q D = .ok R ∧ IsUnitary R (max (max m n) (D.getD 0)) ∧
      (∀ i < m, ∀ j < n, R.val [i, j] = Q.val [i, j]) ∧
      ∀ i j, (max m n ≤ i ∧ i < max (max m n) (D.getD 0) ∧ j < max (max m n) (D.getD 0) ∨
          max m n ≤ j ∧ j < max (max m n) (D.getD 0) ∧ i < max (max m n) (D.getD 0)) → R.val [i, j] = if i = j then 1 else 0 := by
  have d0 : Q.dim 0 = m := by simp [ND.dim, hQ]
  have d1 : Q.dim 1 = n := by simp [ND.dim, hQ]
  obtain ⟨h1, h2⟩ := hc2 hQ
  obtain ⟨N1, _, e1, -⟩ := hn Q m n hQ hm hn0
  obtain ⟨N2, _, e2, -⟩ := hn Q.hc n m h1 hn0 hm
  have key : ∃ R, squareUp Q N1 N2 = .ok R ∧ IsUnitary R (max m n) ∧ ∀ i < m, ∀ j < n, R.val [i, j] = Q.val [i, j] := by
    unfold squareUp
    rw [d0, d1]
    rcases Nat.lt_trichotomy m n with hlt | heq | hgt
    · have ho : RowsOrtho Q := by
        rcases ho with h | h
        · omega
        · exact h.2
      obtain ⟨N, R, eN, eR, hR, hle, hc, hr, hv, -⟩ := null_extend hn h1 hn0 hm (RowsOrtho.hc hQ ho)
      rw [hc2_hc hQ, e1] at eN
      obtain rfl : N1 = N := by injection eN
      obtain ⟨g1, g2⟩ := hc2 hR
      refine ⟨R.hc, by rw [if_neg (by omega), if_pos hlt, eR]; rfl, ⟨by rw [g1, max_eq_right hle], RowsOrtho.hc hR hr, ColsOrtho.hc hR hc⟩, ?_⟩
      intro i hi j hj
      rw [g2, hv j i hi, h2, star_star]
    · subst heq
      refine ⟨Q, by rw [if_neg (by omega), if_neg (by omega)], ?_, fun _ _ _ _ => rfl⟩
      rw [max_self]
      rcases ho with h | h
      · exact ⟨hQ, h.2, ColsOrtho.rows hQ hm h.2⟩
      · exact ⟨hQ, RowsOrtho.cols hQ hm h.2, h.2⟩
    · have ho : ColsOrtho Q := by
        rcases ho with h | h
        · exact h.2
        · omega
      obtain ⟨N, R, eN, eR, hR, hle, hc, hr, hv, -⟩ := null_extend hn hQ hm hn0 ho
      rw [e2] at eN
      obtain rfl : N2 = N := by injection eN
      exact ⟨R, by rw [if_pos hgt, eR], ⟨by rw [hR, max_eq_left hle], hc, hr⟩, fun i _ j hj => hv i j hj⟩
  obtain ⟨R, eR, hU, hv⟩ := key
  have dR : R.dim 0 = max m n := by simp [ND.dim, hU.shape]
  unfold unitaryExtension
  simp only [e1, e2, ok_bind, eR]
  cases D with
  | none =>
    simp only [Option.getD_none, Nat.max_zero]
    exact ⟨R, rfl, hU, hv, fun i j h => by omega⟩
  | some D =>
    simp only [Option.getD_some, dR]
    by_cases hD : D > max m n
    · obtain ⟨S, eS, hS, hv', hid⟩ := directSum_eye (k := D - max m n) hU
      rw [if_pos hD]
      refine ⟨S, eS, ?_, ?_, ?_⟩
      · rw [show max (max m n) D = max m n + (D - max m n) by omega]
        exact hS
      · intro i hi j hj
        rw [hv' i (by omega) j (by omega), hv i hi j hj]
      · intro i j h
        exact hid i j (by omega)
    · rw [if_neg hD]
      refine ⟨R, rfl, ?_, hv, fun i j h => by omega⟩
      rw [show max (max m n) D = max m n by omega]
      exact hU

/-! ### embed and deembed -/

theorem concatRows_ok {A B : ND ℂ} {m k n : ℕ} (hA : A.shape = [m, n]) (hB : B.shape = [k, n]) :
    ∃ R, A.concat B 0 = .ok R ∧ R.shape = [m + k, n] ∧ (∀ i j, i < m → R.val [i, j] = A.val [i, j]) ∧
      ∀ i j, R.val [m + i, j] = B.val [i, j] := by
  refine ⟨A.concatR B 0, by simp [ND.concat, ND.rank, hA, hB], by simp [ND.concatR, ND.dim, hA, hB], ?_, ?_⟩
  · intro i j hj
    simp [ND.concatR, ND.dim, hA, hj]
  · intro i j
    simp [ND.concatR, ND.dim, hA]

theorem IsUnitary.conj {R S : ND ℂ} {n : ℕ} (h : IsUnitary R n) (hS : S.shape = [n, n])
    (hv : ∀ i < n, ∀ j < n, S.val [i, j] = star (R.val [i, j])) : IsUnitary S n := by
  have hc := h.cols
  have hr := h.rows
  simp only [ColsOrtho, RowsOrtho, ND.dim, h.shape, List.getD_cons_zero, List.getD_cons_succ] at hc hr
  refine ⟨hS, ?_, ?_⟩
  · intro a ha b hb
    simp only [ND.dim, hS, List.getD_cons_zero, List.getD_cons_succ] at ha hb ⊢
    have := congrArg star (hc a ha b hb)
    rw [star_sum] at this
    rw [Finset.sum_congr rfl fun i hi => show _ = star (star (R.val [i, a]) * R.val [i, b]) by
      rw [hv i (mem_range.1 hi) a ha, hv i (mem_range.1 hi) b hb, star_mul'], this]
    split <;> simp
  · intro a ha b hb
    simp only [ND.dim, hS, List.getD_cons_zero, List.getD_cons_succ] at ha hb ⊢
    have := congrArg star (hr a ha b hb)
    rw [star_sum] at this
    rw [Finset.sum_congr rfl fun i hi => show _ = star (R.val [a, i] * star (R.val [b, i])) by
      rw [hv a ha i (mem_range.1 hi), hv b hb i (mem_range.1 hi), star_mul'], this]
    split <;> simp

theorem ND.norm_sq (v : ND ℂ) : (v.norm : ℂ) * v.norm = ∑ k ∈ range v.size, v.val (unravel v.shape k) * star (v.val (unravel v.shape k)) := by
  have h0 : 0 ≤ sumIdx v.shape fun idx => Complex.normSq (v.val idx) := by
    rw [sumIdx_eq_range]
    exact Finset.sum_nonneg fun _ _ => Complex.normSq_nonneg _
  rw [← Complex.ofReal_mul, ND.norm, Real.mul_self_sqrt h0, sumIdx_eq_range, Complex.ofReal_sum]
  exact Finset.sum_congr rfl fun k _ => (Complex.mul_conj _).symm

theorem ND.norm_pos {v : ND ℂ} {idx : List ℕ} (hi : InB v.shape idx) (h : v.val idx ≠ 0) : v.norm ≠ 0 := by
  intro h0
  have := v.norm_sq
  rw [h0, Complex.ofReal_zero, zero_mul] at this
  rw [Finset.sum_congr rfl fun k _ => show v.val (unravel v.shape k) * star (v.val (unravel v.shape k)) =
      ((Complex.normSq (v.val (unravel v.shape k)) : ℝ) : ℂ) from Complex.mul_conj _,
    ← Complex.ofReal_sum, eq_comm, Complex.ofReal_eq_zero, Finset.sum_eq_zero_iff_of_nonneg fun _ _ => Complex.normSq_nonneg _] at this
  have := this (ravel v.shape idx) (mem_range.2 (ravel_lt hi))
  rw [unravel_ravel hi, Complex.normSq_eq_zero] at this
  exact h this

/-- **C57** `embed(v)` for a non-zero array `v` with `n` entries: an `n` by `n` unitary whose first column lists the entries of `v / norm(v)`. -/
theorem embed_spec {null : ND ℂ → Py (ND ℂ)} (hn : NullLaw null) {v : ND ℂ} {idx : List ℕ} (hi : InB v.shape idx) (h : v.val idx ≠ 0) :
    ∃ U, embed null v = .ok U ∧ IsUnitary U v.size ∧ ∀ is, InB v.shape is → U.val [ravel v.shape is, 0] = v.val is / v.norm := by
  set n := v.size with hnd
  have hpos : 0 < n := lt_of_le_of_lt (Nat.zero_le _) (ravel_lt hi)
  have hnorm := ND.norm_pos hi h
  set r : ND ℂ := (v.reshapeR [1, n]).smul ((v.norm : ℂ)⁻¹) with hr
  have hrs : r.shape = [1, n] := rfl
  have hrv : ∀ k < n, r.val [0, k] = (v.norm : ℂ)⁻¹ * v.val (unravel v.shape k) := by
    intro k hk
    simp [hr, ND.smul, ND.reshapeR, Nat.mod_eq_of_lt hk]
  have hro : RowsOrtho r := by
    intro a ha b hb
    simp only [ND.dim, hrs, List.getD_cons_zero, List.getD_cons_succ] at ha hb ⊢
    obtain rfl : a = 0 := by omega
    obtain rfl : b = 0 := by omega
    rw [if_pos rfl, Finset.sum_congr rfl fun k hk => show _ = (v.norm : ℂ)⁻¹ * (v.norm : ℂ)⁻¹ *
        (v.val (unravel v.shape k) * star (v.val (unravel v.shape k))) by
      rw [hrv k (mem_range.1 hk), star_mul', star_inv₀, Complex.star_def, Complex.conj_ofReal]; ring, ← Finset.mul_sum, ← v.norm_sq]
    have : (v.norm : ℂ) ≠ 0 := by exact_mod_cast hnorm
    field_simp
  obtain ⟨h1, h2⟩ := hc2 hrs
  obtain ⟨N, R, eN, eR, hR, hle, hc, hrow, hv, hNs⟩ := null_extend hn h1 hpos Nat.one_pos (RowsOrtho.hc hrs hro)
  rw [hc2_hc hrs] at eN
  obtain ⟨g1, g2⟩ := hc2 hNs
  obtain ⟨t, et, hts, ht1, ht2⟩ := concatRows_ok hrs g1
  obtain ⟨R', eR', -, hR1, hR2⟩ := concatCols_ok h1 hNs
  rw [eR] at eR'
  obtain rfl : R = R' := by injection eR'
  have hts' : t.shape = [n, n] := by rw [hts]; congr 1; omega
  refine ⟨t.transposeR [1, 0], ?_, ?_, ?_⟩
  · unfold embed
    rw [ND.reshape_ok (by simp [hnd, ND.size]), ok_bind]
    simp only [← hnd, ← hr, eN, et, ok_bind]
    simp [ND.transpose, ND.rank, hts', ND.isPerm]
  · refine IsUnitary.conj ⟨hR, hc, hrow⟩ (by simp [ND.dim, hts']) ?_
    intro i hi' j hj
    have : (t.transposeR [1, 0]).val [i, j] = t.val [j, i] := by
      simp [ND.transposeR, ND.rank, hts', List.range_succ]
    rw [this]
    by_cases hj0 : j < 1
    · obtain rfl : j = 0 := by omega
      rw [ht1 0 i (by omega), hR1 i 0 (by omega), h2, star_star]
    · obtain ⟨c, rfl⟩ := Nat.exists_eq_add_of_le (Nat.le_of_not_lt hj0)
      rw [ht2, hR2, g2]
  · intro is his
    have hk : ravel v.shape is < n := ravel_lt his
    have : (t.transposeR [1, 0]).val [ravel v.shape is, 0] = t.val [0, ravel v.shape is] := by
      simp [ND.transposeR, ND.rank, hts', List.range_succ]
    rw [this, ht1 _ _ (by omega), hrv _ hk, unravel_ravel his]
    ring

/-- **C57** `deembed(embed(v)) == v / norm(v)` for every non-zero 2 by 2 matrix. -/
theorem deembed_embed {null : ND ℂ → Py (ND ℂ)} (hn : NullLaw null) {v : ND ℂ} (hs : v.shape = [2, 2])
    {a b : ℕ} (ha : a < 2) (hb : b < 2) (h : v.val [a, b] ≠ 0) :
    ∃ U w, embed null v = .ok U ∧ deembed U = .ok w ∧ w.shape = [2, 2] ∧ ∀ i < 2, ∀ j < 2, w.val [i, j] = v.val [i, j] / v.norm := by
  obtain ⟨U, e, hU, hv⟩ := embed_spec hn (idx := [a, b]) (by rw [hs]; exact ⟨ha, hb, trivial⟩) h
  have h4 : v.size = 4 := by simp [ND.size, hs]
  rw [h4] at hU
  refine ⟨U, ND.reshapeR ⟨[4], fun idx => U.val [idx.getD 0 0, 0]⟩ [2, 2], e, ?_, rfl, ?_⟩
  · unfold deembed
    rw [hU.shape]
    exact ND.reshape_ok rfl
  · intro i hi j hj
    rw [← hv [i, j] (by rw [hs]; exact ⟨hi, hj, trivial⟩), hs]
    simp only [ND.reshapeR, ravel_cons, ravel_nil, List.prod_cons, List.prod_nil, unravel_cons, unravel_nil, List.getD_cons_zero]
    simp

/-! ### uqr and urq -/

theorem npSign_mul_self {z : ℂ} (h : z ≠ 0) : npSign z * npSign z = 1 := by
  unfold npSign
  by_cases hr : z.re = 0
  · have hi : z.im ≠ 0 := fun hi => h (Complex.ext hr hi)
    rw [if_neg (by simpa using hr)]
    rcases lt_or_gt_of_ne hi with hi | hi <;> simp [hi]
  · rw [if_pos hr]
    rcases lt_or_gt_of_ne hr with hi | hi <;> simp [hi]

theorem npSign_star (z : ℂ) : star (npSign z) = npSign z := by
  unfold npSign
  split <;> simp

theorem npSign_zero : npSign 0 = 0 := by simp [npSign]

/-- the sign of a real number makes it positive -/
theorem npSign_mul_real {z : ℂ} (hi : z.im = 0) : npSign z * z = ((|z.re| : ℝ) : ℂ) := by
  have hz : z = ((z.re : ℝ) : ℂ) := Complex.ext rfl (by simpa using hi)
  unfold npSign
  by_cases hr : z.re = 0
  · rw [hz]; simp [hr]
  · rw [if_pos hr]
    rcases lt_or_gt_of_ne hr with h | h
    · conv_lhs => rw [hz]
      simp [h, abs_of_neg h]
    · conv_lhs => rw [hz]
      simp [h, abs_of_pos h]

theorem signDiag_ok {r : ND ℂ} {m n : ℕ} (h : r.shape = [m, n]) : ∃ O, signDiag r = .ok O ∧ O.shape = [min m n, min m n] ∧
    ∀ i j, O.val [i, j] = if i = j then npSign (r.val [i, i]) else 0 :=
  ⟨_, by simp only [signDiag, h]; rfl, rfl, fun _ _ => rfl⟩

namespace Spec

/-- `Q R = A` with orthonormal columns of `Q` and upper triangular `R` -/
structure QRFact (A Q R : ND ℂ) (m n : ℕ) : Prop where
  q : Q.shape = [m, min m n]
  r : R.shape = [min m n, n]
  ortho : ColsOrtho Q
  prod : ∀ i < m, ∀ j < n, A.val [i, j] = ∑ k ∈ range (min m n), Q.val [i, k] * R.val [k, j]
  upper : ∀ k < min m n, ∀ j < k, R.val [k, j] = 0

/-- the columns of a matrix are linearly independent -/
def ColsIndep (A : ND ℂ) (m n : ℕ) : Prop :=
  ∀ c : ℕ → ℂ, (∀ i < m, ∑ j ∈ range n, A.val [i, j] * c j = 0) → ∀ j < n, c j = 0

end Spec

/-- The factors after moving a sign from each row of `R` to the column of `Q`. -/
theorem uqr_step {qr : ND ℂ → Py (ND ℂ × ND ℂ)} {A Q R : ND ℂ} {m n : ℕ} (e : qr A = .ok (Q, R)) (h : QRFact A Q R m n) :
    ∃ Q' R', uqr qr A = .ok (Q', R') ∧ Q'.shape = [m, min m n] ∧ R'.shape = [min m n, n] ∧
      (∀ i, ∀ k < min m n, Q'.val [i, k] = Q.val [i, k] * npSign (R.val [k, k])) ∧
      ∀ k < min m n, ∀ j, R'.val [k, j] = npSign (R.val [k, k]) * R.val [k, j] := by
  obtain ⟨O, eO, hO, hOv⟩ := signDiag_ok h.r
  have hO : O.shape = [min m n, min m n] := by rw [hO]; congr 1 <;> [skip; congr 1] <;> omega
  obtain ⟨Q', eQ, hQ, hQv⟩ := ND.matmul22 h.q hO
  obtain ⟨R', eR, hR, hRv⟩ := ND.matmul22 hO h.r
  refine ⟨Q', R', ?_, hQ, hR, ?_, ?_⟩
  · unfold uqr
    simp only [e, ok_bind, eO, eQ, eR]
  · intro i k hk
    rw [hQv, Finset.sum_congr rfl fun c _ => show _ = if c = k then Q.val [i, k] * npSign (R.val [k, k]) else 0 by
      rw [hOv]; split
      · next hck => rw [hck]
      · simp]
    rw [Finset.sum_ite_eq' (range (min m n)) k, if_pos (mem_range.2 hk)]
  · intro k hk j
    rw [hRv, Finset.sum_congr rfl fun c _ => show _ = if k = c then npSign (R.val [k, k]) * R.val [k, j] else 0 by
      rw [hOv]; split
      · next hck => rw [← hck]
      · simp]
    rw [Finset.sum_ite_eq, if_pos (mem_range.2 hk)]

theorem QRLaw.fact {qr : ND ℂ → Py (ND ℂ × ND ℂ)} (hqr : QRLaw qr) {A : ND ℂ} {m n : ℕ} (hA : A.shape = [m, n]) (hm : 0 < m) (hn : 0 < n) :
    ∃ Q R, qr A = .ok (Q, R) ∧ QRFact A Q R m n := by
  obtain ⟨Q, R, e, h1, h2, h3, h4, h5⟩ := hqr A m n hA hm hn
  exact ⟨Q, R, e, h1, h2, h3, h4, h5⟩

/-- **C58** `uqr(A)` when no diagonal entry of the `R` found by `qr` vanishes: again a QR factorisation of `A`. -/
theorem uqr_fact {qr : ND ℂ → Py (ND ℂ × ND ℂ)} {A Q R : ND ℂ} {m n : ℕ} (e : qr A = .ok (Q, R)) (h : QRFact A Q R m n)
    (hd : ∀ k < min m n, R.val [k, k] ≠ 0) : ∃ Q' R', uqr qr A = .ok (Q', R') ∧ QRFact A Q' R' m n ∧
      ∀ k < min m n, (R.val [k, k]).im = 0 → R'.val [k, k] = ((|(R.val [k, k]).re| : ℝ) : ℂ) := by
  obtain ⟨Q', R', e', hQ, hR, hQv, hRv⟩ := uqr_step e h
  refine ⟨Q', R', e', ⟨hQ, hR, ?_, ?_, ?_⟩, fun k hk hi => by rw [hRv k hk, npSign_mul_real hi]⟩
  · have ho := h.ortho
    simp only [ColsOrtho, ND.dim, h.q, hQ, List.getD_cons_zero, List.getD_cons_succ] at ho ⊢
    intro a ha b hb
    rw [Finset.sum_congr rfl fun i _ => show _ = (npSign (R.val [a, a]) * npSign (R.val [b, b])) * (star (Q.val [i, a]) * Q.val [i, b]) by
      rw [hQv i a ha, hQv i b hb, star_mul', npSign_star]; ring, ← Finset.mul_sum, ho a ha b hb]
    by_cases hab : a = b
    · subst hab
      rw [if_pos rfl, mul_one, npSign_mul_self (hd a ha)]
    · rw [if_neg hab, mul_zero]
  · intro i hi j hj
    rw [h.prod i hi j hj]
    refine Finset.sum_congr rfl fun k hk => ?_
    rw [hQv i k (mem_range.1 hk), hRv k (mem_range.1 hk)]
    have := npSign_mul_self (hd k (mem_range.1 hk))
    linear_combination (-(Q.val [i, k] * R.val [k, j])) * this
  · intro k hk j hj
    rw [hRv k hk, h.upper k hk j hj, mul_zero]

/-- **C58, negation** when a diagonal entry of `R` vanishes, the first factor returned by `uqr(A)` has a zero column: its columns are not
orthonormal. -/
theorem uqr_degenerate {qr : ND ℂ → Py (ND ℂ × ND ℂ)} {A Q R : ND ℂ} {m n : ℕ} (e : qr A = .ok (Q, R)) (h : QRFact A Q R m n)
    {k : ℕ} (hk : k < min m n) (hd : R.val [k, k] = 0) : ∃ Q' R', uqr qr A = .ok (Q', R') ∧ (∀ i, Q'.val [i, k] = 0) ∧ ¬ ColsOrtho Q' := by
  obtain ⟨Q', R', e', hQ, hR, hQv, hRv⟩ := uqr_step e h
  have h0 : ∀ i, Q'.val [i, k] = 0 := fun i => by rw [hQv i k hk, hd, npSign_zero, mul_zero]
  refine ⟨Q', R', e', h0, fun ho => ?_⟩
  have hk' : k < Q'.dim 1 := by simpa [ND.dim, hQ] using hk
  have := ho k hk' k hk'
  rw [if_pos rfl, Finset.sum_eq_zero fun i _ => by rw [h0, mul_zero]] at this
  exact zero_ne_one this

theorem _root_.Xmps.Spec.QRFact.gram {A Q R : ND ℂ} {m n : ℕ} (h : QRFact A Q R m n) {a b : ℕ} (ha : a < n) (hb : b < n) :
    ∑ i ∈ range m, star (A.val [i, a]) * A.val [i, b] = ∑ k ∈ range (min m n), star (R.val [k, a]) * R.val [k, b] := by
  have ho := h.ortho
  simp only [ColsOrtho, ND.dim, h.q, List.getD_cons_zero, List.getD_cons_succ] at ho
  have e1 : ∀ i ∈ range m, star (A.val [i, a]) * A.val [i, b] =
      ∑ k ∈ range (min m n), ∑ k' ∈ range (min m n), star (R.val [k, a]) * R.val [k', b] * (star (Q.val [i, k]) * Q.val [i, k']) := by
    intro i hi
    rw [h.prod i (mem_range.1 hi) a ha, h.prod i (mem_range.1 hi) b hb, star_sum, Finset.sum_mul_sum]
    refine Finset.sum_congr rfl fun k _ => Finset.sum_congr rfl fun k' _ => ?_
    rw [star_mul']
    ring
  rw [Finset.sum_congr rfl e1, Finset.sum_comm]
  refine Finset.sum_congr rfl fun k hk => ?_
  rw [Finset.sum_comm]
  rw [Finset.sum_congr rfl fun k' hk' => show _ = if k = k' then star (R.val [k, a]) * R.val [k', b] else 0 by
    rw [← Finset.mul_sum, ho k (mem_range.1 hk) k' (mem_range.1 hk')]; split <;> simp]
  rw [Finset.sum_ite_eq, if_pos hk]

/-- A QR factorisation of a tall matrix with positive diagonal is unique. -/
theorem _root_.Xmps.Spec.QRFact.unique {A Q R Q' R' : ND ℂ} {m n : ℕ} (hmn : n ≤ m) (h : QRFact A Q R m n) (h' : QRFact A Q' R' m n) {p p' : ℕ → ℝ}
    (hp : ∀ k < n, 0 < p k ∧ R.val [k, k] = p k) (hp' : ∀ k < n, 0 < p' k ∧ R'.val [k, k] = p' k) :
    (∀ k < n, ∀ j < n, R'.val [k, j] = R.val [k, j]) ∧ ∀ i < m, ∀ k < n, Q'.val [i, k] = Q.val [i, k] := by
  have hmin : min m n = n := by omega
  -- the Gram matrix up to the diagonal
  have cut : ∀ {Q R : ND ℂ}, QRFact A Q R m n → ∀ a < n, ∀ b < n,
      ∑ i ∈ range m, star (A.val [i, a]) * A.val [i, b] = (∑ k ∈ range a, star (R.val [k, a]) * R.val [k, b]) + star (R.val [a, a]) * R.val [a, b] := by
    intro Q R h a ha b hb
    rw [h.gram ha hb, hmin, ← Finset.sum_range_succ]
    symm
    refine Finset.sum_subset (fun x hx => mem_range.2 (by have := mem_range.1 hx; omega)) ?_
    intro k hk hk'
    have hk := mem_range.1 hk
    have hk' : a < k := by
      by_contra hc
      exact hk' (mem_range.2 (by omega))
    rw [h.upper k (by omega) a hk', star_zero, zero_mul]
  have hR' : ∀ k < n, ∀ j < n, R'.val [k, j] = R.val [k, j] := by
    intro k
    induction k using Nat.strong_induction_on with
    | _ k ih =>
      intro hk j hj
      have c : ∀ b < n, star (R.val [k, k]) * R.val [k, b] = star (R'.val [k, k]) * R'.val [k, b] := by
        intro b hb
        have := (cut h k hk b hb).symm.trans (cut h' k hk b hb)
        rw [Finset.sum_congr rfl fun x hx => by
          rw [← ih x (mem_range.1 hx) (by have := mem_range.1 hx; omega) k hk, ← ih x (mem_range.1 hx) (by have := mem_range.1 hx; omega) b hb]] at this
        exact add_left_cancel this
      have hd := c k hk
      rw [(hp _ hk).2, (hp' _ hk).2] at hd
      simp only [Complex.star_def, Complex.conj_ofReal, ← Complex.ofReal_mul, Complex.ofReal_inj] at hd
      have hpp : p k = p' k := by nlinarith [(hp _ hk).1, (hp' _ hk).1]
      have := c j hj
      rw [(hp _ hk).2, (hp' _ hk).2, hpp] at this
      have hne : star ((p' k : ℝ) : ℂ) ≠ 0 := by
        rw [Complex.star_def, Complex.conj_ofReal]
        exact_mod_cast (hp' _ hk).1.ne'
      exact (mul_left_cancel₀ hne this).symm
  refine ⟨hR', fun i hi k => ?_⟩
  -- the columns, from the left
  have cutA : ∀ {Q R : ND ℂ}, QRFact A Q R m n → ∀ j < n, A.val [i, j] = (∑ k ∈ range j, Q.val [i, k] * R.val [k, j]) + Q.val [i, j] * R.val [j, j] := by
    intro Q R h j hj
    rw [h.prod i hi j hj, hmin, ← Finset.sum_range_succ]
    symm
    refine Finset.sum_subset (fun x hx => mem_range.2 (by have := mem_range.1 hx; omega)) ?_
    intro k hk hk'
    have hk := mem_range.1 hk
    have hk' : j < k := by
      by_contra hc
      exact hk' (mem_range.2 (by omega))
    rw [h.upper k (by omega) j hk', mul_zero]
  induction k using Nat.strong_induction_on with
  | _ k ih =>
    intro hk
    have c := (cutA h k hk).symm.trans (cutA h' k hk)
    rw [Finset.sum_congr rfl fun x hx => by
      rw [← ih x (mem_range.1 hx) (by have := mem_range.1 hx; omega), ← hR' x (by have := mem_range.1 hx; omega) k hk], hR' k hk k hk] at c
    have c := add_left_cancel c
    have hne : R.val [k, k] ≠ 0 := by
      rw [(hp k hk).2]
      exact_mod_cast (hp k hk).1.ne'
    exact (mul_right_cancel₀ hne c).symm

/-- The triangular factor of a matrix with independent columns has no zero on its diagonal. -/
theorem _root_.Xmps.Spec.QRFact.diag_ne {A Q R : ND ℂ} {m n : ℕ} (hmn : n ≤ m) (h : QRFact A Q R m n) (hi : ColsIndep A m n) : ∀ k < n, R.val [k, k] ≠ 0 := by
  have hmin : min m n = n := by omega
  let M : Matrix (Fin n) (Fin n) ℂ := Matrix.of fun i j => R.val [i, j]
  have hM : M.det = ∏ i, M i i := Matrix.det_of_isUpperTriangular (by
    intro i j hij
    exact h.upper i (by omega) j hij)
  have hdet : M.det ≠ 0 := by
    intro h0
    obtain ⟨v, hv0, hv⟩ := Matrix.exists_mulVec_eq_zero_iff.2 h0
    apply hv0
    let c : ℕ → ℂ := fun j => if hj : j < n then v ⟨j, hj⟩ else 0
    have hRc : ∀ k < n, ∑ j ∈ range n, R.val [k, j] * c j = 0 := by
      intro k hk
      have := congrFun hv ⟨k, hk⟩
      rw [Finset.sum_range]
      simpa [M, Matrix.mulVec, dotProduct, c] using this
    have := hi c (by
      intro i hi
      rw [Finset.sum_congr rfl fun j hj => by rw [h.prod i hi j (mem_range.1 hj), Finset.sum_mul], Finset.sum_comm]
      refine Finset.sum_eq_zero fun k hk => ?_
      rw [Finset.sum_congr rfl fun j _ => mul_assoc _ _ _, ← Finset.mul_sum, hRc k (by have := mem_range.1 hk; omega), mul_zero])
    funext j
    have := this j j.2
    simpa [c] using this
  rw [hM, Finset.prod_ne_zero_iff] at hdet
  exact fun k hk => hdet ⟨k, hk⟩ (mem_univ _)

/-- **C58** `uqr(A)` for a matrix with independent columns, whichever QR factorisation with a real diagonal LAPACK finds: the result is a QR
factorisation of `A` with positive diagonal, and any other such factorisation is equal to it. -/
theorem uqr_unique {qr : ND ℂ → Py (ND ℂ × ND ℂ)} (hqr : QRLaw qr) (hreal : ∀ A Q R, qr A = .ok (Q, R) → ∀ k < R.dim 0, (R.val [k, k]).im = 0)
    {A : ND ℂ} {m n : ℕ} (hA : A.shape = [m, n]) (hn : 0 < n) (hmn : n ≤ m) (hi : ColsIndep A m n) :
    ∃ Q R, uqr qr A = .ok (Q, R) ∧ QRFact A Q R m n ∧ (∃ p : ℕ → ℝ, ∀ k < n, 0 < p k ∧ R.val [k, k] = p k) ∧
      ∀ Q' R', QRFact A Q' R' m n → (∃ p : ℕ → ℝ, ∀ k < n, 0 < p k ∧ R'.val [k, k] = p k) →
        (∀ k < n, ∀ j < n, R'.val [k, j] = R.val [k, j]) ∧ ∀ i < m, ∀ k < n, Q'.val [i, k] = Q.val [i, k] := by
  obtain ⟨Q0, R0, e, h0⟩ := QRLaw.fact hqr hA (by omega) hn
  have hne := h0.diag_ne hmn hi
  have hmin : min m n = n := by omega
  obtain ⟨Q, R, e', h, hd⟩ := uqr_fact e h0 (by rw [hmin]; exact hne)
  have hreal : ∀ k < n, (R0.val [k, k]).im = 0 := fun k hk => hreal _ _ _ e k (by simpa [ND.dim, h0.r] using ⟨by omega, hk⟩)
  have hp : ∀ k < n, 0 < |(R0.val [k, k]).re| ∧ R.val [k, k] = ((|(R0.val [k, k]).re| : ℝ) : ℂ) := by
    intro k hk
    refine ⟨abs_pos.2 fun hre => hne k hk (Complex.ext hre (hreal k hk)), hd k (by omega) (hreal k hk)⟩
  exact ⟨Q, R, e', h, ⟨_, hp⟩, fun Q' R' h' ⟨p', hp'⟩ => h.unique hmn h' hp hp'⟩

/-- **C58** `urq(A)` when no diagonal entry of the `R` found by `rq` vanishes: `A = R Q` again, with orthonormal rows of `Q`. -/
theorem urq_fact {qr rq : ND ℂ → Py (ND ℂ × ND ℂ)} (hqr : QRLaw qr) (hrq : RQLaw rq) {A : ND ℂ} {m n : ℕ} (hA : A.shape = [m, n]) (hm : 0 < m)
    (hn : 0 < n) (hd : ∀ R Q, rq A = .ok (R, Q) → ∀ k < min m n, R.val [k, k] ≠ 0) :
    ∃ R Q, urq qr rq A = .ok (R, Q) ∧ R.shape = [m, min m n] ∧ Q.shape = [min m n, n] ∧ RowsOrtho Q ∧
      ∀ i < m, ∀ j < n, A.val [i, j] = ∑ k ∈ range (min m n), R.val [i, k] * Q.val [k, j] := by
  obtain ⟨_, _, eq, -⟩ := hqr A m n hA hm hn
  obtain ⟨R, Q, e, hR, hQ, ho, hprod⟩ := hrq A m n hA hm hn
  have hne := hd R Q e
  obtain ⟨O, eO, hO, hOv⟩ := signDiag_ok hR
  have hO : O.shape = [min m n, min m n] := by rw [hO]; congr 1 <;> [skip; congr 1] <;> omega
  obtain ⟨R', eR, hR', hRv⟩ := ND.matmul22 hR hO
  obtain ⟨Q', eQ, hQ', hQv⟩ := ND.matmul22 hO hQ
  have hRv : ∀ i, ∀ k < min m n, R'.val [i, k] = R.val [i, k] * npSign (R.val [k, k]) := by
    intro i k hk
    rw [hRv, Finset.sum_congr rfl fun c _ => show _ = if c = k then R.val [i, k] * npSign (R.val [k, k]) else 0 by
      rw [hOv]; split
      · next hck => rw [hck]
      · simp]
    rw [Finset.sum_ite_eq' (range (min m n)) k, if_pos (mem_range.2 hk)]
  have hQv : ∀ k < min m n, ∀ j, Q'.val [k, j] = npSign (R.val [k, k]) * Q.val [k, j] := by
    intro k hk j
    rw [hQv, Finset.sum_congr rfl fun c _ => show _ = if k = c then npSign (R.val [k, k]) * Q.val [k, j] else 0 by
      rw [hOv]; split
      · next hck => rw [← hck]
      · simp]
    rw [Finset.sum_ite_eq, if_pos (mem_range.2 hk)]
  refine ⟨R', Q', ?_, hR', hQ', ?_, ?_⟩
  · unfold urq
    simp only [e, eq, ok_bind, eO, eQ, eR]
  · simp only [RowsOrtho, ND.dim, hQ, hQ', List.getD_cons_zero, List.getD_cons_succ] at ho ⊢
    intro a ha b hb
    rw [Finset.sum_congr rfl fun i _ => show _ = (npSign (R.val [a, a]) * npSign (R.val [b, b])) * (Q.val [a, i] * star (Q.val [b, i])) by
      rw [hQv a ha, hQv b hb, star_mul', npSign_star]; ring, ← Finset.mul_sum, ho a ha b hb]
    by_cases hab : a = b
    · subst hab
      rw [if_pos rfl, mul_one, npSign_mul_self (hne a ha)]
    · rw [if_neg hab, mul_zero]
  · intro i hi j hj
    rw [hprod i hi j hj]
    refine Finset.sum_congr rfl fun k hk => ?_
    rw [hRv i k (mem_range.1 hk), hQv k (mem_range.1 hk)]
    have := npSign_mul_self (hne k (mem_range.1 hk))
    linear_combination (-(R.val [i, k] * Q.val [k, j])) * this

/-- QR factorisations with a real diagonal, as LAPACK returns them, exist. -/
theorem realQR_exists : ∃ qr : ND ℂ → Py (ND ℂ × ND ℂ), QRLaw qr ∧ ∀ A Q R, qr A = .ok (Q, R) → ∀ k < R.dim 0, (R.val [k, k]).im = 0 := by
  choose q r h1 h2 h3 using qr_exists
  let u : ℂ → ℂ := fun z => if z = 0 then 1 else z / (‖z‖ : ℝ)
  have hu : ∀ z, u z * star (u z) = 1 := by
    intro z
    simp only [u]
    split
    · simp
    · next h =>
      have : ((‖z‖ : ℝ) : ℂ) ≠ 0 := by exact_mod_cast (norm_ne_zero_iff.2 h)
      rw [star_div₀, Complex.star_def, Complex.conj_ofReal, div_mul_div_comm, Complex.mul_conj, Complex.normSq_eq_norm_sq]
      field_simp
      push_cast
      ring
  have hre : ∀ z, (star (u z) * z).im = 0 := by
    intro z
    simp only [u]
    split
    · next h => simp [h]
    · rw [star_div₀, Complex.star_def, Complex.conj_ofReal, div_mul_eq_mul_div, mul_comm, Complex.mul_conj, ← Complex.ofReal_div, Complex.ofReal_im]
  refine ⟨fun A => .ok (
    ⟨[A.dim 0, min (A.dim 0) (A.dim 1)], fun idx => q (A.dim 0) (A.dim 1) (fun i j => A.val [i, j]) (idx.getD 0 0) (idx.getD 1 0) *
      u (r (A.dim 0) (A.dim 1) (fun i j => A.val [i, j]) (idx.getD 1 0) (idx.getD 1 0))⟩,
    ⟨[min (A.dim 0) (A.dim 1), A.dim 1], fun idx => star (u (r (A.dim 0) (A.dim 1) (fun i j => A.val [i, j]) (idx.getD 0 0) (idx.getD 0 0))) *
      r (A.dim 0) (A.dim 1) (fun i j => A.val [i, j]) (idx.getD 0 0) (idx.getD 1 0)⟩), ?_, ?_⟩
  · intro A m n hA _ _
    have d0 : A.dim 0 = m := by simp [ND.dim, hA]
    have d1 : A.dim 1 = n := by simp [ND.dim, hA]
    simp only [d0, d1]
    refine ⟨_, _, rfl, rfl, rfl, ?_, ?_, ?_⟩
    · intro a ha b hb
      simp only [ND.dim, List.getD_cons_zero, List.getD_cons_succ] at ha hb ⊢
      rw [Finset.sum_congr rfl fun i _ => show _ = star (u (r m n (fun i j => A.val [i, j]) a a)) * u (r m n (fun i j => A.val [i, j]) b b) *
        (star (q m n (fun i j => A.val [i, j]) i a) * q m n (fun i j => A.val [i, j]) i b) by rw [star_mul']; ring, ← Finset.mul_sum, h1 m n _ a ha b hb]
      by_cases hab : a = b
      · subst hab
        rw [if_pos rfl, mul_one, mul_comm, hu]
      · rw [if_neg hab, mul_zero]
    · intro i hi j hj
      have := h2 m n (fun i j => A.val [i, j]) i hi j hj
      rw [this]
      refine Finset.sum_congr rfl fun k _ => ?_
      simp only [List.getD_cons_zero, List.getD_cons_succ]
      linear_combination (-(q m n (fun i j => A.val [i, j]) i k * r m n (fun i j => A.val [i, j]) k j)) * hu (r m n (fun i j => A.val [i, j]) k k)
    · intro k hk j hj
      simp only [List.getD_cons_zero, List.getD_cons_succ]
      rw [h3 m n _ k hk j hj, mul_zero]
  · intro A Q R e k _
    obtain ⟨-, rfl⟩ := Prod.mk.inj (Except.ok.inj e)
    exact hre _

/-! ### the hypotheses can be met -/

/-- a column `(i, 0)`, extended to 2 by 2 and to 5 by 5 -/
example {null : ND ℂ → Py (ND ℂ)} (hn : NullLaw null) (D : Option ℕ) :=
  unitaryExtension_spec hn (Q := ⟨[2, 1], fun | [0, 0] => Complex.I | _ => 0⟩) rfl (by omega) (by omega)
    (Or.inl ⟨by omega, by intro a ha b hb; simp [ND.dim] at ha hb ⊢; subst ha hb; simp [Finset.sum_range_succ]⟩) D
example {null : ND ℂ → Py (ND ℂ)} (hn : NullLaw null) :=
  unitaryExtension_spec hn (Q := ⟨[1, 2], fun | [0, 0] => Complex.I | _ => 0⟩) rfl (by omega) (by omega)
    (Or.inr ⟨by omega, by intro a ha b hb; simp [ND.dim] at ha hb ⊢; subst ha hb; simp [Finset.sum_range_succ]⟩) (some 5)
example : ∃ null : ND ℂ → Py (ND ℂ), NullLaw null := nullLaw_exists
example {null : ND ℂ → Py (ND ℂ)} (hn : NullLaw null) := embed_spec hn (v := onesND [2, 3]) (idx := [1, 2]) (by simp [onesND]) (by simp [onesND])
example {null : ND ℂ → Py (ND ℂ)} (hn : NullLaw null) := deembed_embed hn (v := onesND [2, 2]) rfl (a := 0) (b := 1) (by omega) (by omega) (by simp [onesND])
example : ∃ qr, ∃ Q R, uqr qr (eyeND 2) = .ok (Q, R) ∧ QRFact (eyeND 2) Q R 2 2 := by
  obtain ⟨qr, h1, h2⟩ := realQR_exists
  obtain ⟨Q, R, e, h, -⟩ := uqr_unique h1 h2 (A := eyeND 2) (m := 2) (n := 2) rfl (by omega) le_rfl (by
    intro c hc j hj
    have := hc j hj
    interval_cases j <;> simpa [eyeND, Finset.sum_range_succ] using this)
  exact ⟨qr, Q, R, e, h⟩
/-- the zero matrix: `uqr` returns a first factor that is not an isometry -/
example {qr : ND ℂ → Py (ND ℂ × ND ℂ)} (hqr : QRLaw qr) : ∃ Q R, uqr qr (zerosND [1, 1]) = .ok (Q, R) ∧ ¬ ColsOrtho Q := by
  obtain ⟨Q, R, e, h⟩ := QRLaw.fact hqr (A := zerosND [1, 1]) (m := 1) (n := 1) rfl (by omega) (by omega)
  have h0 := h.gram (a := 0) (b := 0) (by omega) (by omega)
  have h1 : R.val [0, 0] = 0 := by simpa [zerosND] using h0
  obtain ⟨Q', R', e', -, hn⟩ := uqr_degenerate e h (k := 0) (by omega) h1
  exact ⟨Q', R', e', hn⟩

end Xmps
