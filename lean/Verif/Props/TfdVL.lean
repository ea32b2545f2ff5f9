import Verif.Model.TfdVL
import Verif.Props.TfdSymm
import Verif.Props.Tfd
import Mathlib.Tactic.IntervalCases
import Mathlib.Tactic.LinearCombination

/-!
# C141: the null vectors of a thermofield double are split by the exchange of the two copies at the site

Specification: `Spec.Swapped`, entry by entry.
-/

namespace Xmps.Spec

/-- `Y` is `X` with the two halves of the site exchanged -/
def Swapped (n l r : ℕ) (X Y : ND ℂ) : Prop := ∀ s < n, ∀ t < n, ∀ a < l, ∀ b < r, Y.val [s * n + t, a, b] = X.val [t * n + s, a, b]

end Xmps.Spec

namespace Xmps.TFD

open Finset Xmps.Spec

variable {n l r : ℕ}

/-- **C141**: `fs` exchanges the two halves of the site. -/
theorem fs_spec {X : ND ℂ} (hX : X.shape = [n ^ 2, l, r]) : ∃ Y, fs X = .ok Y ∧ Y.shape = [n ^ 2, l, r] ∧ Swapped n l r X Y := by
  set T := X.reshapeR [n, n, l, r] with hT
  have sT : T.shape = [n, n, l, r] := rfl
  set U := T.transposeR [1, 0, 2, 3] with hU
  have sU : U.shape = [n, n, l, r] := by simp [hU, ND.transposeR, ND.dim, sT]
  have eU : T.transpose [1, 0, 2, 3] = .ok U := ND.transpose_ok (by rw [ND.rank, sT]; exact (by decide : [1, 0, 2, 3].Perm (List.range 4)))
  refine ⟨U.reshapeR [n ^ 2, l, r], ?_, rfl, ?_⟩
  · unfold fs
    simp only [dim0 hX, nat_sqrt_sq, ND.rank, hX, List.tail_cons, List.length_cons, List.length_nil]
    rw [ND.reshape_ok_any (by rw [hX]; simp; ring), ok_bind]
    change (T.transpose [1, 0, 2, 3] >>= fun t => t.reshape [n ^ 2, l, r]) = _
    rw [eU, ok_bind]
    exact ND.reshape_ok_any (by rw [sU]; simp; ring)
  · intro s hs t ht a ha b hb
    rw [ND.reshapeR_val_any (idx := [s, t, a, b]) (by rw [sU]; exact ⟨hs, ht, ha, hb, trivial⟩) (by
      rw [sU]; simp only [ravel_cons, ravel_nil, List.prod_cons, List.prod_nil]; ring)]
    have : U.val [s, t, a, b] = T.val [t, s, a, b] := by
      simp [hU, ND.transposeR, ND.rank, sT, List.range_succ]
    rw [this]
    refine ND.reshapeR_val_any (by rw [hX]; exact ⟨flat_pair ht hs, ha, hb, trivial⟩) ?_
    rw [hX]
    simp only [ravel_cons, ravel_nil, List.prod_cons, List.prod_nil]
    ring

/-- **C141**: a site whose dimension is not a square raises `ValueError`. -/
theorem fs_raises {X : ND ℂ} {k : ℕ} (hX : X.shape = [k, l, r]) (hk : ∀ m, m * m ≠ k) (hl : 0 < l) (hr : 0 < r) : fs X = .error .valueError := by
  unfold fs
  have : X.reshape (Nat.sqrt (X.dim 0) :: Nat.sqrt (X.dim 0) :: X.shape.tail) = .error .valueError := by
    unfold ND.reshape
    rw [if_neg]
    simp only [dim0 hX, ND.size, hX, List.tail_cons, List.prod_cons, List.prod_nil, mul_one, beq_iff_eq]
    intro h
    apply hk (Nat.sqrt k)
    have hp : 0 < l * r := Nat.mul_pos hl hr
    have : Nat.sqrt k * Nat.sqrt k * (l * r) = k * (l * r) := by rw [h]; ring
    exact Nat.eq_of_mul_eq_mul_right hp this
  dsimp only
  rw [this]
  rfl

/-- the sign that `symm_asymm` gives to the state `a` of the bond -/
def bondSign (D a : ℕ) : ℂ := if a < D * (D + 1) / 2 then 1 else -1

theorem bondSign_sq (D a : ℕ) : bondSign D a * bondSign D a = 1 := by
  unfold bondSign
  split <;> norm_num

theorem symmAsymm_M (D : ℕ) : ∃ P Q M, symmAsymm (D ^ 2) = .ok (P, Q, M) ∧ M.shape = [D ^ 2, D ^ 2] ∧
    ∀ i j, M.val [i, j] = if i = j then bondSign D i else 0 := by
  obtain ⟨P, Q, M, e, -, -, hM, -⟩ := symmAsymm_ok D
  refine ⟨P, Q, M, e, hM, ?_⟩
  unfold symmAsymm at e
  simp only [nat_sqrt_sq] at e
  obtain ⟨p, e1, e2⟩ := bind_eq_ok e
  obtain ⟨q, e3, e4⟩ := bind_eq_ok e2
  simp only [Except.ok.injEq, Prod.mk.injEq] at e4
  obtain ⟨-, -, rfl⟩ := e4
  intro i j
  rfl

/-- `M @ fs(X)` entry by entry -/
theorem signed_fs {D k : ℕ} {M X : ND ℂ} (c : ℂ) (hM : M.shape = [D ^ 2, D ^ 2]) (hMv : ∀ i j, M.val [i, j] = if i = j then bondSign D i else 0)
    (hX : X.shape = [n ^ 2, D ^ 2, k]) : ∃ F R, fs X = .ok F ∧ (M.smul c).matmul F = .ok R ∧ R.shape = [n ^ 2, D ^ 2, k] ∧
      ∀ s < n, ∀ t < n, ∀ a < D ^ 2, ∀ b < k, R.val [s * n + t, a, b] = c * bondSign D a * X.val [t * n + s, a, b] := by
  obtain ⟨F, e1, e2, e3⟩ := fs_spec hX
  obtain ⟨R, f1, f2, f3⟩ := ND.matmul23 (A := M.smul c) (B := F) hM e2
  refine ⟨F, R, e1, f1, f2, ?_⟩
  intro s hs t ht a ha b hb
  rw [f3, Finset.sum_eq_single a]
  · show c * M.val [a, a] * _ = _
    rw [hMv, if_pos rfl, e3 s hs t ht a ha b hb]
  · intro x _ hx
    show c * M.val [a, x] * _ = 0
    rw [hMv, if_neg (Ne.symm hx), mul_zero, zero_mul]
  · intro h
    exact absurd (mem_range.2 ha) h

theorem pair_flat {i : ℕ} (hi : i < n ^ 2) : ∃ s < n, ∃ t < n, i = s * n + t := by
  have hn : 0 < n := by
    rcases Nat.eq_zero_or_pos n with rfl | h
    · simp at hi
    · exact h
  refine ⟨i / n, Nat.div_lt_of_lt_mul (by rwa [pow_two] at hi), i % n, Nat.mod_lt _ hn, ?_⟩
  rw [mul_comm]
  exact (Nat.div_add_mod i n).symm

/-- **C141**: the null vectors are the sum of the two parts of `get_vL`; the first part is unchanged by `M @ fs(·)`, the second changes its sign. -/
theorem splitVL_spec {D k : ℕ} {vL : ND ℂ} (hv : vL.shape = [n ^ 2, D ^ 2, k]) : ∃ P Q M, splitVL (D ^ 2) vL = .ok (P, Q, M) ∧
    P.shape = vL.shape ∧ Q.shape = vL.shape ∧ (∀ idx, InB vL.shape idx → P.val idx + Q.val idx = vL.val idx) ∧
    (∃ F R, fs P = .ok F ∧ M.matmul F = .ok R ∧ R ≈ P) ∧ ∃ F R, fs Q = .ok F ∧ M.matmul F = .ok R ∧ R ≈ Q.smul (-1) := by
  obtain ⟨_, _, M, e, hM, hMv⟩ := symmAsymm_M D
  obtain ⟨f, g, e1, e2, e3, e4⟩ := signed_fs (1 / 2) hM hMv hv
  have hone : M.smul 1 = M := by
    simp only [ND.smul, one_mul]
  have hz : ∀ h : ℂ → ℂ → ℂ, (vL.smul (1 / 2)).zipNd h g = .ok ⟨vL.shape, fun idx => h (1 / 2 * vL.val idx) (g.val idx)⟩ := by
    intro h
    unfold ND.zipNd
    rw [if_pos (by rw [e3]; exact hv)]
    rfl
  refine ⟨⟨vL.shape, fun idx => 1 / 2 * vL.val idx + g.val idx⟩, ⟨vL.shape, fun idx => 1 / 2 * vL.val idx - g.val idx⟩, M, ?_, rfl, rfl, ?_, ?_, ?_⟩
  · unfold splitVL
    rw [e, ok_bind]
    dsimp only
    rw [e1, ok_bind, e2, ok_bind, hz, ok_bind, hz, ok_bind]
  · intro idx _
    dsimp only
    ring
  · obtain ⟨F, R, h1, h2, h3, h4⟩ := signed_fs (X := ⟨vL.shape, fun idx => 1 / 2 * vL.val idx + g.val idx⟩) 1 hM hMv hv
    rw [hone] at h2
    refine ⟨F, R, h1, h2, by rw [h3]; exact hv.symm, ?_⟩
    intro idx hi
    rw [h3] at hi
    match idx, hi with
    | [i, a, b], ⟨q1, q2, q3, _⟩ =>
      obtain ⟨s, hs, t, ht, rfl⟩ := pair_flat q1
      rw [h4 s hs t ht a q2 b q3]
      dsimp only
      rw [e4 s hs t ht a q2 b q3, e4 t ht s hs a q2 b q3]
      linear_combination (1 / 2 * vL.val [s * n + t, a, b]) * bondSign_sq D a
  · obtain ⟨F, R, h1, h2, h3, h4⟩ := signed_fs (X := ⟨vL.shape, fun idx => 1 / 2 * vL.val idx - g.val idx⟩) 1 hM hMv hv
    rw [hone] at h2
    refine ⟨F, R, h1, h2, by rw [h3]; exact hv.symm, ?_⟩
    intro idx hi
    rw [h3] at hi
    match idx, hi with
    | [i, a, b], ⟨q1, q2, q3, _⟩ =>
      obtain ⟨s, hs, t, ht, rfl⟩ := pair_flat q1
      rw [h4 s hs t ht a q2 b q3]
      show _ = -1 * (1 / 2 * vL.val [s * n + t, a, b] - g.val [s * n + t, a, b])
      dsimp only
      rw [e4 s hs t ht a q2 b q3, e4 t ht s hs a q2 b q3]
      linear_combination (-(1 / 2) * vL.val [s * n + t, a, b]) * bondSign_sq D a

/-- **C141** (violated): with a bond whose dimension is not a square, as chains made with `pure=False` can have, `get_vL` raises `ValueError`. -/
theorem splitVL_raises {D k : ℕ} {vL : ND ℂ} (hv : vL.shape = [n ^ 2, D, k]) (hD : ∀ m, m * m ≠ D) : splitVL D vL = .error .valueError := by
  obtain ⟨P, Q, M, e, hM, -⟩ := symmAsymm_M (Nat.sqrt D)
  have e' : symmAsymm D = .ok (P, Q, M) := by
    rw [← e]
    unfold symmAsymm
    rw [nat_sqrt_sq]
  obtain ⟨F, f1, f2, -⟩ := fs_spec hv
  have hne : Nat.sqrt D ^ 2 ≠ D := by rw [pow_two]; exact hD _
  have hm : (M.smul (1 / 2)).matmul F = .error .valueError := by
    simp [ND.matmul, hM, f2, hne]
  unfold splitVL
  rw [e', ok_bind]
  dsimp only
  rw [f1, ok_bind, hm]
  rfl

/-! ### the hypotheses are met -/

example := fs_spec (n := 2) (l := 3) (r := 1) (X := ⟨[4, 3, 1], fun idx => (ravel [4, 3, 1] idx : ℂ)⟩) rfl
example := fs_raises (k := 3) (l := 3) (r := 1) (X := ⟨[3, 3, 1], fun idx => (ravel [3, 3, 1] idx : ℂ)⟩) rfl
  (fun m h => by have : m < 2 := (by nlinarith); interval_cases m <;> omega) (by norm_num) (by norm_num)
example := splitVL_raises (n := 2) (D := 3) (k := 3) (vL := ⟨[4, 3, 3], fun idx => (ravel [4, 3, 3] idx : ℂ)⟩) rfl
  (fun m h => by have : m < 2 := (by nlinarith); interval_cases m <;> omega)
example := splitVL_spec (n := 2) (D := 2) (k := 3) (vL := ⟨[4, 4, 3], fun idx => (ravel [4, 4, 3] idx : ℂ)⟩) rfl

end Xmps.TFD
