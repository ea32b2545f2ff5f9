import Verif.Model.IvMake
import Verif.Props.IvMps

/-!
# C140: random Vidal cells and their transfer matrix

Specification: a diagonal matrix of the given numbers in decreasing order; sums over entries.
-/

namespace Xmps.Spec

/-- `L` is the diagonal matrix of the numbers `l` -/
def IsDiagOf (L : ND ℂ) (l : List ℝ) : Prop := L.shape = [l.length, l.length] ∧
  (∀ i (h : i < l.length), L.val [i, i] = (l[i] : ℂ)) ∧ ∀ i j, i ≠ j → L.val [i, j] = 0

end Xmps.Spec

namespace Xmps.IvMPS

open Finset Xmps.Spec

/-- **C140**: the matrix of a random pair is diagonal, with the squares of the drawn numbers in decreasing order, none negative. -/
theorem randomL_spec (w : List ℝ) : ∃ l : List ℝ, IsDiagOf (randomL w) l ∧ l.Perm (w.map fun x => x ^ 2) ∧ l.Pairwise (· ≥ ·) ∧ ∀ x ∈ l, 0 ≤ x := by
  classical
  have hp : (((w.map fun x => x ^ 2).mergeSort fun a b => decide (a ≤ b)).reverse).Perm (w.map fun x => x ^ 2) :=
    (List.reverse_perm _).trans (List.mergeSort_perm _ _)
  refine ⟨((w.map fun x => x ^ 2).mergeSort fun a b => decide (a ≤ b)).reverse, ⟨?_, ?_, ?_⟩, hp, ?_, ?_⟩
  · simp [randomL, diagND]
  · intro i h
    unfold randomL diagND
    dsimp only
    rw [if_pos rfl, List.getD_eq_getElem _ _ (by rw [List.length_map]; convert h), List.getElem_map]
  · intro i j h
    unfold randomL diagND
    dsimp only
    rw [if_neg h]
  · rw [List.pairwise_reverse]
    have := List.pairwise_mergeSort (le := fun a b : ℝ => decide (a ≤ b)) (fun a b c h1 h2 => by
      simp only [decide_eq_true_eq] at *; exact h1.trans h2) (fun a b => by
      simp only [Bool.or_eq_true, decide_eq_true_eq]; exact le_total a b) (w.map fun x => x ^ 2)
    exact this.imp fun h => by simpa using h
  · intro x hx
    obtain ⟨y, -, rfl⟩ := List.mem_map.1 (hp.mem_iff.1 hx)
    exact sq_nonneg y

/-- **C140**: `random` makes `period` pairs of the right shapes. -/
theorem random_spec (re im : ℕ → List ℕ → ℝ) (w : ℕ → ℕ → ℝ) (d D period : ℕ) : (random re im w d D period).data.length = period ∧
    ∀ k < period, ∃ G L, (random re im w d D period).data[k]? = some (G, L) ∧ G.shape = [d, D, D] ∧
      (∀ idx, (G.val idx).re = re k idx ∧ (G.val idx).im = im k idx) ∧
      ∃ l : List ℝ, IsDiagOf L l ∧ l.Perm ((List.range D).map fun i => w k i ^ 2) ∧ l.Pairwise (· ≥ ·) := by
  refine ⟨by simp [random], fun k hk => ?_⟩
  obtain ⟨l, h1, h2, h3, -⟩ := randomL_spec ((List.range D).map (w k))
  refine ⟨⟨[d, D, D], fun idx => (re k idx : ℂ) + Complex.I * (im k idx : ℂ)⟩, randomL ((List.range D).map (w k)), by simp only [random, List.getElem?_map, List.getElem?_range hk, Option.map_some], rfl, fun idx => by simp, l, h1, ?_, h3⟩
  rw [List.map_map] at h2
  exact h2

/-- **C140**: for one pair, the transfer matrix is the sum over the site of the product of `A = Γ Λ` and its conjugate, legs of `A` first. -/
theorem transferMatrix_spec {d D : ℕ} {G L : ND ℂ} (hG : G.shape = [d, D, D]) (hL : L.shape = [D, D]) :
    ∃ T, transferMatrix ⟨[(G, L)], 1⟩ = .ok T ∧ T.shape = [D, D, D, D] ∧ ∀ a b a' b', T.val [a, b, a', b'] =
      ∑ s ∈ range d, (∑ c ∈ range D, G.val [s, a, c] * L.val [c, b]) * star (∑ c ∈ range D, G.val [s, a', c] * L.val [c, b']) := by
  obtain ⟨A, a1, a2, a3⟩ : ∃ A, G.tensordot L [2] [0] = .ok A ∧ A.shape = [d, D, D] ∧
      ∀ s a b, A.val [s, a, b] = ∑ c ∈ range D, G.val [s, a, c] * L.val [c, b] := by
    refine ⟨G.tensordotR L [2] [0], by simp [ND.tensordot, ND.rank, ND.dim, hG, hL], ?_, fun s a b => ?_⟩ <;>
    simp [ND.tensordotR, ND.transposeR, ND.rank, ND.others, ND.dim, hG, hL, List.range_succ]
  have hC : A.conj.shape = [d, D, D] := a2
  have hCv : ∀ i, A.conj.val i = star (A.val i) := fun _ => rfl
  obtain ⟨Ac, hAc⟩ : ∃ Ac, Ac = A.conj := ⟨_, rfl⟩
  rw [← hAc] at hC hCv
  obtain ⟨P, p1, p2, p3⟩ : ∃ P, A.tensordot Ac [0] [0] = .ok P ∧ P.shape = [D, D, D, D] ∧
      ∀ a b a' b', P.val [a, b, a', b'] = ∑ s ∈ range d, A.val [s, a, b] * Ac.val [s, a', b'] := by
    refine ⟨A.tensordotR Ac [0] [0], by simp [ND.tensordot, ND.rank, ND.dim, a2, hC], ?_, fun a b a' b' => ?_⟩ <;>
    simp [ND.tensordotR, ND.transposeR, ND.rank, ND.others, ND.dim, a2, hC, List.range_succ]
  refine ⟨P, ?_, p2, fun a b a' b' => ?_⟩
  · unfold transferMatrix
    simp only [List.mapM_cons, List.mapM_nil, a1, ok_bind, ← hAc, p1]
    rfl
  · rw [p3]
    refine sum_congr rfl fun s _ => ?_
    rw [hCv, a3, a3]

/-- **C140**: for other periods it raises `AssertionError`. -/
theorem transferMatrix_period {x : Cells} (h : x.period ≠ 1) : transferMatrix x = .error .assertionError := by
  unfold transferMatrix
  rw [show (x.period == 1) = false by simpa using h]
  rfl

/-! ### the hypotheses are met -/

example := random_spec (fun _ _ => 1) (fun _ _ => 2) (fun k i => k + i) 2 3 2
example := transferMatrix_spec (d := 2) (D := 2) (G := ⟨[2, 2, 2], fun idx => (ravel [2, 2, 2] idx : ℂ)⟩) (L := randomL [1, 3]) rfl (by simp [randomL, diagND])
example := transferMatrix_period (x := random (fun _ _ => 1) (fun _ _ => 2) (fun k i => k + i) 2 3 2) (by simp [random])

end Xmps.IvMPS
