import Verif.Props.IvMps
import Verif.Props.ImpsOverlap
import Verif.Props.ImpsEigs

/-!
# `ivMPS` on a concrete state: `E` transposes the operator
-/

namespace Xmps

open Finset Matrix Spec ImpsCore ComplexOrder IMPS

namespace IvMPS

/-- the state `exRot` as a pair, with `L = diag(1, 2)` -/
noncomputable def exPair : IvMPS := ⟨⟨[2, 2, 2], fun
  | [s, a, b] => exRot.val [s, a, b] / (((b : ℝ) + 1 : ℝ) : ℂ)
  | _ => 0⟩, diagND [1, 2]⟩

theorem exPair_diag : DiagReal exPair.L [1, 2] := by
  refine ⟨rfl, fun i hi j hj => ?_⟩
  simp only [List.length_cons, List.length_nil] at hi hj
  interval_cases i <;> interval_cases j <;> simp [exPair, diagND]

theorem exPair_to : ∃ A, exPair.toIMPS = .ok ⟨A, none, none, none⟩ ∧ A.shape = [2, 2, 2] ∧ ∀ s, toM3 2 2 A s = toM3 2 2 exRot s := by
  obtain ⟨A, a1, a2, a3⟩ := IMPS.dot3 (G := exPair.G) (L := exPair.L) (d := 2) (D := 2) rfl rfl
  refine ⟨A, ?_, a2, ?_⟩
  · unfold toIMPS
    rw [a1, ok_bind]
  · intro s
    ext a b
    rw [toM3_apply, a3, toM3_apply]
    fin_cases a <;> fin_cases b <;> simp [exPair, diagND, Finset.sum_range_succ] <;> norm_num

theorem exPair_fixed {A : ND ℂ} (hs : A.shape = [2, 2, 2]) (h : ∀ s, toM3 2 2 A s = toM3 2 2 exRot s) : FixedPoints 2 2 A exHalf exHalf 4 := by
  have hf := exRot_fixed
  refine ⟨hs, hf.shape_l, hf.shape_r, hf.eta_pos, ?_, ?_, hf.pos_l, hf.pos_r⟩
  · simp only [h]
    exact hf.right
  · simp only [h]
    exact hf.left

theorem exPair_simple {A : ND ℂ} (h : ∀ s, toM3 2 2 A s = toM3 2 2 exRot s) : SimpleLeft 2 2 A 4 := by
  unfold SimpleLeft
  simp only [h]
  exact exRot_simple

theorem exPair_expect {A : ND ℂ} (h : ∀ s, toM3 2 2 A s = toM3 2 2 exRot s) (op : ℕ → ℕ → ℂ) :
    infExpect 2 2 A exHalf exHalf 4 op = infExpect 2 2 exRot exHalf exHalf 4 op := by
  unfold infExpect
  simp only [h]

/-- **C83 fails**: the expectation value of `Y` in the state is 1/2, `E(Y)` returns -1/2. -/
theorem E_not_expectation {arn : ND ℂ → Py (ℝ × ND ℂ)} {chol inv : ND ℂ → Py (ND ℂ)} {svd : ND ℂ → Py (ND ℂ × List ℝ × ND ℂ)}
    (harn : ArnLaw arn) (hchol : CholLaw chol) (hsvd : SVDLaw svd) (hinv : InvLaw inv) :
    ∃ x' A, exPair.toIMPS = .ok ⟨A, none, none, none⟩ ∧ infExpect 2 2 A exHalf exHalf 4 (fun t s => exY.val [t, s]) = 1 / 2 ∧
      canonicalise arn chol svd inv exPair = .ok x' ∧ E x' exY = .ok (-1 / 2) := by
  have hI := Complex.I_mul_I
  obtain ⟨A, a1, a2, a3⟩ := exPair_to
  obtain ⟨x', e1, e2⟩ := E_transpose harn hchol hsvd hinv Nat.two_pos rfl exPair_diag rfl (by simp) a1 (exPair_fixed a2 a3) (exPair_simple a3)
    (op := exY) rfl
  refine ⟨x', A, a1, ?_, e1, ?_⟩
  · rw [exPair_expect a3, exRot_expect]
    simp only [exY]
    linear_combination (-(1 / 2) : ℂ) * hI
  · rw [e2, exPair_expect a3, exRot_expect]
    congr 1
    simp only [exY]
    linear_combination ((1 / 2) : ℂ) * hI

/-- the hypotheses of the theorems on `canonicalise` and `E` can be met -/
example : ∃ arn chol svd inv, ArnLaw arn ∧ CholLaw chol ∧ SVDLaw svd ∧ InvLaw inv ∧ ∃ A, exPair.G.shape = [2, 2, 2] ∧ DiagReal exPair.L [1, 2] ∧
    exPair.toIMPS = .ok ⟨A, none, none, none⟩ ∧ FixedPoints 2 2 A exHalf exHalf 4 ∧ SimpleLeft 2 2 A 4 := by
  obtain ⟨arn, h1⟩ := arnLaw_exists
  obtain ⟨chol, h2⟩ := cholLaw_exists
  obtain ⟨svd, h3⟩ := svdLaw_exists
  obtain ⟨inv, h4⟩ := invLaw_exists
  obtain ⟨A, a1, a2, a3⟩ := exPair_to
  exact ⟨arn, chol, svd, inv, h1, h2, h3, h4, A, rfl, exPair_diag, a1, exPair_fixed a2 a3, exPair_simple a3⟩

end IvMPS

end Xmps
