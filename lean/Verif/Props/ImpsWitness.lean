import Verif.Props.ImpsExpect
import Verif.Props.LapackSvd
import Mathlib.LinearAlgebra.Matrix.Notation

/-!
# Infinite MPS: concrete states
-/

namespace Xmps

open Finset Matrix Spec ImpsCore ComplexOrder

namespace IMPS

noncomputable def exOne : ND ℂ := ⟨[1, 1], fun _ => 1⟩

/-- the Pauli matrix `Y` -/
noncomputable def exY : ND ℂ := ⟨[2, 2], fun
  | [0, 1] => -Complex.I
  | [1, 0] => Complex.I
  | _ => 0⟩

/-- a tensor of bond dimension two with complex fixed points -/
noncomputable def exGen : ND ℂ := ⟨[2, 2, 2], fun
  | [0, 0, 0] => -Complex.I
  | [0, 0, 1] => 1
  | [0, 1, 0] => 1
  | [0, 1, 1] => Complex.I
  | [1, 0, 0] => Complex.I / 2
  | [1, 0, 1] => 1 / 2
  | [1, 1, 0] => 1 / 2
  | _ => -Complex.I / 2⟩

noncomputable def exR : ND ℂ := ⟨[2, 2], fun
  | [0, 0] => 3 / 2
  | [0, 1] => -Complex.I / 2
  | [1, 0] => Complex.I / 2
  | _ => 3 / 2⟩

noncomputable def exL : ND ℂ := exR.smul (1 / 5)

theorem ct2 (a b c d : ℂ) : (!![a, b; c, d])ᴴ = !![star a, star c; star b, star d] := by
  ext i j
  match i, j with
  | 0, 0 => rfl
  | 0, 1 => rfl
  | 1, 0 => rfl
  | 1, 1 => rfl

theorem tr2 (a b c d : ℂ) : (!![a, b; c, d])ᵀ = !![a, c; b, d] := by
  ext i j
  match i, j with
  | 0, 0 => rfl
  | 0, 1 => rfl
  | 1, 0 => rfl
  | 1, 1 => rfl

theorem map2 (a b c d : ℂ) : (!![a, b; c, d]).map star = !![star a, star b; star c, star d] := by
  ext i j
  match i, j with
  | 0, 0 => rfl
  | 0, 1 => rfl
  | 1, 0 => rfl
  | 1, 1 => rfl

theorem eq2 {a b c d a' b' c' d' : ℂ} (h1 : a = a') (h2 : b = b') (h3 : c = c') (h4 : d = d') : !![a, b; c, d] = !![a', b'; c', d'] := by
  rw [h1, h2, h3, h4]

theorem exR_eq : toM 2 2 exR = !![3 / 2, -Complex.I / 2; Complex.I / 2, 3 / 2] := by
  ext i j
  match i, j with
  | 0, 0 => rfl
  | 0, 1 => rfl
  | 1, 0 => rfl
  | 1, 1 => rfl

theorem exR_pos : (toM 2 2 exR).PosDef := by
  have : toM 2 2 exR = 1 + (1 / 2 : ℂ) • (!![1, 0; Complex.I, 0] * (!![1, 0; Complex.I, 0])ᴴ) := by
    rw [exR_eq, ct2, Matrix.mul_fin_two, Matrix.smul_of, one_fin_two]
    simp only [Matrix.smul_cons, Matrix.smul_empty, smul_eq_mul, Matrix.of_add_of, Matrix.add_cons, Matrix.head_cons, Matrix.tail_cons,
      Matrix.empty_add_empty]
    refine eq2 ?_ ?_ ?_ ?_ <;> apply Complex.ext <;> simp <;> norm_num
  rw [this]
  refine PosDef.one.add_posSemidef ?_
  refine (Matrix.posSemidef_self_mul_conjTranspose _).smul ?_
  rw [Complex.nonneg_iff]
  norm_num

theorem exGen0 : toM3 2 2 exGen 0 = !![-Complex.I, 1; 1, Complex.I] := by
  ext i j
  match i, j with
  | 0, 0 => rfl
  | 0, 1 => rfl
  | 1, 0 => rfl
  | 1, 1 => rfl

theorem exGen1 : toM3 2 2 exGen 1 = !![Complex.I / 2, 1 / 2; 1 / 2, -Complex.I / 2] := by
  ext i j
  match i, j with
  | 0, 0 => rfl
  | 0, 1 => rfl
  | 1, 0 => rfl
  | 1, 1 => rfl

theorem exL_eq : toM 2 2 exL = (1 / 5 : ℂ) • toM 2 2 exR := toM_smul _ _

theorem exGen_fixed : FixedPoints 2 2 exGen exL exR 2 := by
  have hI := Complex.I_mul_I
  have hR : FixedPoints 2 2 exGen exR exR 2 := by
    refine ⟨rfl, rfl, rfl, by norm_num, ?_, ?_, exR_pos, exR_pos⟩
    · rw [Finset.sum_range_succ, Finset.sum_range_one, exGen0, exGen1, exR_eq]
      simp only [tr2, map2, ct2, Matrix.mul_fin_two, Matrix.smul_of, Matrix.smul_cons, Matrix.smul_empty, smul_eq_mul, Matrix.of_add_of, Matrix.add_cons,
        Matrix.head_cons, Matrix.tail_cons, Matrix.empty_add_empty]
      refine eq2 ?_ ?_ ?_ ?_ <;> apply Complex.ext <;> simp <;> norm_num
    · rw [Finset.sum_range_succ, Finset.sum_range_one, exGen0, exGen1, exR_eq]
      simp only [tr2, map2, ct2, Matrix.mul_fin_two, Matrix.smul_of, Matrix.smul_cons, Matrix.smul_empty, smul_eq_mul, Matrix.of_add_of, Matrix.add_cons,
        Matrix.head_cons, Matrix.tail_cons, Matrix.empty_add_empty]
      refine eq2 ?_ ?_ ?_ ?_ <;> apply Complex.ext <;> simp <;> norm_num
  refine hR.scale (c := 1 / 5) (c' := 1) (by norm_num) one_pos rfl rfl ?_ ?_
  · rw [exL_eq]
    norm_num
  · simp

/-- the normalisation `eigs` gives -/
theorem exGen_norm : (toM 2 2 exL * toM 2 2 exR).trace = 1 := by
  rw [exL_eq, exR_eq]
  simp [Matrix.trace_fin_two, Matrix.mul_apply, Fin.sum_univ_two]
  linear_combination (-(1 / 10) : ℂ) * Complex.I_mul_I

/-- the one `canonicalise` needs -/
theorem exGen_ll : ((toM 2 2 exL)ᵀ * toM 2 2 exR).trace = 4 / 5 := by
  rw [exL_eq, exR_eq]
  simp [Matrix.trace_fin_two, Matrix.mul_apply, Fin.sum_univ_two]
  linear_combination ((1 / 10) : ℂ) * Complex.I_mul_I

noncomputable def exId : ND ℂ := ⟨[2, 2], fun
  | [i, j] => if i = j then 1 else 0
  | _ => 0⟩

/-- **C46 fails for `'m'`**: with the normalisation `eigs` chooses the transfer matrix of the result has leading eigenvalue 4/5, and the
identity has the value 4/5. -/
theorem mixed_not_normalised {chol inv : ND ℂ → Py (ND ℂ)} {svd : ND ℂ → Py (ND ℂ × List ℝ × ND ℂ)} {eigs : ND ℂ → Py (ℝ × ND ℂ × ND ℂ)}
    (hchol : CholLaw chol) (hsvd : SVDLaw svd) (hinv : InvLaw inv) (he : eigs exGen = .ok (2, exL, exR)) :
    FixedPoints 2 2 exGen exL exR 2 ∧ (toM 2 2 exL * toM 2 2 exR).trace = 1 ∧
    ∃ y L lam, canonicalise eigs chol svd inv ⟨exGen, none, none, none⟩ .m = .ok y ∧ y.L = some L ∧ DiagReal L lam ∧
      (∀ v ∈ lam, 0 < v) ∧ lam.length = 2 ∧ ∑ s ∈ range 2, toM3 2 2 y.A s * toM 2 2 L * (toM3 2 2 y.A s)ᴴ = (4 / 5 : ℂ) • toM 2 2 L ∧
      y.E exId .m = .ok (4 / 5) := by
  refine ⟨exGen_fixed, exGen_norm, ?_⟩
  obtain ⟨y, L, lam, ll, h1, h2, h3, h4, h5, h6, h7, h8, h9, h10, h11, h12⟩ :=
    canonicalise_mixed hchol hsvd hinv Nat.two_pos (x := ⟨exGen, none, none, none⟩) he exGen_fixed
  obtain ⟨y', b1, b2⟩ := E_mixed hchol hsvd hinv Nat.two_pos (x := ⟨exGen, none, none, none⟩) he exGen_fixed (op := exId) rfl
  rw [h1] at b1
  obtain rfl := Except.ok.inj b1
  rw [exGen_ll] at h8 b2
  refine ⟨y, L, lam, h1, h3, h4, h6, h5, by rw [h11, ← h8], ?_⟩
  have : (fun t s : ℕ => exId.val [s, t]) = fun t s => if t = s then 1 else 0 := by
    funext t s
    simp [exId, eq_comm]
  rw [b2, this, infExpect_identity Nat.two_pos exGen_fixed, mul_one]

/-! ### a tensor made of two rotations -/

/-- `A_0 = 1 + iX`, `A_1 = i - Z`; the identity is the only fixed point. -/
noncomputable def exRot : ND ℂ := ⟨[2, 2, 2], fun
  | [0, 0, 0] => 1
  | [0, 0, 1] => Complex.I
  | [0, 1, 0] => Complex.I
  | [0, 1, 1] => 1
  | [1, 0, 0] => Complex.I - 1
  | [1, 1, 1] => Complex.I + 1
  | _ => 0⟩

/-- the fixed point with the norm `eigs` gives it -/
noncomputable def exHalf : ND ℂ := exId.smul (((Real.sqrt 2)⁻¹ : ℝ) : ℂ)

theorem exRot0 : toM3 2 2 exRot 0 = !![1, Complex.I; Complex.I, 1] := by
  ext i j
  match i, j with
  | 0, 0 => rfl
  | 0, 1 => rfl
  | 1, 0 => rfl
  | 1, 1 => rfl

theorem exRot1 : toM3 2 2 exRot 1 = !![Complex.I - 1, 0; 0, Complex.I + 1] := by
  ext i j
  match i, j with
  | 0, 0 => rfl
  | 0, 1 => rfl
  | 1, 0 => rfl
  | 1, 1 => rfl

theorem exId_eq : toM 2 2 exId = 1 := by
  ext i j
  match i, j with
  | 0, 0 => rfl
  | 0, 1 => rfl
  | 1, 0 => rfl
  | 1, 1 => rfl

theorem exRot_one : FixedPoints 2 2 exRot exId exId 4 := by
  refine ⟨rfl, rfl, rfl, by norm_num, ?_, ?_, by rw [exId_eq]; exact PosDef.one, by rw [exId_eq]; exact PosDef.one⟩
  · rw [Finset.sum_range_succ, Finset.sum_range_one, exRot0, exRot1, exId_eq, one_fin_two]
    simp only [tr2, map2, ct2, Matrix.mul_fin_two, Matrix.smul_of, Matrix.smul_cons, Matrix.smul_empty, smul_eq_mul, Matrix.of_add_of, Matrix.add_cons,
      Matrix.head_cons, Matrix.tail_cons, Matrix.empty_add_empty]
    refine eq2 ?_ ?_ ?_ ?_ <;> apply Complex.ext <;> simp <;> norm_num
  · rw [Finset.sum_range_succ, Finset.sum_range_one, exRot0, exRot1, exId_eq, one_fin_two]
    simp only [tr2, map2, ct2, Matrix.mul_fin_two, Matrix.smul_of, Matrix.smul_cons, Matrix.smul_empty, smul_eq_mul, Matrix.of_add_of, Matrix.add_cons,
      Matrix.head_cons, Matrix.tail_cons, Matrix.empty_add_empty]
    refine eq2 ?_ ?_ ?_ ?_ <;> apply Complex.ext <;> simp <;> norm_num

theorem exRot_fixed : FixedPoints 2 2 exRot exHalf exHalf 4 :=
  exRot_one.scale (c := (Real.sqrt 2)⁻¹) (c' := (Real.sqrt 2)⁻¹) (by positivity) (by positivity) rfl rfl (toM_smul _ _) (toM_smul _ _)

theorem exRot_norm : (toM 2 2 exHalf * toM 2 2 exHalf).trace = 1 := by
  rw [exHalf, toM_smul, exId_eq, Matrix.smul_mul, Matrix.mul_smul, Matrix.mul_one, smul_smul, trace_smul, trace_one, ← Complex.ofReal_mul, ← mul_inv,
    Real.mul_self_sqrt (by norm_num)]
  simp

theorem exRot_expect (op : ℕ → ℕ → ℂ) : infExpect 2 2 exRot exHalf exHalf 4 op =
    (2 * op 0 0 + 2 * op 1 1 + Complex.I * (op 0 1 - op 1 0)) / 4 := by
  rw [infExpect_scale (A := exRot) (l := exId) (r := exId) (l' := exHalf) (r' := exHalf) (c := (Real.sqrt 2)⁻¹) (c' := (Real.sqrt 2)⁻¹) (by positivity) (by positivity)
    (toM_smul _ _) (toM_smul _ _)]
  unfold infExpect
  simp only [exId_eq, Finset.sum_range_succ, Finset.sum_range_zero, zero_add, exRot0, exRot1, ct2, Matrix.transpose_one, Matrix.one_mul,
    Matrix.mul_one, Matrix.mul_fin_two, Matrix.trace_fin_two_of, trace_one, Fintype.card_fin]
  simp only [map_add, map_sub, map_one, Complex.star_def, Complex.conj_I, map_zero]
  have hI := Complex.I_mul_I
  push_cast
  field_simp
  linear_combination (norm := ring_nf) (-(op 0 0) * 2 - op 1 1 * 2) * hI

/-- **C61 fails**: the value depends on the argument that says how the state is stored: `E(Y)` is 1/2, but `E(Y, 'r')` and `E(Y, 'l')`
are -1/2. -/
theorem E_transposed {chol inv : ND ℂ → Py (ND ℂ)} {svd : ND ℂ → Py (ND ℂ × List ℝ × ND ℂ)} {eigs : ND ℂ → Py (ℝ × ND ℂ × ND ℂ)}
    (hchol : CholLaw chol) (hsvd : SVDLaw svd) (hinv : InvLaw inv) (he : eigs exRot = .ok (4, exHalf, exHalf)) :
    expVidal eigs chol svd inv ⟨exRot, none, none, none⟩ exY = .ok (1 / 2) ∧
      (∃ y, canonicalise eigs chol svd inv ⟨exRot, none, none, none⟩ .r = .ok y ∧ y.E exY .r = .ok (-1 / 2)) ∧
      (∃ y, canonicalise eigs chol svd inv ⟨exRot, none, none, none⟩ .l = .ok y ∧ y.E exY .l = .ok (-1 / 2)) := by
  have hI := Complex.I_mul_I
  refine ⟨?_, ?_, ?_⟩
  · rw [E_vidal hchol hsvd hinv Nat.two_pos (x := ⟨exRot, none, none, none⟩) he exRot_fixed rfl, exRot_expect]
    congr 1
    simp only [exY]
    linear_combination (-(1 / 2) : ℂ) * hI
  · obtain ⟨y, h1, h2⟩ := E_right hchol hsvd hinv Nat.two_pos (x := ⟨exRot, none, none, none⟩) he exRot_fixed (op := exY) rfl
    refine ⟨y, h1, ?_⟩
    rw [h2, exRot_expect]
    congr 1
    simp only [exY]
    linear_combination ((1 / 2) : ℂ) * hI
  · obtain ⟨y, h1, h2⟩ := E_left hchol hsvd hinv Nat.two_pos (x := ⟨exRot, none, none, none⟩) he exRot_fixed (op := exY) rfl
    refine ⟨y, h1, ?_⟩
    rw [h2, exRot_expect]
    congr 1
    simp only [exY]
    linear_combination ((1 / 2) : ℂ) * hI

/-- the hypotheses of the theorems on `canonicalise` and `E` can be met -/
example : ∃ chol svd inv, CholLaw chol ∧ SVDLaw svd ∧ InvLaw inv ∧
    ∃ eigs : ND ℂ → Py (ℝ × ND ℂ × ND ℂ), eigs exGen = .ok (2, exL, exR) ∧ FixedPoints 2 2 exGen exL exR 2 := by
  obtain ⟨chol, h1⟩ := cholLaw_exists
  obtain ⟨svd, h2⟩ := svdLaw_exists
  obtain ⟨inv, h3⟩ := invLaw_exists
  exact ⟨chol, svd, inv, h1, h2, h3, fun _ => .ok (2, exL, exR), rfl, exGen_fixed⟩

/-- an eigensolver that returns multiples of the fixed points with other phases meets the hypotheses of `eigs_ok` -/
example : ∃ l' r', eigs (fun _ => .ok (2, ⟨[2 * 2, 1], fun idx => (1 + Complex.I) * exR.val [idx.getD 0 0 / 2, idx.getD 0 0 % 2]⟩))
      (fun _ => .ok (2, ⟨[2 * 2, 1], fun idx => (-2) * exL.val [idx.getD 0 0 / 2, idx.getD 0 0 % 2]⟩)) exGen = .ok (2, l', r') ∧
    FixedPoints 2 2 exGen l' r' 2 ∧ (toM 2 2 l' * toM 2 2 r').trace = 1 := by
  refine eigs_ok (z := 1 + Complex.I) (z' := -2) Nat.two_pos exGen_fixed rfl rfl rfl rfl (by simp) (by simp) ?_ ?_
  · intro a ha b hb
    simp only [List.getD_cons_zero, flat_div hb, flat_mod hb]
  · intro a ha b hb
    simp only [List.getD_cons_zero, flat_div hb, flat_mod hb]

end IMPS

end Xmps
