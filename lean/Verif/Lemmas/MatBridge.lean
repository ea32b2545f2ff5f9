import Verif.Base.NpMore
import Mathlib.Data.Matrix.Mul
import Mathlib.LinearAlgebra.Matrix.NonsingularInverse
import Mathlib.Analysis.Complex.Basic

/-! # Arrays of rank 2 and Mathlib matrices -/

namespace Xmps

open Finset

/-- the entries of an array of shape `[m, n]` as a matrix -/
def toM (m n : ℕ) (A : ND ℂ) : Matrix (Fin m) (Fin n) ℂ := Matrix.of fun i j => A.val [i.1, j.1]

@[simp] theorem toM_apply {m n : ℕ} (A : ND ℂ) (i : Fin m) (j : Fin n) : toM m n A i j = A.val [i.1, j.1] := rfl

/-- a slice of an array of shape `[d, m, n]` -/
def toM3 (m n : ℕ) (A : ND ℂ) (s : ℕ) : Matrix (Fin m) (Fin n) ℂ := Matrix.of fun i j => A.val [s, i.1, j.1]

@[simp] theorem toM3_apply {m n : ℕ} (A : ND ℂ) (s : ℕ) (i : Fin m) (j : Fin n) : toM3 m n A s i j = A.val [s, i.1, j.1] := rfl

/-- the array of a matrix -/
noncomputable def ofM {m n : ℕ} (M : Matrix (Fin m) (Fin n) ℂ) : ND ℂ :=
  ⟨[m, n], fun
    | [i, j] => if h : i < m ∧ j < n then M ⟨i, h.1⟩ ⟨j, h.2⟩ else 0
    | _ => 0⟩

theorem toM_ofM {m n : ℕ} (M : Matrix (Fin m) (Fin n) ℂ) : toM m n (ofM M) = M := by
  ext i j
  simp [ofM]

theorem toM_one_iff {n : ℕ} {A : ND ℂ} : toM n n A = 1 ↔ ∀ i < n, ∀ j < n, A.val [i, j] = if i = j then 1 else 0 := by
  constructor
  · intro h i hi j hj
    have := congrFun (congrFun h ⟨i, hi⟩) ⟨j, hj⟩
    simpa [Matrix.one_apply] using this
  · intro h
    ext i j
    simpa [Matrix.one_apply, Fin.ext_iff] using h i i.2 j j.2

theorem toM_mul_iff {m k n : ℕ} {A B C : ND ℂ} : toM m k A * toM k n B = toM m n C ↔
    ∀ i < m, ∀ j < n, ∑ c ∈ range k, A.val [i, c] * B.val [c, j] = C.val [i, j] := by
  constructor
  · intro h i hi j hj
    have := congrFun (congrFun h ⟨i, hi⟩) ⟨j, hj⟩
    simpa [Matrix.mul_apply, Finset.sum_range] using this
  · intro h
    ext i j
    simpa [Matrix.mul_apply, Finset.sum_range] using h i i.2 j j.2

theorem toM_mul_one_iff {n : ℕ} {A B : ND ℂ} : toM n n A * toM n n B = 1 ↔
    ∀ i < n, ∀ j < n, ∑ c ∈ range n, A.val [i, c] * B.val [c, j] = if i = j then 1 else 0 := by
  constructor
  · intro h i hi j hj
    have := congrFun (congrFun h ⟨i, hi⟩) ⟨j, hj⟩
    simpa [Matrix.mul_apply, Finset.sum_range, Matrix.one_apply] using this
  · intro h
    ext i j
    simpa [Matrix.mul_apply, Finset.sum_range, Matrix.one_apply, Fin.ext_iff] using h i i.2 j j.2

theorem toM_eq_iff {m n : ℕ} {A B : ND ℂ} : toM m n A = toM m n B ↔ ∀ i < m, ∀ j < n, A.val [i, j] = B.val [i, j] := by
  constructor
  · intro h i hi j hj
    exact congrFun (congrFun h ⟨i, hi⟩) ⟨j, hj⟩
  · intro h
    ext i j
    exact h i i.2 j j.2

end Xmps
