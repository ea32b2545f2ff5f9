import Verif.Model.SvdRobust
import Verif.Props.LapackSvd

/-!
# C125: the singular value decomposition with a backup plan

The finite-chain code calls `svd` of `svd_robust.py`; every theorem there assumes that it decomposes its argument (`SVDLaw`).  Here the assumption is
reduced to the two LAPACK drivers: for every matrix the first gives a decomposition, or it raises `LinAlgError` and the second gives one.
-/

namespace Xmps.SvdRobust

open Xmps.Spec Finset

/-- `x` is a singular value decomposition of the `m` by `n` matrix `A` -/
def IsSVD (A : ND ℂ) (m n : ℕ) (x : ND ℂ × List ℝ × ND ℂ) : Prop :=
  x.1.shape = [m, min m n] ∧ x.2.1.length = min m n ∧ x.2.2.shape = [min m n, n] ∧ ColsOrtho x.1 ∧ RowsOrtho x.2.2 ∧ (∀ s ∈ x.2.1, 0 ≤ s) ∧
    x.2.1.Pairwise (· ≥ ·) ∧ ∀ i < m, ∀ j < n, A.val [i, j] = ∑ k ∈ range (min m n), x.1.val [i, k] * (x.2.1.getD k 0 : ℝ) * x.2.2.val [k, j]

/-- C125.  With the default driver the result is that of `gesdd`, or that of `gesvd` if and only if `gesdd` raised `LinAlgError`; any other exception of
`gesdd` goes to the caller. -/
theorem svd_default {α : Type} (gesdd gesvd : ND ℂ → Py α) (a : ND ℂ) (r : Py α) :
    svd gesdd gesvd "gesdd" a = r ↔ (gesdd a ≠ .error .linAlgError ∧ gesdd a = r) ∨ (gesdd a = .error .linAlgError ∧ gesvd a = r) := by
  unfold svd attempt
  rcases h : gesdd a with e | x
  · cases e <;> simp [backup, err_bind, ok_bind, guardPy]
  · simp [backup, ok_bind]

/-- C125.  `LinAlgError` is raised only if both drivers raise it. -/
theorem svd_linAlgError {α : Type} (gesdd gesvd : ND ℂ → Py α) (a : ND ℂ) :
    svd gesdd gesvd "gesdd" a = .error .linAlgError ↔ gesdd a = .error .linAlgError ∧ gesvd a = .error .linAlgError := by
  rw [svd_default]
  tauto

/-- C125.  With `lapack_driver='gesvd'` the first driver is not called. -/
theorem svd_gesvd {α : Type} (gesdd gesvd : ND ℂ → Py α) (a : ND ℂ) : svd gesdd gesvd "gesvd" a = gesvd a := by
  simp [svd, attempt, backup, ok_bind, guardPy]

/-- C125.  Any other driver is refused, without looking at the matrix. -/
theorem svd_invalid {α : Type} (gesdd gesvd : ND ℂ → Py α) (a : ND ℂ) (driver : String) (h1 : driver ≠ "gesdd") (h2 : driver ≠ "gesvd") :
    svd gesdd gesvd driver a = .error .valueError := by
  simp [svd, attempt, backup, ok_bind, guardPy, h1, h2, err_bind]

/-- C125.  If for every matrix one of the two drivers gives a decomposition, the first failing with `LinAlgError` when it does not, then `svd` satisfies
the contract the canonicalisations assume. -/
theorem svd_law (gesdd gesvd : ND ℂ → Py (ND ℂ × List ℝ × ND ℂ))
    (h : ∀ (A : ND ℂ) (m n : ℕ), A.shape = [m, n] → 0 < m → 0 < n →
      (∃ x, gesdd A = .ok x ∧ IsSVD A m n x) ∨ (gesdd A = .error .linAlgError ∧ ∃ x, gesvd A = .ok x ∧ IsSVD A m n x)) :
    SVDLaw (svd gesdd gesvd "gesdd") := by
  intro A m n hA hm hn
  have key : ∃ x, svd gesdd gesvd "gesdd" A = .ok x ∧ IsSVD A m n x := by
    rcases h A m n hA hm hn with ⟨x, hx, hs⟩ | ⟨h0, x, hx, hs⟩
    · exact ⟨x, (svd_default _ _ _ _).2 (.inl ⟨by simp [hx], hx⟩), hs⟩
    · exact ⟨x, (svd_default _ _ _ _).2 (.inr ⟨h0, hx⟩), hs⟩
  obtain ⟨⟨U, S, V⟩, hx, a1, a2, a3, a4, a5, a6, a7, a8⟩ := key
  exact ⟨U, S, V, hx, a1, a2, a3, a4, a5, a6, a7, a8⟩

/-- C125.  Conversely the contract forces the condition: the wrapper cannot repair a driver that returns something else. -/
theorem svd_law_iff (gesdd gesvd : ND ℂ → Py (ND ℂ × List ℝ × ND ℂ)) :
    SVDLaw (svd gesdd gesvd "gesdd") ↔ ∀ (A : ND ℂ) (m n : ℕ), A.shape = [m, n] → 0 < m → 0 < n →
      (∃ x, gesdd A = .ok x ∧ IsSVD A m n x) ∨ (gesdd A = .error .linAlgError ∧ ∃ x, gesvd A = .ok x ∧ IsSVD A m n x) := by
  refine ⟨fun h A m n hA hm hn => ?_, svd_law gesdd gesvd⟩
  obtain ⟨U, S, V, hx, a⟩ := h A m n hA hm hn
  rcases (svd_default _ _ _ _).1 hx with ⟨-, h1⟩ | ⟨h1, h2⟩
  · exact .inl ⟨(U, S, V), h1, a⟩
  · exact .inr ⟨h1, (U, S, V), h2, a⟩

/-- The hypothesis of `svd_law` holds for a first driver that fails on every matrix with more than one row, and a second that is right. -/
example : ∃ gesdd gesvd : ND ℂ → Py (ND ℂ × List ℝ × ND ℂ), (∀ A : ND ℂ, A.dim 0 > 1 → gesdd A = .error .linAlgError) ∧
    SVDLaw (svd gesdd gesvd "gesdd") := by
  obtain ⟨f, hf⟩ := svdLaw_exists
  refine ⟨fun A => if A.dim 0 > 1 then .error .linAlgError else f A, f, fun A hA => by simp [hA], svd_law _ _ fun A m n hA hm hn => ?_⟩
  obtain ⟨U, S, V, hx, a⟩ := hf A m n hA hm hn
  by_cases hd : A.dim 0 > 1
  · exact .inr ⟨by simp [hd], (U, S, V), hx, a⟩
  · exact .inl ⟨(U, S, V), by simp [hd, hx], a⟩

end Xmps.SvdRobust
