import Verif.Base.ND
import Mathlib.Data.Fintype.Pi
import Mathlib.Data.Fintype.BigOperators
import Mathlib.Algebra.BigOperators.Fin

/-!
# Specification of projected entangled pair states on an `m × n` grid

Site `(j, i)`: row `j`, column `i`.  `vE j i` is the extent of the vertical bond above row `j`
(`vE m i`: below the last row), `hE j i` the extent of the horizontal bond to the left of column
`i`.  The amplitude of a basis state is the sum over all values of all bonds of the product of the
entries.
-/

namespace Xmps.Spec

open Finset

variable {K : Type}

/-- A grid of rank 5 arrays (physical, up, right, down, left) with matching bonds. -/
def PepsGrid {m n : ℕ} (ph : Fin m → Fin n → ℕ) (vE : Fin (m + 1) → Fin n → ℕ) (hE : Fin m → Fin (n + 1) → ℕ)
    (g : Fin m → Fin n → ND K) : Prop :=
  ∀ j i, (g j i).shape = [ph j i, vE j.castSucc i, hE j i.succ, vE j.succ i, hE j i.castSucc]

/-- All functions bounded by the extents. -/
def bondVals {a b : ℕ} (e : Fin a → Fin b → ℕ) : Finset (Fin a → Fin b → ℕ) :=
  Fintype.piFinset fun j => Fintype.piFinset fun i => range (e j i)

/-- The amplitude of the basis state `s`. -/
def pepsAmp [CommSemiring K] {m n : ℕ} (vE : Fin (m + 1) → Fin n → ℕ) (hE : Fin m → Fin (n + 1) → ℕ)
    (g : Fin m → Fin n → ND K) (s : Fin m → Fin n → ℕ) : K :=
  ∑ v ∈ bondVals vE, ∑ h ∈ bondVals hE, ∏ j, ∏ i,
    (g j i).val [s j i, v j.castSucc i, h j i.succ, v j.succ i, h j i.castSucc]

end Xmps.Spec
