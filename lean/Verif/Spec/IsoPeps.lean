import Verif.Base.ND
import Mathlib.Data.Complex.Basic
import Mathlib.Algebra.BigOperators.Fin

/-!
# Specification of isometric PEPS

With the orthogonality centre at row `cj`, column `ci`, a leg is incoming when it points away from the centre: the upper legs of rows
`j ≤ cj`, the lower legs of rows `j ≥ cj`, the right legs of columns `i ≥ ci`, the left legs of columns `i ≤ ci`.  Each tensor other than
the centre is an isometry from its outgoing legs to its incoming legs and its physical leg.
-/

namespace Xmps.Spec

open Finset

/-- the values of a leg in the two layers: summed over if the leg is incoming, given if it is outgoing -/
def legPairs (inc : Prop) [Decidable inc] (e x x' : ℕ) : Finset (ℕ × ℕ) := if inc then (range e).image fun a => (a, a) else {(x, x')}

/-- `A` (physical, up, right, down, left) is an isometry from the legs not marked to the marked legs and the physical leg. -/
def IsoSite (A : ND ℂ) (p u r d l : ℕ) (iu ir id il : Prop) [Decidable iu] [Decidable ir] [Decidable id] [Decidable il] : Prop :=
  ∀ a a' b b' c c' e e', (iu ∨ a < u ∧ a' < u) → (ir ∨ b < r ∧ b' < r) → (id ∨ c < d ∧ c' < d) → (il ∨ e < l ∧ e' < l) →
    (∑ s ∈ range p, ∑ x ∈ legPairs iu u a a', ∑ y ∈ legPairs ir r b b', ∑ z ∈ legPairs id d c c', ∑ w ∈ legPairs il l e e',
      star (A.val [s, x.1, y.1, z.1, w.1]) * A.val [s, x.2, y.2, z.2, w.2]) =
      if (iu ∨ a = a') ∧ (ir ∨ b = b') ∧ (id ∨ c = c') ∧ (il ∨ e = e') then 1 else 0

/-- All tensors but the one in row `cj`, column `ci` are isometries pointing towards it. -/
def IsoGrid {m n : ℕ} (ph : Fin m → Fin n → ℕ) (vE : Fin (m + 1) → Fin n → ℕ) (hE : Fin m → Fin (n + 1) → ℕ)
    (g : Fin m → Fin n → ND ℂ) (cj : Fin m) (ci : Fin n) : Prop :=
  ∀ j i, (j, i) ≠ (cj, ci) →
    IsoSite (g j i) (ph j i) (vE j.castSucc i) (hE j i.succ) (vE j.succ i) (hE j i.castSucc) (j ≤ cj) (ci ≤ i) (cj ≤ j) (i ≤ ci)

end Xmps.Spec
