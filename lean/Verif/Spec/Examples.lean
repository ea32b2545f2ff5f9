import Verif.Spec.Imps

/-!
# The documented example states
-/

namespace Xmps.Spec

open Finset

/-- The amplitude of `s` is `f s`, up to one factor, and the state has norm 1. -/
def IsState (As : List (ND ℂ)) (f : ℕ → ℕ → ℂ) : Prop :=
  (∃ c : ℂ, c ≠ 0 ∧ ∀ s < 2, ∀ t < 2, psi As [s, t] = c * f s t) ∧ braket [2, 2] As As = 1

/-- the docstring of `bell` (unnormalised): 1: 11+00, 2: 11-00, 3: 10+01, 4: 10-01 -/
def bellDoc : ℤ → ℕ → ℕ → ℂ
  | 1, 0, 0 => 1
  | 1, 1, 1 => 1
  | 2, 0, 0 => -1
  | 2, 1, 1 => 1
  | 3, 0, 1 => 1
  | 3, 1, 0 => 1
  | 4, 0, 1 => -1
  | 4, 1, 0 => 1
  | _, _, _ => 0

/-- the docstring of `comp_z`: 1: (0, 0), 2: (0, 1), 3: (1, 0), 4: (1, 1) -/
def compDoc : ℤ → ℕ × ℕ
  | 1 => (0, 0)
  | 2 => (0, 1)
  | 3 => (1, 0)
  | _ => (1, 1)

/-- the unnormalised state `|+⟩` (bit 0) or `|-⟩` (bit 1) -/
def plusMinus (b s : ℕ) : ℂ := if b = 1 ∧ s = 1 then -1 else 1

/-- the docstring of `comp_x`: 1: (+, +), 2: (-, +), 3: (+, -), 4: (-, -), with 0 for + and 1 for - -/
def compXDoc : ℤ → ℕ × ℕ
  | 1 => (0, 0)
  | 2 => (1, 0)
  | 3 => (0, 1)
  | _ => (1, 1)

/-- The vectors of total spin two of two spins one, in the basis `0 ↦ m=1`, `1 ↦ m=0`, `2 ↦ m=-1`, before normalisation;
the `k`-th has `m = 2 - k`. -/
def quintet : ℕ → ℕ → ℕ → ℂ
  | 0, 0, 0 => 1
  | 1, 0, 1 => 1
  | 1, 1, 0 => 1
  | 2, 0, 2 => 1
  | 2, 1, 1 => 2
  | 2, 2, 0 => 1
  | 3, 1, 2 => 1
  | 3, 2, 1 => 1
  | 4, 2, 2 => 1
  | _, _, _ => 0

/-- The projector onto total spin two: the AKLT Hamiltonian is the sum of these over neighbouring sites, and the AKLT state is its
ground state of energy zero. -/
noncomputable def spinTwo (s1 s2 t1 t2 : ℕ) : ℂ :=
  ∑ k ∈ range 5, quintet k s1 s2 * quintet k t1 t2 / ∑ a ∈ range 3, ∑ b ∈ range 3, quintet k a b ^ 2

end Xmps.Spec
