import Verif.Base.ND
import Mathlib.Analysis.Complex.Basic

/-!
# Specification of a spin-1/2 chain Hamiltonian given by Pauli strings

Matrix elements between product states; sites are counted from 0.
-/

namespace Xmps.Spec

/-- the Pauli matrix named by a letter -/
def pauli : Char → ℕ → ℕ → ℂ
  | 'X', 0, 1 => 1
  | 'X', 1, 0 => 1
  | 'Y', 0, 1 => -Complex.I
  | 'Y', 1, 0 => Complex.I
  | 'Z', 0, 0 => 1
  | 'Z', 1, 1 => -1
  | _, _, _ => 0

/-- `⟨s|A_i|t⟩` for a one-site operator `A` at site `i` -/
def siteElem (A : ℕ → ℕ → ℂ) : ℕ → List ℕ → List ℕ → ℂ
  | 0, s :: ss, t :: ts => if ss = ts then A s t else 0
  | i + 1, s :: ss, t :: ts => if s = t then siteElem A i ss ts else 0
  | _, _, _ => 0

/-- `⟨s|A_i B_{i+1}|t⟩` -/
def bondElem (A B : ℕ → ℕ → ℂ) : ℕ → List ℕ → List ℕ → ℂ
  | 0, s :: s' :: ss, t :: t' :: ts => if ss = ts then A s t * B s' t' else 0
  | i + 1, s :: ss, t :: ts => if s = t then bondElem A B i ss ts else 0
  | _, _, _ => 0

/-- the meaning of one entry of the dictionary on a chain of `L` sites: a letter is a field on every site, two
letters are a coupling on every bond -/
noncomputable def termElem (L : ℕ) (s t : List ℕ) : List Char × ℂ → ℂ
  | ([a], J) => J * ∑ i ∈ Finset.range L, siteElem (pauli a) i s t
  | ([a, b], J) => J * ∑ i ∈ Finset.range (L - 1), bondElem (pauli a) (pauli b) i s t
  | _ => 0

/-- the Hamiltonian -/
noncomputable def hamElem (u : List (List Char × ℂ)) (L : ℕ) (s t : List ℕ) : ℂ := (u.map (termElem L s t)).sum

/-- the letters -/
def IsPauli (c : Char) : Prop := c = 'X' ∨ c = 'Y' ∨ c = 'Z'

/-- a dictionary of fields and couplings, as in the documentation -/
structure Proper (u : List (List Char × ℂ)) : Prop where
  /-- keys are distinct -/
  nodup : (u.map (·.1)).Nodup
  /-- keys are one or two letters among X, Y, Z -/
  keys : ∀ p ∈ u, (∃ a, IsPauli a ∧ p.1 = [a]) ∨ ∃ a b, IsPauli a ∧ IsPauli b ∧ p.1 = [a, b]

/-- `⟨s|O|t⟩` for a matrix-product operator with tensors indexed `[left, right, row, column]`, between the left
boundary index `l` and the right boundary index `r` -/
noncomputable def mpoElem (D : ℕ) : List (ND ℂ) → ℕ → ℕ → List ℕ → List ℕ → ℂ
  | W :: Ws, l, r, s :: ss, t :: ts => ∑ m ∈ Finset.range D, W.val [l, m, s, t] * mpoElem D Ws m r ss ts
  | [], l, r, [], [] => if l = r then 1 else 0
  | _, _, _, _, _ => 0

end Xmps.Spec
