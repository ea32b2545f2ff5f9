import Mathlib.Logic.Function.Basic
import Mathlib.Logic.Relation
import Verif.Base.ND

/-!
# Specification of a labelled tensor network

`labelSum ls dim f ρ` is the sum of `f` over all values of the labels `ls` (label `x` running over
`0..dim x - 1`), the other labels having the values given by `ρ`.
The Einstein sum of a network is `labelSum` of the product of the tensor entries.
-/

namespace Xmps.Spec

open Finset

variable {K : Type}

/-- Sum over all values of the labels in the list. -/
def labelSum [AddCommMonoid K] : List ℤ → (ℤ → ℕ) → ((ℤ → ℕ) → K) → (ℤ → ℕ) → K
  | [], _, f, ρ => f ρ
  | x :: xs, dim, f, ρ => ∑ i ∈ range (dim x), labelSum xs dim f (Function.update ρ x i)

/-- The product of the entries of all tensors when the labels have the values `ρ`. -/
def netTerm [CommMonoid K] (AA : List (ND K)) (v : List (List ℤ)) (ρ : ℤ → ℕ) : K :=
  (List.zipWith (fun (A : ND K) (l : List ℤ) => A.val (l.map ρ)) AA v).prod

/-- The value of the labels `F` read off an index list `idx`. -/
def assign (F : List ℤ) (idx : List ℕ) : ℤ → ℕ := fun x => idx.getD (F.idxOf x) 0

/-- A well-labelled network: one label list per tensor, one label per leg, label `x` standing for
legs of extent `dim x`, `P` listing the positive (contracted) labels, each of which occurs exactly
twice, `F` listing the negative (free) labels, each of which occurs exactly once, and no other
labels. -/
structure WellLabelled (AA : List (ND K)) (v : List (List ℤ)) (dim : ℤ → ℕ) (P F : List ℤ) : Prop where
  nonempty : AA ≠ []
  shapes : List.Forall₂ (fun (A : ND K) (l : List ℤ) => A.shape = l.map dim) AA v
  posP : ∀ x ∈ P, 0 < x
  negF : ∀ x ∈ F, x < 0
  nodupP : P.Nodup
  nodupF : F.Nodup
  twice : ∀ x ∈ P, v.flatten.count x = 2
  once : ∀ x ∈ F, v.flatten.count x = 1
  only : ∀ x ∈ v.flatten, x ∈ P ∨ x ∈ F

/-- The condition on tensors and label lists that does not mention orders: one label list per
tensor, one non-zero label per leg, equal extents at legs with equal labels, positive labels twice,
negative labels once. -/
def GoodNetwork (AA : List (ND K)) (v : List (List ℤ)) : Prop :=
  (∃ dim : ℤ → ℕ, List.Forall₂ (fun (A : ND K) (l : List ℤ) => A.shape = l.map dim) AA v) ∧
  ∀ x ∈ v.flatten, (0 < x ∧ v.flatten.count x = 2) ∨ (x < 0 ∧ v.flatten.count x = 1)

/-- Two tensors are linked when a chain of common labels leads from one to the other. -/
def Linked (v : List (List ℤ)) : ℕ → ℕ → Prop :=
  Relation.EqvGen fun i j => ∃ x ∈ v.getD i [], x ∈ v.getD j []

/-- Every two tensors of the network are linked. -/
def Connected (v : List (List ℤ)) : Prop := ∀ i < v.length, ∀ j < v.length, Linked v i j

end Xmps.Spec
