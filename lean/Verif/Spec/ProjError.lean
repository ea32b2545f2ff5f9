import Verif.Spec.Tangent

/-!
# Specification: the bonds `projection_error` looks at
-/

namespace Xmps.Spec

/-- extent of the left bond of the site `m` -/
def bondL {K : Type} [Zero K] (As : List (ND K)) (m : ℕ) : ℕ := (As.getD m ⟨[], fun _ => 0⟩).dim 1

/-- extent of the right bond of the site `m` -/
def bondR {K : Type} [Zero K] (As : List (ND K)) (m : ℕ) : ℕ := (As.getD m ⟨[], fun _ => 0⟩).dim 2

/-- the bond behind the site `m` cannot be enlarged: it is as large as one of the neighbouring bonds allows -/
def BondFull {K : Type} [Zero K] (d : ℕ) (As : List (ND K)) (m : ℕ) : Prop :=
  d * bondL As m = bondR As m ∨ bondR As m = d * bondR As (m + 1)

/-- `j` is the next site behind `i` whose right bond can be enlarged, as can that of `i` -/
def NextOpen {K : Type} [Zero K] (d : ℕ) (As : List (ND K)) (i j : ℕ) : Prop :=
  i < j ∧ j + 1 < As.length ∧ ¬ BondFull d As i ∧ ¬ BondFull d As j ∧ ∀ k, i < k → k < j → BondFull d As k

/-- the left bond of the next open site has the extent of the bond behind the one before it -/
def OpenBondsMatch {K : Type} [Zero K] (d : ℕ) (As : List (ND K)) : Prop := ∀ i j, NextOpen d As i j → bondL As j = bondR As i

/-- `(Σ_m h_m) ψ` is a tangent vector at the chain -/
def HamTangent (L d : ℕ) (H As : List (ND ℂ)) : Prop :=
  ∃ Bs : List (ND ℂ), Bs.length = As.length ∧ (∀ i (h1 : i < Bs.length) (h2 : i < As.length), Bs[i].shape = As[i].shape) ∧
    ∀ s, InB (List.replicate L d) s → hamAct d H (psi As) s = tangentPsi As Bs s

end Xmps.Spec
