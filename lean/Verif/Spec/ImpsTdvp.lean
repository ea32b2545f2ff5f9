import Verif.Spec.Imps
import Verif.Spec.Gate
import Verif.Spec.Tangent
import Verif.Lemmas.Chain
import Mathlib.Topology.Instances.Matrix

/-!
# Specification: Hamiltonian terms and tangent vectors of an infinite MPS

`A` is the tensor of every site, `l` and `r` are the fixed points, the ket index first.  A window of consecutive sites is closed with `l` on the
left and with `r` on the right, which stand for the rest of the infinite chain.
-/

namespace Xmps.Spec

open Finset Matrix

/-- one site of the infinite chain added on the right of a left environment `K`: `Σ_s A_sᵀ K conj(A_s)` -/
def pushLeft (d D : ℕ) (A : ND ℂ) (K : Matrix (Fin D) (Fin D) ℂ) : Matrix (Fin D) (Fin D) ℂ :=
  ∑ s ∈ range d, (toM3 D D A s)ᵀ * K * (toM3 D D A s).map star

/-- `h` on two sites that follow the left environment `l`, as a left environment -/
noncomputable def hamLeft (d D : ℕ) (A l h : ND ℂ) : Matrix (Fin D) (Fin D) ℂ :=
  ∑ s1 ∈ range d, ∑ s2 ∈ range d, ∑ t1 ∈ range d, ∑ t2 ∈ range d, h.val [s1 * d + s2, t1 * d + t2] •
    ((toM3 D D A t1 * toM3 D D A t2)ᵀ * toM D D l * (toM3 D D A s1 * toM3 D D A s2).map star)

/-- one site of the infinite chain added on the left of a right environment `X`: `Σ_s A_s X A_s†` -/
def pushRight (d D : ℕ) (A : ND ℂ) (X : Matrix (Fin D) (Fin D) ℂ) : Matrix (Fin D) (Fin D) ℂ :=
  ∑ s ∈ range d, toM3 D D A s * X * (toM3 D D A s)ᴴ

/-- `h` on two sites followed by the right environment `R`, as a right environment -/
noncomputable def hamRight (d D : ℕ) (A : ND ℂ) (R : Matrix (Fin D) (Fin D) ℂ) (h : ND ℂ) : Matrix (Fin D) (Fin D) ℂ :=
  ∑ s1 ∈ range d, ∑ s2 ∈ range d, ∑ t1 ∈ range d, ∑ t2 ∈ range d, h.val [s1 * d + s2, t1 * d + t2] •
    ((toM3 D D A t1 * toM3 D D A t2) * R * (toM3 D D A s1 * toM3 D D A s2)ᴴ)

/-- `⟨Bs|h|As⟩` for a window of the infinite chain, the matrix `h` acting on the sites `m`, `m+1` of the window -/
noncomputable def window (d D : ℕ) (l r h : ND ℂ) (m : ℕ) (As Bs : List (ND ℂ)) : ℂ :=
  ∑ c ∈ range D, ∑ c' ∈ range D, ∑ a ∈ range D, ∑ a' ∈ range D, r.val [c, c'] * (l.val [a, a'] *
    sumIdx (List.replicate As.length d) fun s => gateAct d h m (m + 1) (fun s => amp As s a c) s * star (amp Bs s a' c'))

/-- `⟨∂_i ψ(B)|H|ψ⟩` for a window of `L` sites: `H` is the sum of `h` over the neighbouring sites of the window, and `B` takes the place of the
tensor of the site `i` in the bra -/
noncomputable def hamOverlap (d D : ℕ) (A l r h B : ND ℂ) (L i : ℕ) : ℂ :=
  ∑ m ∈ range (L - 1), window d D l r h m (List.replicate L A) ((List.replicate L A).set i B)

/-- the scalar product per site of two variations in the left gauge -/
noncomputable def siteForm (d D : ℕ) (l r B B' : ND ℂ) : ℂ :=
  ∑ s ∈ range d, ∑ a ∈ range D, ∑ a' ∈ range D, ∑ c ∈ range D, ∑ c' ∈ range D, star (B.val [s, a', c']) * l.val [a, a'] * r.val [c, c'] * B'.val [s, a, c]

/-- `B` is the tangent vector of the time-dependent variational principle: it is in the left gauge, and its scalar product with a variation `B'` in
the left gauge is `-i⟨∂ψ(B')|H|ψ⟩`, where the window grows to the left and may have any length on the right. -/
structure InfTangent (d D : ℕ) (A l r h B : ND ℂ) : Prop where
  shape : B.shape = [d, D, D]
  gauge : LeftGauge d D D (fun a b => l.val [a, b]) A B
  limit : ∀ B' : ND ℂ, B'.shape = [d, D, D] → LeftGauge d D D (fun a b => l.val [a, b]) A B' → ∀ L : ℕ → ℕ, (∀ i, i + 2 ≤ L i) →
    Filter.Tendsto (fun i => hamOverlap d D A l r h B' (L i) i) Filter.atTop (nhds (Complex.I * siteForm d D l r B' B))

/-- `l` is a diagonal matrix with the real numbers `lam` -/
def DiagND (D : ℕ) (l : ND ℂ) (lam : ℕ → ℝ) : Prop := ∀ i < D, ∀ j < D, l.val [i, j] = if i = j then (lam i : ℂ) else 0

/-- the transfer matrix of `A` has real entries -/
def RealTransfer (d D : ℕ) (A : ND ℂ) : Prop :=
  ∀ a < D, ∀ b < D, ∀ a' < D, ∀ b' < D, (∑ s ∈ range d, A.val [s, a, b] * star (A.val [s, a', b'])).im = 0

/-- far from its ends a window forgets what closes it on the left -/
def Mixing (d D : ℕ) (A l r : ND ℂ) : Prop :=
  ∀ K : Matrix (Fin D) (Fin D) ℂ, Filter.Tendsto (fun n => (pushLeft d D A)^[n] K) Filter.atTop (nhds ((Kᵀ * toM D D r).trace • toM D D l))

/-- Contract of `scipy.optimize.root` for equations of `D × D` matrices: a root is found if there is one. -/
def RootLaw (root : (ND ℂ → Py (ND ℂ)) → ℕ → Py (ND ℂ)) : Prop :=
  ∀ (f : ND ℂ → Py (ND ℂ)) (D : ℕ), (∃ K F, K.shape = [D, D] ∧ f K = .ok F ∧ toM D D F = 0) →
    ∃ K F, root f D = .ok K ∧ K.shape = [D, D] ∧ f K = .ok F ∧ toM D D F = 0

end Xmps.Spec
