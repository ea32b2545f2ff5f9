import Verif.Spec.EinSum
import Verif.Base.NpOps

/-! # Lemmas about `labelSum` -/

namespace Xmps.Spec

open Finset Function

variable {K : Type}

theorem labelSum_swap [AddCommMonoid K] {x y : ℤ} (h : x ≠ y) (xs : List ℤ) (dim : ℤ → ℕ)
    (f : (ℤ → ℕ) → K) (ρ : ℤ → ℕ) :
    labelSum (x :: y :: xs) dim f ρ = labelSum (y :: x :: xs) dim f ρ := by
  simp only [labelSum]
  rw [Finset.sum_comm]
  refine Finset.sum_congr rfl fun i _ => Finset.sum_congr rfl fun j _ => ?_
  rw [update_comm h.symm]

theorem labelSum_perm [AddCommMonoid K] {l l' : List ℤ} (h : l.Perm l') (hn : l.Nodup)
    (dim : ℤ → ℕ) (f : (ℤ → ℕ) → K) (ρ : ℤ → ℕ) : labelSum l dim f ρ = labelSum l' dim f ρ := by
  induction h generalizing ρ with
  | nil => rfl
  | cons x _ ih =>
    exact Finset.sum_congr rfl fun i _ => ih (List.nodup_cons.1 hn).2 _
  | swap x y l =>
    refine labelSum_swap ?_ _ _ _ _
    rintro rfl
    simp at hn
  | trans h1 _ ih1 ih2 => rw [ih1 hn, ih2 (h1.nodup_iff.1 hn)]

theorem labelSum_append [AddCommMonoid K] (l l' : List ℤ) (dim : ℤ → ℕ)
    (f : (ℤ → ℕ) → K) (ρ : ℤ → ℕ) :
    labelSum (l ++ l') dim f ρ = labelSum l dim (labelSum l' dim f) ρ := by
  induction l generalizing ρ with
  | nil => rfl
  | cons x xs ih => exact Finset.sum_congr rfl fun i _ => ih _

theorem labelSum_congr [AddCommMonoid K] (l : List ℤ) (dim : ℤ → ℕ)
    {f g : (ℤ → ℕ) → K} (h : ∀ ρ, f ρ = g ρ) (ρ : ℤ → ℕ) : labelSum l dim f ρ = labelSum l dim g ρ := by
  have : f = g := funext h
  rw [this]

/-- Only the extents of the summed labels matter. -/
theorem labelSum_dim_congr [AddCommMonoid K] (l : List ℤ) {dim dim' : ℤ → ℕ}
    (h : ∀ x ∈ l, dim x = dim' x) (f : (ℤ → ℕ) → K) (ρ : ℤ → ℕ) :
    labelSum l dim f ρ = labelSum l dim' f ρ := by
  induction l generalizing ρ with
  | nil => rfl
  | cons x xs ih =>
    simp only [labelSum, h x (by simp)]
    exact Finset.sum_congr rfl fun i _ => ih (fun y hy => h y (by simp [hy])) _

theorem labelSum_mul_right [CommSemiring K] (l : List ℤ) (dim : ℤ → ℕ)
    (f g : (ℤ → ℕ) → K) (hg : ∀ x ∈ l, ∀ ρ i, g (update ρ x i) = g ρ) (ρ : ℤ → ℕ) :
    labelSum l dim (fun ρ => f ρ * g ρ) ρ = labelSum l dim f ρ * g ρ := by
  induction l generalizing ρ with
  | nil => rfl
  | cons x xs ih =>
    simp only [labelSum, Finset.sum_mul]
    refine Finset.sum_congr rfl fun i _ => ?_
    rw [ih (fun y hy => hg y (by simp [hy])), hg x (by simp)]

/-- Several updates at once. -/
def updates (ρ : ℤ → ℕ) : List ℤ → List ℕ → (ℤ → ℕ)
  | x :: xs, k :: ks => updates (update ρ x k) xs ks
  | _, _ => ρ

theorem labelSum_eq_sumIdx [AddCommMonoid K] (l : List ℤ) (dim : ℤ → ℕ)
    (f : (ℤ → ℕ) → K) (ρ : ℤ → ℕ) :
    labelSum l dim f ρ = sumIdx (l.map dim) (fun ks => f (updates ρ l ks)) := by
  induction l generalizing ρ with
  | nil => rfl
  | cons x xs ih =>
    simp only [labelSum, List.map_cons, sumIdx_cons]
    exact Finset.sum_congr rfl fun i _ => ih _

theorem updates_of_not_mem (ρ : ℤ → ℕ) (l : List ℤ) (ks : List ℕ) {x : ℤ} (h : x ∉ l) :
    updates ρ l ks x = ρ x := by
  induction l generalizing ρ ks with
  | nil => cases ks <;> rfl
  | cons y ys ih =>
    cases ks with
    | nil => rfl
    | cons k ks =>
      simp only [List.mem_cons, not_or] at h
      simp only [updates]
      rw [ih _ _ h.2, update_of_ne h.1]

theorem map_updates (ρ : ℤ → ℕ) (l : List ℤ) (ks : List ℕ) (hn : l.Nodup) (hl : ks.length = l.length) :
    l.map (updates ρ l ks) = ks := by
  induction l generalizing ρ ks with
  | nil => cases ks with
    | nil => rfl
    | cons _ _ => simp at hl
  | cons y ys ih =>
    cases ks with
    | nil => simp at hl
    | cons k ks =>
      simp only [List.nodup_cons] at hn
      simp only [updates, List.map_cons]
      rw [updates_of_not_mem _ _ _ hn.1, update_self, ih _ _ hn.2 (by simpa using hl)]

theorem map_updates_disjoint (ρ : ℤ → ℕ) (l : List ℤ) (ks : List ℕ) (m : List ℤ)
    (h : ∀ x ∈ m, x ∉ l) : m.map (updates ρ l ks) = m.map ρ :=
  List.map_congr_left fun x hx => updates_of_not_mem _ _ _ (h x hx)

theorem map_update_not_mem (ρ : ℤ → ℕ) (x : ℤ) (i : ℕ) (m : List ℤ) (h : x ∉ m) :
    m.map (update ρ x i) = m.map ρ :=
  List.map_congr_left fun y hy => update_of_ne (by rintro rfl; exact h hy) _ _

theorem map_assign (F : List ℤ) (idx : List ℕ) (hn : F.Nodup) (hl : idx.length = F.length) :
    F.map (assign F idx) = idx := by
  apply List.ext_getElem
  · simp [hl]
  · intro i h1 h2
    have h1' : i < F.length := by simpa using h1
    simp only [List.getElem_map, assign]
    rw [hn.idxOf_getElem, List.getD_eq_getElem _ _ h2]

end Xmps.Spec
