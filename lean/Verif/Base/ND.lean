import Mathlib.Algebra.BigOperators.Group.Finset.Basic
import Mathlib.Algebra.BigOperators.Ring.Finset
import Mathlib.Algebra.Star.BigOperators
import Mathlib.Algebra.Star.Basic
import Mathlib.Data.List.Perm.Basic
import Mathlib.Tactic.Ring
import Mathlib.Tactic.Linarith
import Verif.Base.Py

/-!
# The numpy array model

An array is a shape and an entry function on index lists.  Entries outside the shape carry no
meaning; `ND.Eqv` (`≈`) is `np.array_equal`.
-/

namespace Xmps

open Finset

/-- A numpy array: `A.shape` and `A[idx]`. -/
structure ND (K : Type*) where
  shape : List ℕ
  val : List ℕ → K

/-- `idx` is a valid full index of an array of shape `shape`. -/
def InB : List ℕ → List ℕ → Prop
  | [], [] => True
  | n :: s, i :: is => i < n ∧ InB s is
  | _, _ => False

instance InB.dec : ∀ s i, Decidable (InB s i)
  | [], [] => isTrue trivial
  | n :: s, i :: is =>
    have := InB.dec s is
    by unfold InB; exact inferInstance
  | [], _ :: _ => isFalse (by simp [InB])
  | _ :: _, [] => isFalse (by simp [InB])

@[simp] theorem InB_nil : InB [] [] := trivial
@[simp] theorem InB_cons {n i : ℕ} {s is : List ℕ} : InB (n :: s) (i :: is) ↔ i < n ∧ InB s is := Iff.rfl
@[simp] theorem InB_nil_cons {i : ℕ} {is : List ℕ} : ¬ InB [] (i :: is) := by simp [InB]
@[simp] theorem InB_cons_nil {n : ℕ} {s : List ℕ} : ¬ InB (n :: s) [] := by simp [InB]

theorem InB.length_eq : ∀ {s is : List ℕ}, InB s is → is.length = s.length
  | [], [], _ => rfl
  | _ :: _, _ :: _, h => by simp [InB.length_eq h.2]

theorem InB.append : ∀ {s is s' is' : List ℕ}, InB s is → InB s' is' → InB (s ++ s') (is ++ is')
  | [], [], _, _, _, h' => h'
  | _ :: _, _ :: _, _, _, h, h' => ⟨h.1, InB.append h.2 h'⟩

theorem InB_append_iff : ∀ {s is s' is' : List ℕ}, is.length = s.length →
    (InB (s ++ s') (is ++ is') ↔ InB s is ∧ InB s' is')
  | [], [], _, _, _ => by simp
  | n :: s, i :: is, s', is', h => by
    simp only [List.cons_append, InB_cons]
    rw [InB_append_iff (by simpa using h), and_assoc]
  | [], _ :: _, _, _, h => by simp at h
  | _ :: _, [], _, _, h => by simp at h

namespace ND
variable {K : Type}

/-- `np.array_equal` -/
def Eqv (A B : ND K) : Prop := A.shape = B.shape ∧ ∀ idx, InB A.shape idx → A.val idx = B.val idx

instance : HasEquiv (ND K) := ⟨Eqv⟩

theorem eqv_def {A B : ND K} : A ≈ B ↔ A.shape = B.shape ∧ ∀ idx, InB A.shape idx → A.val idx = B.val idx :=
  Iff.rfl

@[refl] theorem Eqv.refl (A : ND K) : A ≈ A := ⟨rfl, fun _ _ => rfl⟩
@[symm] theorem Eqv.symm {A B : ND K} (h : A ≈ B) : B ≈ A :=
  ⟨h.1.symm, fun i hi => (h.2 i (h.1 ▸ hi)).symm⟩
theorem Eqv.trans {A B C : ND K} (h : A ≈ B) (h' : B ≈ C) : A ≈ C :=
  ⟨h.1.trans h'.1, fun i hi => (h.2 i hi).trans (h'.2 i (h.1 ▸ hi))⟩

/-- `A.ndim` -/
def rank (A : ND K) : ℕ := A.shape.length
/-- `A.size` -/
def size (A : ND K) : ℕ := A.shape.prod
/-- `A.shape[i]` -/
def dim (A : ND K) (i : ℕ) : ℕ := A.shape.getD i 0

end ND

/-- The sum of `f` over all in-bounds indices of the shape. -/
def sumIdx {K : Type} [AddCommMonoid K] : List ℕ → (List ℕ → K) → K
  | [], f => f []
  | n :: s, f => ∑ i ∈ range n, sumIdx s (fun is => f (i :: is))

section sumIdx
variable {K : Type} [AddCommMonoid K]

@[simp] theorem sumIdx_nil (f : List ℕ → K) : sumIdx [] f = f [] := rfl
@[simp] theorem sumIdx_cons (n : ℕ) (s : List ℕ) (f : List ℕ → K) :
    sumIdx (n :: s) f = ∑ i ∈ range n, sumIdx s (fun is => f (i :: is)) := rfl

theorem sumIdx_congr : ∀ {s : List ℕ} {f g : List ℕ → K},
    (∀ idx, InB s idx → f idx = g idx) → sumIdx s f = sumIdx s g
  | [], f, g, h => h [] trivial
  | n :: s, f, g, h => by
    refine Finset.sum_congr rfl fun i hi => sumIdx_congr fun idx hidx => h _ ⟨by simpa using hi, hidx⟩

theorem sumIdx_append : ∀ (s s' : List ℕ) (f : List ℕ → K),
    sumIdx (s ++ s') f = sumIdx s fun i => sumIdx s' fun j => f (i ++ j)
  | [], s', f => by simp
  | n :: s, s', f => by
    simp only [List.cons_append, sumIdx_cons]
    refine Finset.sum_congr rfl fun i _ => ?_
    rw [sumIdx_append s s']

theorem sumIdx_zero : ∀ (s : List ℕ), sumIdx s (fun _ => (0 : K)) = 0
  | [] => rfl
  | n :: s => by simp [sumIdx_zero s]

theorem sumIdx_add : ∀ (s : List ℕ) (f g : List ℕ → K),
    sumIdx s (fun i => f i + g i) = sumIdx s f + sumIdx s g
  | [], f, g => rfl
  | n :: s, f, g => by
    simp only [sumIdx_cons]
    rw [← Finset.sum_add_distrib]
    exact Finset.sum_congr rfl fun i _ => sumIdx_add s _ _

theorem sumIdx_finset_sum {ι : Type*} (t : Finset ι) : ∀ (s : List ℕ) (f : ι → List ℕ → K),
    sumIdx s (fun i => ∑ a ∈ t, f a i) = ∑ a ∈ t, sumIdx s (f a)
  | [], f => rfl
  | n :: s, f => by
    simp only [sumIdx_cons]
    rw [Finset.sum_comm]
    exact Finset.sum_congr rfl fun i _ => sumIdx_finset_sum t s _

theorem sumIdx_comm : ∀ (s s' : List ℕ) (f : List ℕ → List ℕ → K),
    sumIdx s (fun i => sumIdx s' (fun j => f i j)) = sumIdx s' (fun j => sumIdx s (fun i => f i j))
  | [], s', f => rfl
  | n :: s, s', f => by
    simp only [sumIdx_cons]
    rw [sumIdx_finset_sum]
    exact Finset.sum_congr rfl fun i _ => sumIdx_comm s s' _

end sumIdx

section sumIdxMul
variable {K : Type} [NonUnitalNonAssocSemiring K]

theorem sumIdx_mul_left (c : K) : ∀ (s : List ℕ) (f : List ℕ → K),
    sumIdx s (fun i => c * f i) = c * sumIdx s f
  | [], f => rfl
  | n :: s, f => by
    simp only [sumIdx_cons, Finset.mul_sum]
    exact Finset.sum_congr rfl fun i _ => sumIdx_mul_left c s _

theorem sumIdx_mul_right (c : K) : ∀ (s : List ℕ) (f : List ℕ → K),
    sumIdx s (fun i => f i * c) = sumIdx s f * c
  | [], f => rfl
  | n :: s, f => by
    simp only [sumIdx_cons, Finset.sum_mul]
    exact Finset.sum_congr rfl fun i _ => sumIdx_mul_right c s _

end sumIdxMul

theorem sumIdx_star {K : Type} [AddCommMonoid K] [StarAddMonoid K] :
    ∀ (s : List ℕ) (f : List ℕ → K), star (sumIdx s f) = sumIdx s (fun i => star (f i))
  | [], f => rfl
  | n :: s, f => by
    simp only [sumIdx_cons, star_sum]
    exact Finset.sum_congr rfl fun i _ => sumIdx_star s _

/-! ## Row-major (C order) and column-major (F order) raveling -/

/-- `np.ravel_multi_index(idx, shape)` (C order). -/
def ravel : List ℕ → List ℕ → ℕ
  | _ :: s, i :: is => i * s.prod + ravel s is
  | _, _ => 0

/-- `np.unravel_index(k, shape)` (C order). -/
def unravel : List ℕ → ℕ → List ℕ
  | [], _ => []
  | _ :: s, k => (k / s.prod) :: unravel s (k % s.prod)

@[simp] theorem ravel_nil : ravel [] [] = 0 := rfl
@[simp] theorem ravel_cons (n i : ℕ) (s is : List ℕ) : ravel (n :: s) (i :: is) = i * s.prod + ravel s is := rfl
@[simp] theorem unravel_nil (k : ℕ) : unravel [] k = [] := rfl
@[simp] theorem unravel_cons (n : ℕ) (s : List ℕ) (k : ℕ) :
    unravel (n :: s) k = (k / s.prod) :: unravel s (k % s.prod) := rfl

theorem ravel_lt : ∀ {s is : List ℕ}, InB s is → ravel s is < s.prod
  | [], [], _ => by simp
  | n :: s, i :: is, h => by
    have h2 := ravel_lt h.2
    have h1 : i + 1 ≤ n := h.1
    simp only [ravel_cons, List.prod_cons]
    calc i * s.prod + ravel s is < i * s.prod + s.prod := by omega
      _ = (i + 1) * s.prod := by ring
      _ ≤ n * s.prod := Nat.mul_le_mul_right _ h1

theorem unravel_ravel : ∀ {s is : List ℕ}, InB s is → unravel s (ravel s is) = is
  | [], [], _ => rfl
  | n :: s, i :: is, h => by
    have h2 := ravel_lt h.2
    have hp : 0 < s.prod := by omega
    simp only [ravel_cons, unravel_cons]
    rw [Nat.add_comm, Nat.add_mul_div_right _ _ hp, Nat.div_eq_of_lt h2, Nat.zero_add,
      Nat.add_mul_mod_self_right, Nat.mod_eq_of_lt h2, unravel_ravel h.2]

theorem InB_unravel : ∀ {s : List ℕ} {k : ℕ}, k < s.prod → InB s (unravel s k)
  | [], _, _ => trivial
  | n :: s, k, h => by
    simp only [List.prod_cons] at h
    have hp : 0 < s.prod := by
      rcases Nat.eq_zero_or_pos s.prod with h0 | h0
      · simp [h0] at h
      · exact h0
    exact ⟨Nat.div_lt_of_lt_mul (by rwa [Nat.mul_comm] at h), InB_unravel (Nat.mod_lt _ hp)⟩

theorem ravel_unravel : ∀ {s : List ℕ} {k : ℕ}, k < s.prod → ravel s (unravel s k) = k
  | [], k, h => by simp at h; simp [h]
  | n :: s, k, h => by
    simp only [List.prod_cons] at h
    have hp : 0 < s.prod := by
      rcases Nat.eq_zero_or_pos s.prod with h0 | h0
      · simp [h0] at h
      · exact h0
    simp only [unravel_cons, ravel_cons]
    rw [ravel_unravel (Nat.mod_lt _ hp)]
    exact Nat.div_add_mod' k s.prod

@[simp] theorem length_unravel : ∀ (s : List ℕ) (k : ℕ), (unravel s k).length = s.length
  | [], _ => rfl
  | _ :: s, k => by simp [length_unravel s]

theorem ravel_append : ∀ {s is : List ℕ} (s' is' : List ℕ), is.length = s.length →
    ravel (s ++ s') (is ++ is') = ravel s is * s'.prod + ravel s' is'
  | [], [], s', is', _ => by simp
  | n :: s, i :: is, s', is', h => by
    simp only [List.cons_append, ravel_cons, List.prod_append]
    rw [ravel_append s' is' (by simpa using h)]
    ring
  | [], _ :: _, _, _, h => by simp at h
  | _ :: _, [], _, _, h => by simp at h

/-- `np.ravel_multi_index(idx, shape, order='F')`. -/
def ravelF : List ℕ → List ℕ → ℕ
  | n :: s, i :: is => i + n * ravelF s is
  | _, _ => 0

/-- `np.unravel_index(k, shape, order='F')`. -/
def unravelF : List ℕ → ℕ → List ℕ
  | [], _ => []
  | n :: s, k => (k % n) :: unravelF s (k / n)

@[simp] theorem ravelF_nil : ravelF [] [] = 0 := rfl
@[simp] theorem ravelF_cons (n i : ℕ) (s is : List ℕ) : ravelF (n :: s) (i :: is) = i + n * ravelF s is := rfl
@[simp] theorem unravelF_nil (k : ℕ) : unravelF [] k = [] := rfl
@[simp] theorem unravelF_cons (n : ℕ) (s : List ℕ) (k : ℕ) :
    unravelF (n :: s) k = (k % n) :: unravelF s (k / n) := rfl

theorem ravelF_lt : ∀ {s is : List ℕ}, InB s is → ravelF s is < s.prod
  | [], [], _ => by simp
  | n :: s, i :: is, h => by
    have h2 := ravelF_lt h.2
    simp only [ravelF_cons, List.prod_cons]
    calc i + n * ravelF s is < n + n * ravelF s is := by have := h.1; omega
      _ = n * (ravelF s is + 1) := by ring
      _ ≤ n * s.prod := Nat.mul_le_mul_left _ h2

theorem unravelF_ravelF : ∀ {s is : List ℕ}, InB s is → unravelF s (ravelF s is) = is
  | [], [], _ => rfl
  | n :: s, i :: is, h => by
    have h1 := h.1
    have hp : 0 < n := by omega
    simp only [ravelF_cons, unravelF_cons]
    rw [Nat.add_mul_mod_self_left, Nat.mod_eq_of_lt h1, Nat.add_mul_div_left _ _ hp,
      Nat.div_eq_of_lt h1, Nat.zero_add, unravelF_ravelF h.2]

theorem InB_unravelF : ∀ {s : List ℕ} {k : ℕ}, k < s.prod → InB s (unravelF s k)
  | [], _, _ => trivial
  | n :: s, k, h => by
    simp only [List.prod_cons] at h
    have hp : 0 < n := by
      rcases Nat.eq_zero_or_pos n with h0 | h0
      · simp [h0] at h
      · exact h0
    exact ⟨Nat.mod_lt _ hp, InB_unravelF (Nat.div_lt_of_lt_mul h)⟩

theorem ravelF_unravelF : ∀ {s : List ℕ} {k : ℕ}, k < s.prod → ravelF s (unravelF s k) = k
  | [], k, h => by simp at h; simp [h]
  | n :: s, k, h => by
    simp only [List.prod_cons] at h
    simp only [unravelF_cons, ravelF_cons]
    rw [ravelF_unravelF (Nat.div_lt_of_lt_mul h)]
    exact Nat.mod_add_div k n

/-- A sum over all indices is the sum over the flat positions. -/
theorem sumIdx_eq_flat {K : Type} [AddCommMonoid K] : ∀ (s : List ℕ) (f : List ℕ → K),
    sumIdx s f = ∑ k ∈ range s.prod, f (unravel s k)
  | [], f => by simp [one_nsmul]
  | n :: s, f => by
    simp only [sumIdx_cons, List.prod_cons, unravel_cons]
    rw [Finset.sum_congr rfl fun i _ => sumIdx_eq_flat s (fun is => f (i :: is))]
    rcases Nat.eq_zero_or_pos s.prod with h0 | hp
    · simp [h0]
    induction n with
    | zero => simp
    | succ n ih =>
      rw [Finset.sum_range_succ, ih, Nat.succ_mul, Finset.sum_range_add]
      congr 1
      refine Finset.sum_congr rfl fun x hx => ?_
      have hx : x < s.prod := by simpa using hx
      rw [Nat.add_comm (n * s.prod) x, Nat.add_mul_div_right _ _ hp, Nat.div_eq_of_lt hx,
        Nat.zero_add, Nat.add_mul_mod_self_right, Nat.mod_eq_of_lt hx]

end Xmps
