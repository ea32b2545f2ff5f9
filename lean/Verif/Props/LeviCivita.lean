import Mathlib.GroupTheory.Perm.Fin
import Mathlib.Algebra.BigOperators.Fin
import Verif.Model.Spin

/-! # Property C31: `levi_civita` -/

namespace Xmps.Spin

open Finset

/-- The number of pairs out of order. -/
def invs : List ℕ → ℕ
  | [] => 0
  | x :: l => l.countP (· < x) + invs l

theorem idxOf_sorted : ∀ {b : List ℕ} {x : ℕ}, b.Pairwise (· < ·) → x ∈ b → b.idxOf x = b.countP (· < x)
  | [], _, _, h => by simp at h
  | y :: b, x, hb, h => by
    rw [List.pairwise_cons] at hb
    by_cases e : y = x
    · subst e
      rw [List.idxOf_cons_self, List.countP_cons_of_neg (by simp), List.countP_eq_zero.2]
      intro a ha
      have := hb.1 a ha
      simp; omega
    · have hx : x ∈ b := by
        rcases List.mem_cons.1 h with h | h
        · exact absurd h.symm e
        · exact h
      have := hb.1 x hx
      rw [List.idxOf_cons_ne _ e, List.countP_cons_of_pos (by simpa using this), idxOf_sorted hb.2 hx]

theorem inversions_eq : ∀ {a b : List ℕ} (m : ℕ), a.Perm b → b.Pairwise (· < ·) → inversions a b m = .ok (m + invs a)
  | [], b, m, _, _ => rfl
  | x :: a, b, m, h, hb => by
    have hx : x ∈ b := h.subset (by simp)
    have hp : a.Perm (b.erase x) := List.Perm.trans (by simp) (h.erase x)
    rw [inversions, if_pos hx, inversions_eq _ hp (hb.sublist List.erase_sublist), idxOf_sorted hb hx, ← h.countP_eq,
      List.countP_cons_of_neg (by simp), invs, Nat.add_assoc]

theorem mergeSort_eq_iff {a b : List ℕ} : a.mergeSort (· ≤ ·) = b.mergeSort (· ≤ ·) ↔ a.Perm b := by
  constructor
  · intro h
    exact (List.mergeSort_perm a _).symm.trans (h ▸ List.mergeSort_perm b _)
  · intro h
    have sa := List.pairwise_mergeSort (le := fun a b : ℕ => decide (a ≤ b)) (by intro a b c; simp; omega) (by intro a b; simp; omega) a
    have sb := List.pairwise_mergeSort (le := fun a b : ℕ => decide (a ≤ b)) (by intro a b c; simp; omega) (by intro a b; simp; omega) b
    refine List.Perm.eq_of_pairwise ?_ sa sb ((List.mergeSort_perm a _).trans (h.trans (List.mergeSort_perm b _).symm))
    intro x y _ _ h1 h2
    simp at h1 h2
    omega

theorem permParity_range {n : ℕ} (a : List ℕ) : permParity a (List.range n) =
    .ok (if a.Perm (List.range n) then (-1) ^ invs a else 0) := by
  rw [permParity]
  by_cases h : a.Perm (List.range n)
  · rw [if_neg (by simpa using mergeSort_eq_iff.2 h), if_pos h, inversions_eq 0 h List.pairwise_lt_range, ok_bind]
    congr 1
    rcases Nat.even_or_odd (invs a) with he | ho
    · rw [he.neg_one_pow, if_neg]; simpa using Nat.even_iff.1 he
    · rw [ho.neg_one_pow, if_pos]; simp [Nat.odd_iff.1 ho]
  · rw [if_pos (by rw [ne_eq, mergeSort_eq_iff]; exact h), if_neg h]

/-! ### the enumeration -/

theorem loop_spec (dim : ℕ) (f : List ℕ → ℤ) (hf : ∀ a, permParity a (List.range dim) = .ok (f a)) :
    ∀ (k : ℕ), k ≤ dim → ∀ (q : List ℕ) (s : List ℤ), q.length = dim →
      ∃ q', loopRecursive dim k (q, s) = .ok (q', s ++ (allIdx (List.replicate k dim)).map fun t => f (q.take (dim - k) ++ t)) ∧
        q'.length = dim ∧ q'.take (dim - k) = q.take (dim - k)
  | 0, _, q, s, hq => by
    refine ⟨q, ?_, hq, rfl⟩
    rw [loopRecursive, hf]
    simp [allIdx, ← hq]
  | k + 1, hk, q, s, hq => by
    rw [loopRecursive]
    have key : ∀ (l : List ℕ) (q : List ℕ) (s : List ℤ), q.length = dim →
        ∃ q', l.foldlM (fun qs x => loopRecursive dim k (qs.1.set (dim - (k + 1)) x, qs.2)) (q, s) =
          .ok (q', s ++ (l.flatMap fun i => (allIdx (List.replicate k dim)).map (i :: ·)).map fun t => f (q.take (dim - (k + 1)) ++ t)) ∧
          q'.length = dim ∧ q'.take (dim - (k + 1)) = q.take (dim - (k + 1)) := by
      intro l
      induction l with
      | nil => intro q s hq; exact ⟨q, by simp, hq, rfl⟩
      | cons x l ih =>
        intro q s hq
        obtain ⟨q1, h1, h2, h3⟩ := loop_spec dim f hf k (by omega) (q.set (dim - (k + 1)) x) s (by simpa using hq)
        have e : (q.set (dim - (k + 1)) x).take (dim - k) = q.take (dim - (k + 1)) ++ [x] := by
          have : dim - k = (dim - (k + 1)) + 1 := by omega
          rw [this, List.take_set, List.take_succ_eq_append_getElem (by omega), List.set_append_right _ _ (by simp)]
          simp only [List.length_take]
          have : dim - (k + 1) - min (dim - (k + 1)) q.length = 0 := by omega
          rw [this]; rfl
        rw [e] at h1 h3
        obtain ⟨q2, g1, g2, g3⟩ := ih q1 (s ++ (allIdx (List.replicate k dim)).map fun t => f (q.take (dim - (k + 1)) ++ [x] ++ t)) h2
        have e2 : q1.take (dim - (k + 1)) = q.take (dim - (k + 1)) := by
          have := congrArg (List.take (dim - (k + 1))) h3
          rw [List.take_take, min_eq_left (by omega), List.take_append_of_le_length (by simp; omega), List.take_take,
            min_self] at this
          exact this
        refine ⟨q2, ?_, g2, g3.trans e2⟩
        rw [List.foldlM_cons, h1, ok_bind, g1, e2]
        simp [List.flatMap_cons, Function.comp_def]
    obtain ⟨q', h1, h2, h3⟩ := key (List.range dim) q s hq
    exact ⟨q', by rw [h1]; rfl, h2, h3⟩

end Xmps.Spin

namespace Xmps

theorem length_allIdx : ∀ (s : List ℕ), (allIdx s).length = s.prod
  | [] => rfl
  | n :: s => by
    simp only [allIdx, List.length_flatMap, List.length_map, length_allIdx s, List.prod_cons]
    simp

theorem getElem?_flatMap_const {α β : Type} {p : ℕ} : ∀ (l : List α) (f : α → List β), (∀ a ∈ l, (f a).length = p) →
    ∀ i (h : i < l.length) (r : ℕ), r < p → (l.flatMap f)[i * p + r]? = (f l[i])[r]?
  | [], _, _, i, h, _, _ => by simp at h
  | a :: l, f, hf, 0, _, r, hr => by
    have := hf a (by simp)
    rw [List.flatMap_cons, Nat.zero_mul, Nat.zero_add, List.getElem?_append_left (by omega)]
    rfl
  | a :: l, f, hf, i + 1, h, r, hr => by
    have := hf a (by simp)
    rw [List.flatMap_cons, List.getElem?_append_right (by rw [this, Nat.succ_mul]; omega), this]
    have e : (i + 1) * p + r - p = i * p + r := by rw [Nat.succ_mul]; omega
    rw [e, getElem?_flatMap_const l f (fun a ha => hf a (by simp [ha])) i (by simpa using h) r hr]
    rfl

/-- The C-order enumeration agrees with `ravel`. -/
theorem allIdx_ravel : ∀ {s idx : List ℕ}, InB s idx → (allIdx s)[ravel s idx]? = some idx
  | [], [], _ => rfl
  | n :: s, i :: is, h => by
    have h2 := ravel_lt h.2
    rw [allIdx, ravel_cons, getElem?_flatMap_const _ _ (fun a _ => by rw [List.length_map, length_allIdx]) i
      (by simpa using h.1) _ h2, List.getElem?_map, allIdx_ravel h.2]
    simp

end Xmps

namespace Xmps.Spin

open Finset

theorem invs_ofFn : ∀ {n : ℕ} (f : Fin n → ℕ), (-1 : ℤ) ^ invs (List.ofFn f) =
    ∏ i, ∏ j ∈ Finset.Ioi i, (if f j < f i then -1 else 1)
  | 0, f => by simp [invs]
  | n + 1, f => by
    rw [List.ofFn_succ, invs, pow_add, invs_ofFn, Fin.prod_univ_succ, Fin.prod_Ioi_zero]
    congr 1
    · have : ∀ {m : ℕ} (g : Fin m → ℕ) (x : ℕ), (-1 : ℤ) ^ (List.ofFn g).countP (· < x) = ∏ j, (if g j < x then -1 else 1) := by
        intro m
        induction m with
        | zero => intro g x; simp
        | succ m ih =>
          intro g x
          rw [List.ofFn_succ, List.countP_cons, pow_add, ih, Fin.prod_univ_succ, mul_comm]
          by_cases h : g 0 < x <;> simp [h]
      exact this _ _
    · refine Finset.prod_congr rfl fun i _ => ?_
      rw [Fin.prod_Ioi_succ]

theorem sign_eq_invs {n : ℕ} (σ : Equiv.Perm (Fin n)) : (-1 : ℤ) ^ invs (List.ofFn fun i => (σ i : ℕ)) = (σ.sign : ℤ) := by
  rw [invs_ofFn, σ.sign_eq_prod_prod_Ioi]
  push_cast
  refine Finset.prod_congr rfl fun i _ => Finset.prod_congr rfl fun j hj => ?_
  have hij : i ≠ j := ne_of_lt (by simpa using hj)
  have hne : σ i ≠ σ j := fun h => hij (σ.injective h)
  by_cases h : σ i < σ j
  · rw [if_pos h, if_neg (by simp only [Fin.val_fin_lt]; exact not_lt.2 h.le)]; rfl
  · rw [if_neg h, if_pos (by simp only [Fin.val_fin_lt]; exact lt_of_le_of_ne (not_lt.1 h) hne.symm)]; rfl

theorem leviCivita_entries (n : ℕ) : ∃ R, leviCivita n = .ok R ∧ R.shape = List.replicate n n ∧
    ∀ idx, InB (List.replicate n n) idx → R.val idx = if idx.Perm (List.range n) then (-1) ^ invs idx else 0 := by
  obtain ⟨q', h1, -, -⟩ := loop_spec n (fun a => if a.Perm (List.range n) then (-1) ^ invs a else 0)
    permParity_range n le_rfl (List.replicate n 0) [] (by simp)
  simp only [List.nil_append, Nat.sub_self, List.take_zero] at h1
  set s := (allIdx (List.replicate n n)).map fun a => if a.Perm (List.range n) then (-1 : ℤ) ^ invs a else 0 with hs
  have hl : s.length = (List.replicate n n).prod := by rw [hs, List.length_map, length_allIdx]
  refine ⟨(ND.ofFlat [s.length] s).reshapeR (List.replicate n n), ?_, rfl, fun idx hi => ?_⟩
  · rw [leviCivita, h1, ok_bind, ND.reshape, if_pos]
    simp [ND.size, ND.ofFlat, hl]
  · have hr := ravel_lt hi
    have e : (ND.ofFlat [s.length] s).reshapeR (List.replicate n n) = ⟨List.replicate n n, fun idx =>
      (ND.ofFlat [s.length] s).val (unravel [s.length] (ravel (List.replicate n n) idx))⟩ := rfl
    rw [e]
    simp only [ND.ofFlat, unravel_cons, unravel_nil, List.prod_nil, Nat.div_one, ravel_cons, mul_one, ravel_nil, add_zero]
    rw [List.getD_eq_getElem?_getD, hs, List.getElem?_map, allIdx_ravel hi]
    rfl

/-- **C31**: `levi_civita(n)` is the sign on permutations. -/
theorem leviCivita_perm (n : ℕ) : ∃ R, leviCivita n = .ok R ∧ R.shape = List.replicate n n ∧
    ∀ σ : Equiv.Perm (Fin n), R.val (List.ofFn fun i => (σ i : ℕ)) = (σ.sign : ℤ) := by
  obtain ⟨R, h1, h2, h3⟩ := leviCivita_entries n
  refine ⟨R, h1, h2, fun σ => ?_⟩
  have hinj : Function.Injective fun i => ((σ i : Fin n) : ℕ) := fun i j h => σ.injective (Fin.ext h)
  have hp : (List.ofFn fun i => (σ i : ℕ)).Perm (List.range n) := by
    rw [List.perm_ext_iff_of_nodup (List.nodup_ofFn.2 hinj) List.nodup_range]
    intro x
    rw [List.mem_ofFn, List.mem_range]
    constructor
    · rintro ⟨i, rfl⟩; exact (σ i).2
    · intro hx; exact ⟨σ.symm ⟨x, hx⟩, by simp⟩
  have hb : InB (List.replicate n n) (List.ofFn fun i => (σ i : ℕ)) := by
    have aux : ∀ {m : ℕ} (f : Fin m → ℕ), (∀ i, f i < n) → InB (List.replicate m n) (List.ofFn f) := by
      intro m
      induction m with
      | zero => intro f _; simp
      | succ m ih =>
        intro f hf
        rw [List.replicate_succ, List.ofFn_succ]
        exact ⟨hf 0, ih _ fun i => hf _⟩
    exact aux _ fun i => (σ i).2
  rw [h3 _ hb, if_pos hp, sign_eq_invs]

/-- **C31**: `levi_civita(n)` vanishes where an index repeats. -/
theorem leviCivita_repeat (n : ℕ) : ∃ R, leviCivita n = .ok R ∧
    ∀ idx, InB (List.replicate n n) idx → ¬ idx.Nodup → R.val idx = 0 := by
  obtain ⟨R, h1, h2, h3⟩ := leviCivita_entries n
  refine ⟨R, h1, fun idx hi hn => ?_⟩
  rw [h3 idx hi, if_neg fun h => hn (h.nodup_iff.2 List.nodup_range)]

/-- **C31**: exchanging the values at two places changes the sign (and so on all indices the tensor is
totally antisymmetric). -/
theorem leviCivita_swap (n : ℕ) : ∃ R, leviCivita n = .ok R ∧
    ∀ (σ : Equiv.Perm (Fin n)) (i j : Fin n), i ≠ j →
      R.val (List.ofFn fun k => (σ (Equiv.swap i j k) : ℕ)) = - R.val (List.ofFn fun k => (σ k : ℕ)) := by
  obtain ⟨R, h1, h2, h3⟩ := leviCivita_perm n
  refine ⟨R, h1, fun σ i j hij => ?_⟩
  have := h3 (σ * Equiv.swap i j)
  simp only [Equiv.Perm.coe_mul, Function.comp] at this
  rw [this, h3, Equiv.Perm.sign_mul, Equiv.Perm.sign_swap hij]
  simp

/-! A concrete non-trivial case: a 3-cycle, and a repeated index, of the rank 3 tensor. -/
example : ∃ R, leviCivita 3 = .ok R ∧ R.val [1, 2, 0] = 1 ∧ R.val [1, 0, 2] = -1 ∧ R.val [1, 1, 2] = 0 := by
  obtain ⟨R, h1, h2, h3⟩ := leviCivita_entries 3
  refine ⟨R, h1, ?_, ?_, ?_⟩ <;> rw [h3 _ (by decide)] <;> decide

end Xmps.Spin
