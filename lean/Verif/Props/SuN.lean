import Verif.Model.SpinOps
import Mathlib.LinearAlgebra.Matrix.Hermitian
import Mathlib.Data.Matrix.Basis
import Mathlib.Algebra.BigOperators.Fin
import Mathlib.Algebra.BigOperators.Field
import Mathlib.Tactic.FieldSimp
import Mathlib.Tactic.Module

/-!
# C30: the generators of su(N)
-/

namespace Xmps.Spin

open Matrix Finset

/-! ### traces against a generator -/

theorem trace_suSym {N : ℕ} (Q : Matrix (Fin N) (Fin N) ℂ) (i j : Fin N) (h : i ≠ j) :
    trace (Q * suSym N i j) = Q i j + Q j i := by
  have hv : i.val ≠ j.val := fun e => h (Fin.ext e)
  have e : suSym N i j = Matrix.single i j 1 + Matrix.single j i 1 := by
    ext a b
    simp only [suSym, Matrix.add_apply, Matrix.single_apply, Fin.ext_iff]
    by_cases h1 : a.val = i.val ∧ b.val = j.val
    · have : ¬ (j.val = a.val ∧ i.val = b.val) := by omega
      have h1' : i.val = a.val ∧ j.val = b.val := by omega
      rw [if_pos (Or.inl h1), if_pos h1', if_neg this, add_zero]
    · by_cases h2 : a.val = j.val ∧ b.val = i.val
      · have : ¬ (i.val = a.val ∧ j.val = b.val) := by omega
        have h2' : j.val = a.val ∧ i.val = b.val := by omega
        rw [if_pos (Or.inr h2), if_neg this, if_pos h2', zero_add]
      · have h1' : ¬ (i.val = a.val ∧ j.val = b.val) := by omega
        have h2' : ¬ (j.val = a.val ∧ i.val = b.val) := by omega
        rw [if_neg (by tauto), if_neg h1', if_neg h2', add_zero]
  rw [e, Matrix.mul_add, trace_add, trace_mul_single, trace_mul_single]
  simp [add_comm]

theorem trace_suAnti {N : ℕ} (Q : Matrix (Fin N) (Fin N) ℂ) (i j : Fin N) (h : i ≠ j) :
    trace (Q * suAnti N i j) = Complex.I * Q i j - Complex.I * Q j i := by
  have hv : i.val ≠ j.val := fun e => h (Fin.ext e)
  have e : suAnti N i j = Matrix.single i j (-Complex.I) + Matrix.single j i Complex.I := by
    ext a b
    simp only [suAnti, Matrix.add_apply, Matrix.single_apply, Fin.ext_iff]
    by_cases h1 : a.val = i.val ∧ b.val = j.val
    · have : ¬ (j.val = a.val ∧ i.val = b.val) := by omega
      have h1' : i.val = a.val ∧ j.val = b.val := by omega
      rw [if_pos h1, if_pos h1', if_neg this, add_zero]
    · by_cases h2 : a.val = j.val ∧ b.val = i.val
      · have : ¬ (i.val = a.val ∧ j.val = b.val) := by omega
        have h2' : j.val = a.val ∧ i.val = b.val := by omega
        rw [if_neg h1, if_pos h2, if_neg this, if_pos h2', zero_add]
      · have h1' : ¬ (i.val = a.val ∧ j.val = b.val) := by omega
        have h2' : ¬ (j.val = a.val ∧ i.val = b.val) := by omega
        rw [if_neg h1, if_neg h2, if_neg h1', if_neg h2', add_zero]
  rw [e, Matrix.mul_add, trace_add, trace_mul_single, trace_mul_single]
  simp only [op_smul_eq_mul]
  ring

/-- entry of the unnormalised diagonal generator -/
def dk (k a : ℕ) : ℝ := if a < k then 1 else if a = k then -(k : ℝ) else 0

theorem sum_dk (N k : ℕ) (h : k < N) : ∑ a : Fin N, dk k a = 0 := by
  rw [Fin.sum_univ_eq_sum_range (dk k) N]
  obtain ⟨m, rfl⟩ := Nat.exists_eq_add_of_lt h
  have e : k + m + 1 = k + 1 + m := by omega
  rw [e, Finset.sum_range_add, Finset.sum_range_succ]
  rw [Finset.sum_congr rfl (g := fun _ => (1 : ℝ)) (fun a ha => by simp [dk, Finset.mem_range.1 ha]),
    Finset.sum_eq_zero (s := Finset.range m) (fun a _ => by
      have : dk k (k + 1 + a) = 0 := by simp only [dk]; rw [if_neg (by omega), if_neg (by omega)]
      simp [this])]
  simp [dk]

theorem sum_dk_mul (N k l : ℕ) (h : k < l) (hl : l < N) : ∑ a : Fin N, dk k a * dk l a = 0 := by
  rw [← sum_dk N k (by omega)]
  refine Finset.sum_congr rfl fun a _ => ?_
  by_cases h1 : a.val < l
  · simp [dk, h1]
  · have e : dk k a = 0 := by
      simp only [dk]
      rw [if_neg (by omega), if_neg (by omega)]
    rw [e, zero_mul]

theorem sum_dk_sq (N k : ℕ) (h : k < N) : ∑ a : Fin N, dk k a * dk k a = k * (k + 1) := by
  rw [Fin.sum_univ_eq_sum_range (fun a => dk k a * dk k a) N]
  obtain ⟨m, rfl⟩ := Nat.exists_eq_add_of_lt h
  have e : k + m + 1 = k + 1 + m := by omega
  rw [e, Finset.sum_range_add, Finset.sum_range_succ]
  rw [Finset.sum_congr rfl (g := fun _ => (1 : ℝ)) (fun a ha => by simp [dk, Finset.mem_range.1 ha]),
    Finset.sum_eq_zero (s := Finset.range m) (fun a _ => by
      have : dk k (k + 1 + a) = 0 := by simp only [dk]; rw [if_neg (by omega), if_neg (by omega)]
      simp [this])]
  simp [dk]
  ring

/-- the normalisation -/
noncomputable def ck (k : ℕ) : ℝ := Real.sqrt 2 / Real.sqrt (k * (k + 1))

theorem ck_sq (k : ℕ) : ck k * ck k = 2 / (k * (k + 1)) := by
  rw [ck, div_mul_div_comm, Real.mul_self_sqrt (by norm_num), Real.mul_self_sqrt (by positivity)]

theorem suDiag_eq (N k : ℕ) (h : k < N) : suDiag N k = diagonal fun a : Fin N => ((ck k * dk k a : ℝ) : ℂ) := by
  have e0 : ∀ a : Fin N, suDiag0 N k a a = ((dk k a : ℝ) : ℂ) := by
    intro a
    simp only [suDiag0, dk, if_true]
    split_ifs <;> simp
  have e1 : ∑ a : Fin N, ‖suDiag0 N k a a‖ ^ 2 = k * (k + 1) := by
    rw [← sum_dk_sq N k h]
    refine Finset.sum_congr rfl fun a _ => ?_
    rw [e0, Complex.norm_real, Real.norm_eq_abs, sq_abs, sq]
  ext a b
  rw [suDiag, e1, Matrix.smul_apply]
  by_cases hab : a = b
  · subst hab
    rw [e0, diagonal_apply_eq, smul_eq_mul, ← Complex.ofReal_mul, ck]
  · rw [diagonal_apply_ne _ hab]
    simp [suDiag0, hab]

theorem trace_suDiag {N : ℕ} (Q : Matrix (Fin N) (Fin N) ℂ) (k : ℕ) (h : k < N) :
    trace (Q * suDiag N k) = ∑ a, Q a a * ((ck k * dk k a : ℝ) : ℂ) := by
  rw [suDiag_eq N k h]
  simp [trace, mul_diagonal]

/-! ### the list -/

theorem mem_su {N : ℕ} {u : Matrix (Fin N) (Fin N) ℂ} (h : u ∈ su N) :
    (∃ i j : Fin N, j < i ∧ (u = suSym N i j ∨ u = suAnti N i j)) ∨ ∃ k, 1 ≤ k ∧ k < N ∧ u = suDiag N k := by
  simp only [su, List.mem_append, List.mem_flatMap, List.mem_range, List.mem_map, List.mem_range'_1, List.mem_cons,
    List.not_mem_nil, or_false] at h
  rcases h with ⟨i, hi, j, hj, h⟩ | ⟨k, hk, rfl⟩
  · exact .inl ⟨⟨i, hi⟩, ⟨j, by omega⟩, hj, h⟩
  · exact .inr ⟨k, by omega, by omega, rfl⟩

/-- **C30** how many -/
theorem su_length (N : ℕ) : (su N).length = N ^ 2 - 1 := by
  have h : ∀ M, ((List.range M).flatMap fun i => (List.range i).flatMap fun j => [suSym N i j, suAnti N i j]).length = M * (M - 1) := by
    intro M
    induction M with
    | zero => simp
    | succ M ih =>
      rw [List.range_succ, List.flatMap_append, List.length_append, ih]
      have : ∀ i, ((List.range i).flatMap fun j => [suSym N M j, suAnti N M j]).length = 2 * i := by
        intro i
        induction i with
        | zero => simp
        | succ i ih2 =>
          rw [List.range_succ, List.flatMap_append, List.length_append, ih2]
          simp
          omega
      simp only [List.flatMap_cons, List.flatMap_nil, List.append_nil, this]
      rcases M with _ | M
      · simp
      · simp; ring
  rw [su, List.length_append, h, List.length_map, List.length_range']
  rcases N with _ | N
  · simp
  · simp; ring_nf; omega

/-- **C30** Hermitian and traceless -/
theorem su_hermitian_traceless (N : ℕ) : ∀ u ∈ su N, u.IsHermitian ∧ trace u = 0 := by
  intro u hu
  rcases mem_su hu with ⟨i, j, hij, rfl | rfl⟩ | ⟨k, hk, hkN, rfl⟩
  · refine ⟨?_, ?_⟩
    · ext a b
      simp only [conjTranspose_apply, suSym]
      by_cases h : (a.val = i.val ∧ b.val = j.val) ∨ (a.val = j.val ∧ b.val = i.val)
      · rw [if_pos h, if_pos (by tauto), star_one]
      · rw [if_neg h, if_neg (by tauto), star_zero]
    · have := trace_suSym (1 : Matrix (Fin N) (Fin N) ℂ) i j (ne_of_gt hij)
      rwa [Matrix.one_mul, one_apply_ne (ne_of_gt hij), one_apply_ne (ne_of_lt hij), add_zero] at this
  · refine ⟨?_, ?_⟩
    · ext a b
      have : j.val < i.val := hij
      simp only [conjTranspose_apply, suAnti]
      by_cases h1 : a.val = i.val ∧ b.val = j.val
      · rw [if_pos h1, if_neg (by omega), if_pos (by omega)]
        simp
      · by_cases h2 : a.val = j.val ∧ b.val = i.val
        · rw [if_neg h1, if_pos h2, if_pos (by omega)]
          simp
        · rw [if_neg h1, if_neg h2, if_neg (by omega), if_neg (by omega)]
          simp
    · have := trace_suAnti (1 : Matrix (Fin N) (Fin N) ℂ) i j (ne_of_gt hij)
      rwa [Matrix.one_mul, one_apply_ne (ne_of_gt hij), one_apply_ne (ne_of_lt hij), sub_self] at this
  · refine ⟨?_, ?_⟩
    · rw [suDiag_eq N k hkN, IsHermitian, diagonal_conjTranspose]
      congr 1
      funext a
      simp [← Complex.ofReal_mul]
    · have := trace_suDiag (1 : Matrix (Fin N) (Fin N) ℂ) k hkN
      rw [Matrix.one_mul] at this
      rw [this]
      simp only [one_apply_eq, one_mul]
      rw [← Complex.ofReal_sum, ← Finset.mul_sum, sum_dk N k hkN]
      simp

theorem dk_ne {N : ℕ} {i j : Fin N} (h : j < i) : (¬ i = j) ∧ ¬ j = i ∧ i.val ≠ j.val := by
  have : j.val < i.val := h
  exact ⟨fun e => by rw [e] at this; omega, fun e => by rw [e] at this; omega, by omega⟩

/-- **C30** normalisation -/
theorem su_norm (N : ℕ) : ∀ u ∈ su N, trace (u * u) = 2 := by
  intro u hu
  rcases mem_su hu with ⟨i, j, hij, rfl | rfl⟩ | ⟨k, hk, hkN, rfl⟩
  · obtain ⟨h1, h2, h3⟩ := dk_ne hij
    rw [trace_suSym _ i j h1]
    simp [suSym]
    norm_num
  · obtain ⟨h1, h2, h3⟩ := dk_ne hij
    rw [trace_suAnti _ i j h1]
    simp [suAnti, h3, h3.symm]
    norm_num
  · rw [trace_suDiag _ k hkN, suDiag_eq N k hkN]
    simp only [diagonal_apply_eq]
    rw [Finset.sum_congr rfl (g := fun a : Fin N => ((ck k * ck k * (dk k a * dk k a) : ℝ) : ℂ)) (fun a _ => by push_cast; ring),
      ← Complex.ofReal_sum, ← Finset.mul_sum, sum_dk_sq N k hkN, ck_sq]
    have : (0 : ℝ) < k := by exact_mod_cast hk
    rw [div_mul_cancel₀ _ (by positivity)]
    norm_num

theorem suSym_apply {N : ℕ} (i j : ℕ) (a b : Fin N) : suSym N i j a b = if (a.val = i ∧ b.val = j) ∨ (a.val = j ∧ b.val = i) then 1 else 0 := rfl

/-- **C30** orthogonality -/
theorem su_orthogonal (N : ℕ) : (su N).Pairwise fun u v => trace (u * v) = 0 := by
  have off : ∀ i j : Fin N, j < i → ∀ i' j' : Fin N, j' < i' → (i, j) ≠ (i', j') →
      ∀ u v, (u = suSym N i j ∨ u = suAnti N i j) → (v = suSym N i' j' ∨ v = suAnti N i' j') → trace (u * v) = 0 := by
    intro i j hij i' j' hij' hne u v hu hv
    have h1 : j.val < i.val := hij
    have h2 : j'.val < i'.val := hij'
    have h3 : ¬ (i.val = i'.val ∧ j.val = j'.val) := fun e => hne (Prod.ext (Fin.ext e.1) (Fin.ext e.2))
    have hz1 : u i' j' = 0 := by
      rcases hu with rfl | rfl
      · simp only [suSym]; rw [if_neg (by omega)]
      · simp only [suAnti]; rw [if_neg (by omega), if_neg (by omega)]
    have hz2 : u j' i' = 0 := by
      rcases hu with rfl | rfl
      · simp only [suSym]; rw [if_neg (by omega)]
      · simp only [suAnti]; rw [if_neg (by omega), if_neg (by omega)]
    rcases hv with rfl | rfl
    · rw [trace_suSym _ i' j' (dk_ne hij').1, hz1, hz2, add_zero]
    · rw [trace_suAnti _ i' j' (dk_ne hij').1, hz1, hz2]
      ring
  rw [su, List.pairwise_append]
  refine ⟨?_, ?_, ?_⟩
  · rw [List.pairwise_flatMap]
    refine ⟨?_, ?_⟩
    · intro i hi
      rw [List.mem_range] at hi
      rw [List.pairwise_flatMap]
      refine ⟨?_, ?_⟩
      · intro j hj
        rw [List.mem_range] at hj
        simp only [List.pairwise_cons, List.mem_singleton, forall_eq, List.not_mem_nil, false_implies, implies_true,
          List.Pairwise.nil, and_self, and_true]
        have := trace_suAnti (suSym N i j) ⟨i, hi⟩ ⟨j, by omega⟩ (by simp; omega)
        rw [this]
        simp [suSym]
      · refine List.Pairwise.imp_of_mem ?_ (List.pairwise_lt_range)
        intro j j' hj hj' hlt x hx y hy
        rw [List.mem_range] at hj hj'
        refine off ⟨i, hi⟩ ⟨j, by omega⟩ hj ⟨i, hi⟩ ⟨j', by omega⟩ hj' (by simp; omega) x y ?_ ?_
        · simpa using hx
        · simpa using hy
    · refine List.Pairwise.imp_of_mem ?_ (List.pairwise_lt_range)
      intro i i' hi hi' hlt x hx y hy
      rw [List.mem_range] at hi hi'
      simp only [List.mem_flatMap, List.mem_range] at hx hy
      obtain ⟨j, hj, hx⟩ := hx
      obtain ⟨j', hj', hy⟩ := hy
      refine off ⟨i, hi⟩ ⟨j, by omega⟩ hj ⟨i', hi'⟩ ⟨j', by omega⟩ hj' (by simp; omega) x y ?_ ?_
      · simpa using hx
      · simpa using hy
  · rw [List.pairwise_map]
    refine List.Pairwise.imp_of_mem ?_ List.pairwise_lt_range'
    intro k l hk hl hlt
    rw [List.mem_range'_1] at hk hl
    rw [trace_suDiag _ l (by omega), suDiag_eq N k (by omega)]
    simp only [diagonal_apply_eq]
    rw [Finset.sum_congr rfl (g := fun a : Fin N => ((ck k * ck l * (dk k a * dk l a) : ℝ) : ℂ)) (fun a _ => by push_cast; ring),
      ← Complex.ofReal_sum, ← Finset.mul_sum, sum_dk_mul N k l hlt (by omega)]
    simp
  · intro u hu v hv
    simp only [List.mem_flatMap, List.mem_range, List.mem_cons, List.not_mem_nil, or_false] at hu
    simp only [List.mem_map, List.mem_range'_1] at hv
    obtain ⟨i, hi, j, hj, hu⟩ := hu
    obtain ⟨k, hk, rfl⟩ := hv
    rw [trace_suDiag _ k (by omega)]
    refine Finset.sum_eq_zero fun a _ => ?_
    rcases hu with rfl | rfl
    · simp only [suSym]
      rw [if_neg (by omega), zero_mul]
    · simp only [suAnti]
      rw [if_neg (by omega), if_neg (by omega), zero_mul]

/-! ### completeness -/

theorem helmert (N : ℕ) : ∀ a b, a < N → b < N →
    ((List.range' 1 (N - 1)).map fun k : ℕ => dk k a * dk k b * (1 / (k * (k + 1) : ℝ))).sum = (if a = b then 1 else 0) - 1 / (N : ℝ) := by
  induction N with
  | zero => intro a b h; omega
  | succ N ih =>
    intro a b ha hb
    rcases Nat.eq_zero_or_pos N with rfl | hN
    · have : a = 0 := by omega
      have : b = 0 := by omega
      subst a b
      simp
    · have e : List.range' 1 (N + 1 - 1) = List.range' 1 (N - 1) ++ [N] := by
        rw [show N + 1 - 1 = (N - 1) + 1 by omega, List.range'_concat]
        congr 2
        omega
      rw [e, List.map_append, List.sum_append]
      have hN' : (0 : ℝ) < N := by exact_mod_cast hN
      by_cases h1 : a < N
      · by_cases h2 : b < N
        · rw [ih a b h1 h2]
          simp only [List.map_cons, List.map_nil, List.sum_cons, List.sum_nil, dk, h1, h2, if_true]
          push_cast
          field_simp
          ring
        · have h2' : b = N := by omega
          subst h2'
          rw [List.map_congr_left (g := fun _ => (0 : ℝ)) (fun k hk => by
            rw [List.mem_range'_1] at hk
            have : dk k b = 0 := by simp only [dk]; rw [if_neg (by omega), if_neg (by omega)]
            rw [this]; ring)]
          simp only [List.map_cons, List.map_nil, List.sum_cons, List.sum_nil, dk, h1, if_true, lt_irrefl, if_false,
            List.map_const', List.sum_replicate, smul_zero]
          rw [if_neg (by omega)]
          push_cast
          field_simp
          ring
      · have h1' : a = N := by omega
        subst h1'
        rw [List.map_congr_left (g := fun _ => (0 : ℝ)) (fun k hk => by
          rw [List.mem_range'_1] at hk
          have : dk k a = 0 := by simp only [dk]; rw [if_neg (by omega), if_neg (by omega)]
          rw [this]; ring)]
        by_cases h2 : b < a
        · simp only [List.map_cons, List.map_nil, List.sum_cons, List.sum_nil, dk, h2, if_true, lt_irrefl, if_false,
            List.map_const', List.sum_replicate, smul_zero]
          rw [if_neg (by omega)]
          push_cast
          field_simp
          ring
        · have : b = a := by omega
          subst this
          simp only [List.map_cons, List.map_nil, List.sum_cons, List.sum_nil, dk, if_true, lt_irrefl, if_false,
            List.map_const', List.sum_replicate, smul_zero]
          push_cast
          field_simp
          ring

theorem sum_map_apply {N : ℕ} {α : Type} (l : List α) (f : α → Matrix (Fin N) (Fin N) ℂ) (a b : Fin N) :
    (l.map f).sum a b = (l.map fun x => f x a b).sum := by
  induction l with
  | nil => simp
  | cons x l ih => simp [ih]

theorem sum_map_flatMap {α β : Type} {M : Type} [AddCommMonoid M] (l : List α) (g : α → List β) (f : β → M) :
    ((l.flatMap g).map f).sum = (l.map fun x => ((g x).map f).sum).sum := by
  induction l with
  | nil => simp
  | cons x l ih => simp [ih]

theorem sum_map_ite {M : Type} [AddCommMonoid M] (n k : ℕ) (c : M) :
    ((List.range n).map fun i => if i = k then c else 0).sum = if k < n then c else 0 := by
  induction n with
  | zero => simp
  | succ n ih =>
    rw [List.range_succ, List.map_append, List.sum_append, ih]
    by_cases h : k < n
    · simp [h, show ¬ n = k by omega, show k < n + 1 by omega]
    · by_cases h2 : n = k
      · subst h2; simp
      · simp [h, h2, show ¬ k < n + 1 by omega]

/-- **C30** every traceless matrix is the combination of generators with coefficients `components(Q)` -/
theorem su_complete {N : ℕ} (Q : Matrix (Fin N) (Fin N) ℂ) (hQ : trace Q = 0) :
    (List.zipWith (· • ·) (components Q) (su N)).sum = Q := by
  rw [components, List.zipWith_map_left, List.zipWith_self]
  ext a b
  rw [sum_map_apply, su, List.map_append, List.sum_append, sum_map_flatMap]
  have hoff : ((List.range N).map fun i => (((List.range i).flatMap fun j => [suSym N i j, suAnti N i j]).map fun u =>
      ((trace (Q * u) / 2) • u) a b).sum).sum = if a = b then 0 else Q a b := by
    have key : ∀ i ∈ List.range N, (((List.range i).flatMap fun j => [suSym N i j, suAnti N i j]).map fun u =>
        ((trace (Q * u) / 2) • u) a b).sum =
        (if i = a.val then (if b.val < a.val then Q a b else 0) else 0) + if i = b.val then (if a.val < b.val then Q a b else 0) else 0 := by
      intro i hi
      rw [List.mem_range] at hi
      rw [sum_map_flatMap]
      have : ∀ j ∈ List.range i, ([suSym N i j, suAnti N i j].map fun u => ((trace (Q * u) / 2) • u) a b).sum =
          (if j = b.val then (if i = a.val then Q a b else 0) else 0) + if j = a.val then (if i = b.val then Q a b else 0) else 0 := by
        intro j hj
        rw [List.mem_range] at hj
        have hji : (⟨i, hi⟩ : Fin N) ≠ ⟨j, by omega⟩ := by simp; omega
        have t1 := trace_suSym Q ⟨i, hi⟩ ⟨j, by omega⟩ hji
        have t2 := trace_suAnti Q ⟨i, hi⟩ ⟨j, by omega⟩ hji
        simp only at t1 t2
        simp only [List.map_cons, List.map_nil, List.sum_cons, List.sum_nil, add_zero, Matrix.smul_apply, smul_eq_mul, t1, t2, suSym, suAnti]
        have hI := Complex.I_mul_I
        by_cases h1 : a.val = i ∧ b.val = j
        · obtain ⟨h1, h2⟩ := h1
          have ea : (⟨i, hi⟩ : Fin N) = a := Fin.ext h1.symm
          have eb : (⟨j, by omega⟩ : Fin N) = b := Fin.ext h2.symm
          rw [if_pos (Or.inl ⟨h1, h2⟩), if_pos ⟨h1, h2⟩, if_pos h2.symm, if_pos h1.symm, if_neg (show ¬ j = a.val by omega), ea, eb]
          linear_combination (-(Q a b - Q b a) / 2) * hI
        · by_cases h2 : a.val = j ∧ b.val = i
          · obtain ⟨h3, h2⟩ := h2
            have ea : (⟨i, hi⟩ : Fin N) = b := Fin.ext h2.symm
            have eb : (⟨j, by omega⟩ : Fin N) = a := Fin.ext h3.symm
            rw [if_pos (Or.inr ⟨h3, h2⟩), if_neg h1, if_pos ⟨h3, h2⟩, if_neg (show ¬ j = b.val by omega), if_pos h3.symm, if_pos h2.symm, ea, eb]
            linear_combination ((Q b a - Q a b) / 2) * hI
          · rw [if_neg (by tauto), if_neg h1, if_neg h2]
            have e1 : (if j = b.val then (if i = a.val then Q a b else 0) else 0) = 0 := by
              by_cases h3 : j = b.val
              · rw [if_pos h3, if_neg (fun e => h1 ⟨e.symm, h3.symm⟩)]
              · rw [if_neg h3]
            have e2 : (if j = a.val then (if i = b.val then Q a b else 0) else 0) = 0 := by
              by_cases h3 : j = a.val
              · rw [if_pos h3, if_neg (fun e => h2 ⟨h3.symm, e.symm⟩)]
              · rw [if_neg h3]
            rw [e1, e2]
            ring
      rw [List.map_congr_left this, List.sum_map_add, sum_map_ite, sum_map_ite]
      congr 1
      · by_cases h : i = a.val
        · simp [h]
        · simp [h]
      · by_cases h : i = b.val
        · simp [h]
        · simp [h]
    rw [List.map_congr_left key, List.sum_map_add, sum_map_ite, sum_map_ite, if_pos a.isLt, if_pos b.isLt]
    by_cases h : a = b
    · subst h; simp
    · rw [if_neg h]
      have : a.val ≠ b.val := fun e => h (Fin.ext e)
      rcases lt_or_gt_of_ne this with h1 | h1
      · rw [if_neg (by omega), if_pos h1, zero_add]
      · rw [if_pos h1, if_neg (by omega), add_zero]
  rw [hoff, List.map_map]
  have hdiag : ∀ k ∈ List.range' 1 (N - 1), ((fun x => ((trace (Q * x) / 2) • x) a b) ∘ suDiag N) k =
      if a = b then ∑ c, Q c c * (((dk k c * dk k a * (1 / (k * (k + 1) : ℝ)) : ℝ)) : ℂ) else 0 := by
    intro k hk
    rw [List.mem_range'_1] at hk
    have hkN : k < N := by omega
    simp only [Function.comp_apply, Matrix.smul_apply, smul_eq_mul]
    rw [trace_suDiag Q k hkN, suDiag_eq N k hkN]
    by_cases h : a = b
    · subst h
      rw [diagonal_apply_eq, if_pos rfl, Finset.sum_div, Finset.sum_mul]
      refine Finset.sum_congr rfl fun c _ => ?_
      have : Q c c * ((ck k * dk k c : ℝ) : ℂ) / 2 * ((ck k * dk k a : ℝ) : ℂ) = Q c c * ((ck k * ck k / 2 * (dk k c * dk k a) : ℝ) : ℂ) := by
        push_cast; ring
      rw [this, ck_sq]
      congr 2
      ring
    · rw [diagonal_apply_ne _ h, if_neg h, mul_zero]
  rw [List.map_congr_left hdiag]
  by_cases h : a = b
  · subst h
    simp only [if_true, zero_add]
    have swap : ∀ l : List ℕ, (l.map fun k : ℕ => ∑ c, Q c c * (((dk k c * dk k a * (1 / (k * (k + 1) : ℝ)) : ℝ)) : ℂ)).sum =
        ∑ c, Q c c * (((l.map fun k : ℕ => dk k c * dk k a * (1 / (k * (k + 1) : ℝ))).sum : ℝ) : ℂ) := by
      intro l
      induction l with
      | nil => simp
      | cons k l ih =>
        simp only [List.map_cons, List.sum_cons, ih, ← Finset.sum_add_distrib]
        refine Finset.sum_congr rfl fun c _ => ?_
        push_cast
        ring
    rw [swap]
    rw [Finset.sum_congr rfl (g := fun c => Q c c * (((if c = a then 1 else 0) - 1 / (N : ℝ) : ℝ) : ℂ)) (fun c _ => by
      rw [helmert N c a c.isLt a.isLt]
      simp only [Fin.ext_iff])]
    have : ∀ c : Fin N, Q c c * (((if c = a then 1 else 0) - 1 / (N : ℝ) : ℝ) : ℂ) = (if c = a then Q c c else 0) - Q c c * (1 / (N : ℂ)) := by
      intro c
      split_ifs <;> push_cast <;> ring
    rw [Finset.sum_congr rfl (fun c _ => this c), Finset.sum_sub_distrib, Finset.sum_ite_eq' Finset.univ a, ← Finset.sum_mul]
    rw [show ∑ c, Q c c = trace Q from rfl, hQ]
    simp
  · simp [h]

theorem ortho_sum {N : ℕ} (u : Matrix (Fin N) (Fin N) ℂ) : ∀ (l : List (Matrix (Fin N) (Fin N) ℂ)) (v : List ℂ),
    (∀ w ∈ l, trace (u * w) = 0) → trace ((List.zipWith (· • ·) v l).sum * u) = 0
  | [], v, _ => by simp
  | w :: l, [], _ => by simp
  | w :: l, x :: v, h => by
    have := ortho_sum u l v fun w hw => h w (by simp [hw])
    simp only [List.zipWith_cons_cons, List.sum_cons, Matrix.add_mul, trace_add, this, add_zero, smul_mul, trace_smul]
    rw [trace_mul_comm, h w (by simp), smul_zero]

/-- **C30** and the coefficients are unique: `components` undoes the combination. -/
theorem su_components (N : ℕ) (v : List ℂ) (hv : v.length = N ^ 2 - 1) :
    components (List.zipWith (· • ·) v (su N)).sum = v := by
  have gen : ∀ (l : List (Matrix (Fin N) (Fin N) ℂ)) (v : List ℂ), v.length = l.length → l.Pairwise (fun u v => trace (u * v) = 0) →
      (∀ u ∈ l, trace (u * u) = 2) → (l.map fun u => trace ((List.zipWith (· • ·) v l).sum * u) / 2) = v := by
    intro l
    induction l with
    | nil => intro v hv _ _; simp at hv; simp [hv]
    | cons w l ih =>
      intro v hv hp hn
      match v, hv with
      | x :: v, hv =>
        rw [List.pairwise_cons] at hp
        have h1 := ih v (by simpa using hv) hp.2 fun u hu => hn u (by simp [hu])
        simp only [List.zipWith_cons_cons, List.sum_cons, List.map_cons, Matrix.add_mul, trace_add, smul_mul, trace_smul]
        rw [ortho_sum w l v hp.1, hn w (by simp)]
        congr 1
        · simp
        · refine Eq.trans (List.map_congr_left fun u hu => ?_) h1
          rw [hp.1 u hu, smul_zero, zero_add]
  exact gen (su N) v (by rw [hv, su_length]) (su_orthogonal N) (su_norm N)

/-- a concrete case -/
example : trace (!![1, 2; 3, -1] : Matrix (Fin 2) (Fin 2) ℂ) = 0 := by simp [trace_fin_two]

example := su_complete (!![1, 2; 3, -1] : Matrix (Fin 2) (Fin 2) ℂ) (by simp [trace_fin_two])

end Xmps.Spin
