import Verif.Spec.MpoEff
import Verif.Model.ProjFmpo
import Verif.Props.Mpo

/-!
# C110: the matrix product operator of `projects/fMPO.py` is the anisotropic Heisenberg Hamiltonian
-/

namespace Xmps.ProjMpo

open Finset Xmps.Spec

theorem swapBoth_ok {M : ND ℂ} {p q r s : ℕ} (hM : M.shape = [p, q, r, s]) : (swapBoth M).shape = [r, s, p, q] ∧
    ∀ a b i j, (swapBoth M).val [i, j, a, b] = M.val [a, b, i, j] := by
  have hr : M.rank = 4 := by simp [ND.rank, hM]
  constructor
  · simp [swapBoth, ND.transposeR, ND.dim, hM]
  · intro a b i j
    simp [swapBoth, ND.transposeR, ND.rank, hM, List.range_succ]

theorem first_shape (h J Jz : ℂ) : (first h J Jz).shape = [1, 5, 2, 2] := rfl
theorem bulk_shape (h J Jz : ℂ) : (bulk h J Jz).shape = [5, 5, 2, 2] := rfl
theorem last_shape (h : ℂ) : (last h).shape = [5, 1, 2, 2] := rfl

theorem sp_val {a b : ℕ} (ha : a < 2) (hb : b < 2) : sp.val [a, b] = if a = 0 ∧ b = 1 then 1 else 0 := by
  interval_cases a <;> interval_cases b <;> simp [sp, Ham.ofMat]

theorem sm_val {a b : ℕ} (ha : a < 2) (hb : b < 2) : sm.val [a, b] = if a = 1 ∧ b = 0 then 1 else 0 := by
  interval_cases a <;> interval_cases b <;> simp [sm, Ham.ofMat]

theorem szz_val {a b : ℕ} (ha : a < 2) (hb : b < 2) : szz.val [a, b] = pauli 'Z' a b := by
  interval_cases a <;> interval_cases b <;> simp [szz, Ham.ofMat, pauli]

/-- `S⁺S⁻ + S⁻S⁺ = (XX + YY)/2` -/
theorem flip_flop {a b a' b' : ℕ} (ha : a < 2) (hb : b < 2) (ha' : a' < 2) (hb' : b' < 2) :
    sm.val [a, b] * sp.val [a', b'] + sp.val [a, b] * sm.val [a', b'] =
      1 / 2 * (pauli 'X' a b * pauli 'X' a' b' + pauli 'Y' a b * pauli 'Y' a' b') := by
  rw [sp_val ha hb, sm_val ha hb, sp_val ha' hb', sm_val ha' hb']
  interval_cases a <;> interval_cases b <;> interval_cases a' <;> interval_cases b' <;> simp [pauli] <;> norm_num

/-- the Hamiltonian: `J/2 Σ (S⁺S⁻ + S⁻S⁺) + Jz Σ ZZ − h Σ Z`, in terms of Pauli matrices -/
noncomputable def anisoDict (h J Jz : ℂ) : List (List Char × ℂ) := [(['X', 'X'], J / 4), (['Y', 'Y'], J / 4), (['Z', 'Z'], Jz), (['Z'], -h)]

section
variable (h J Jz : ℂ)

/-- the tensors after the first one -/
noncomputable def tailOps (n : ℕ) : List (ND ℂ) := List.replicate n (swapBoth (bulk h J Jz)) ++ [swapBoth (last h)]

theorem tail_zero : tailOps h J Jz 0 = [swapBoth (last h)] := rfl
theorem tail_succ (n : ℕ) : tailOps h J Jz (n + 1) = swapBoth (bulk h J Jz) :: tailOps h J Jz n := rfl

theorem opAmp_last (a b i : ℕ) : opAmp [swapBoth (last h)] [a] [b] i 0 = (last h).val [i, 0, a, b] := by
  obtain ⟨h1, h2⟩ := swapBoth_ok (last_shape h)
  simp [opAmp, ND.dim, h1, h2]

theorem opAmp_bulk (a b i : ℕ) (Ws : List (ND ℂ)) (s t : List ℕ) : opAmp (swapBoth (bulk h J Jz) :: Ws) (a :: s) (b :: t) i 0 =
    ∑ c ∈ range 5, (bulk h J Jz).val [i, c, a, b] * opAmp Ws s t c 0 := by
  obtain ⟨h1, h2⟩ := swapBoth_ok (bulk_shape h J Jz)
  simp only [opAmp, ND.dim, h1, h2]
  rfl

theorem tail_row0 : ∀ (n : ℕ) (s t : List ℕ), InB (List.replicate (n + 1) 2) s → InB (List.replicate (n + 1) 2) t →
    opAmp (tailOps h J Jz n) s t 0 0 = if s = t then 1 else 0
  | 0, s, t, hs, ht => by
    match s, t, hs, ht with
    | [a], [b], hs, ht =>
      rw [tail_zero, opAmp_last]
      by_cases e : a = b <;> simp [last, blockArray, eyeND, e]
  | n + 1, s, t, hs, ht => by
    match s, t, hs, ht with
    | a :: s, b :: t, hs, ht =>
      rw [List.replicate_succ, InB_cons] at hs ht
      rw [tail_succ, opAmp_bulk]
      simp only [Finset.sum_range_succ, Finset.sum_range_zero]
      rw [tail_row0 n s t hs.2 ht.2]
      by_cases h1 : a = b <;> by_cases h2 : s = t <;> simp [bulk, blockArray, eyeND, zero2, h1, h2]

theorem tail_rows (n a b : ℕ) (s t : List ℕ) (hs : InB (List.replicate (n + 1) 2) (a :: s)) (ht : InB (List.replicate (n + 1) 2) (b :: t)) :
    opAmp (tailOps h J Jz n) (a :: s) (b :: t) 1 0 = (if s = t then sp.val [a, b] else 0) ∧
    opAmp (tailOps h J Jz n) (a :: s) (b :: t) 2 0 = (if s = t then sm.val [a, b] else 0) ∧
    opAmp (tailOps h J Jz n) (a :: s) (b :: t) 3 0 = if s = t then szz.val [a, b] else 0 := by
  rcases n with _ | n
  · match s, t, hs, ht with
    | [], [], _, _ =>
      rw [tail_zero, opAmp_last, opAmp_last, opAmp_last]
      simp [last, blockArray]
  · rw [List.replicate_succ, InB_cons] at hs ht
    refine ⟨?_, ?_, ?_⟩
    all_goals
      rw [tail_succ, opAmp_bulk]
      simp only [Finset.sum_range_succ, Finset.sum_range_zero]
      rw [tail_row0 h J Jz n s t hs.2 ht.2]
      simp [bulk, blockArray, zero2]

theorem aniso_elem (L : ℕ) (s t : List ℕ) : hamElem (anisoDict h J Jz) L s t =
    J / 4 * (∑ i ∈ range (L - 1), bondElem (pauli 'X') (pauli 'X') i s t) + J / 4 * (∑ i ∈ range (L - 1), bondElem (pauli 'Y') (pauli 'Y') i s t) +
    Jz * (∑ i ∈ range (L - 1), bondElem (pauli 'Z') (pauli 'Z') i s t) - h * ∑ i ∈ range L, siteElem (pauli 'Z') i s t := by
  simp only [anisoDict, hamElem, List.map_cons, List.map_nil, List.sum_cons, List.sum_nil, termElem]
  ring

/-- one more site in front -/
theorem row_step (n a b : ℕ) (s t : List ℕ) (hs : InB (List.replicate (n + 2) 2) (a :: s)) (ht : InB (List.replicate (n + 2) 2) (b :: t))
    (ih : opAmp (tailOps h J Jz n) s t 4 0 = hamElem (anisoDict h J Jz) (n + 1) s t) :
    (scl (-h) szz).val [a, b] * opAmp (tailOps h J Jz n) s t 0 0 + (scl (J / 2) sm).val [a, b] * opAmp (tailOps h J Jz n) s t 1 0 +
      (scl (J / 2) sp).val [a, b] * opAmp (tailOps h J Jz n) s t 2 0 + (scl Jz szz).val [a, b] * opAmp (tailOps h J Jz n) s t 3 0 +
      (eyeND 2 : ND ℂ).val [a, b] * opAmp (tailOps h J Jz n) s t 4 0 = hamElem (anisoDict h J Jz) (n + 2) (a :: s) (b :: t) := by
  rw [List.replicate_succ, InB_cons] at hs ht
  obtain ⟨ha, hs⟩ := hs
  obtain ⟨hb, ht⟩ := ht
  match s, t, hs, ht with
  | a' :: s, b' :: t, hs, ht =>
    obtain ⟨r1, r2, r3⟩ := tail_rows h J Jz n a' b' s t hs ht
    rw [ih, r1, r2, r3, tail_row0 h J Jz n _ _ hs ht, aniso_elem, aniso_elem]
    rw [List.replicate_succ, InB_cons] at hs ht
    have ff := flip_flop ha hb hs.1 ht.1
    simp only [scl, Nat.add_sub_cancel, Ham.site_cons, Ham.bond_cons, szz_val ha hb, szz_val hs.1 ht.1, show n + 2 - 1 = n + 1 by omega]
    have e1 : (eyeND 2 : ND ℂ).val [a, b] = if a = b then 1 else 0 := by simp [eyeND]
    rw [e1]
    by_cases h1 : a = b <;> by_cases h2 : s = t <;> by_cases h3 : a' = b' <;> simp [h1, h2, h3] <;>
      (try subst h1) <;> (try subst h2) <;> (try subst h3) <;> linear_combination (J / 2) * ff

theorem tail_row4 : ∀ (n : ℕ) (s t : List ℕ), InB (List.replicate (n + 1) 2) s → InB (List.replicate (n + 1) 2) t →
    opAmp (tailOps h J Jz n) s t 4 0 = hamElem (anisoDict h J Jz) (n + 1) s t
  | 0, s, t, hs, ht => by
    match s, t, hs, ht with
    | [a], [b], hs, ht =>
      rw [List.replicate_succ, InB_cons] at hs ht
      rw [tail_zero, opAmp_last, aniso_elem]
      simp [last, blockArray, scl, szz_val hs.1 ht.1, siteElem]
  | n + 1, s, t, hs, ht => by
    match s, t, hs, ht with
    | a :: s, b :: t, hs, ht =>
      have hs' := hs
      have ht' := ht
      rw [List.replicate_succ, InB_cons] at hs ht
      rw [tail_succ, opAmp_bulk]
      rw [← row_step h J Jz n a b s t hs' ht' (tail_row4 n s t hs.2 ht.2)]
      simp only [Finset.sum_range_succ, Finset.sum_range_zero]
      simp [bulk, blockArray, lastRow]

/-- **C110** for two sites or more the matrix product operator is the Hamiltonian -/
theorem anisotropicHeisenberg_spec {L : ℕ} (hL : 2 ≤ L) : (anisotropicHeisenberg L h J Jz).length = L ∧
    OpChain (List.replicate L 2) (anisotropicHeisenberg L h J Jz) 1 1 ∧
    ∀ s t, InB (List.replicate L 2) s → InB (List.replicate L 2) t →
      opAmp (anisotropicHeisenberg L h J Jz) s t 0 0 = hamElem (anisoDict h J Jz) L s t := by
  obtain ⟨n, rfl⟩ := Nat.exists_eq_add_of_le' hL
  have e : anisotropicHeisenberg (n + 2) h J Jz = swapBoth (first h J Jz) :: tailOps h J Jz n := by
    simp [anisotropicHeisenberg, tailOps]
  obtain ⟨f1, f2⟩ := swapBoth_ok (first_shape h J Jz)
  refine ⟨by rw [e]; simp [tailOps], ?_, ?_⟩
  · rw [e, List.replicate_succ]
    refine ⟨5, f1, ?_⟩
    have : ∀ m, OpChain (List.replicate (m + 1) 2) (tailOps h J Jz m) 5 1 := by
      intro m
      induction m with
      | zero => exact ⟨1, (swapBoth_ok (last_shape h)).1, rfl⟩
      | succ m ih => exact ⟨5, (swapBoth_ok (bulk_shape h J Jz)).1, ih⟩
    exact this n
  · intro s t hs ht
    match s, t, hs, ht with
    | a :: s, b :: t, hs, ht =>
      have hs' := hs
      have ht' := ht
      rw [List.replicate_succ, InB_cons] at hs ht
      rw [e, ← row_step h J Jz n a b s t hs' ht' (tail_row4 h J Jz n s t hs.2 ht.2)]
      simp only [opAmp, ND.dim, f1, f2]
      simp only [List.getD_cons_succ, List.getD_cons_zero, Finset.sum_range_succ, Finset.sum_range_zero]
      simp [first, blockArray, lastRow]

example := anisotropicHeisenberg_spec 1 2 3 (L := 5) (by omega)

/-- **C110, negation** one site: two tensors are returned -/
theorem anisotropicHeisenberg_one : (anisotropicHeisenberg 1 h J Jz).length = 2 ∧ (anisotropicHeisenberg 0 h J Jz).length = 2 := by
  constructor <;> simp [anisotropicHeisenberg]

end

end Xmps.ProjMpo
