import Verif.Model.QmbLocal
import Verif.Props.Qmb

/-!
# C133: `local_ising` and `local_XX` of `qmb.py`

Specification: `localSum` of `N - 1` copies is the operator on `N` sites that a list `[h]*(N-1)` stands for; `hamElem` is the Hamiltonian of a table of
couplings and fields.
-/

namespace Xmps.Qmb

open Finset Xmps.Spec Xmps.ProjMpo Xmps.Spin

theorem syy_val {a b : ℕ} (ha : a < 2) (hb : b < 2) : syy.val [a, b] = pauli 'Y' a b := by
  interval_cases a <;> interval_cases b <;> simp [syy, Ham.ofMat, pauli]

/-- a multiple of the product of one operator on two sites -/
theorem pair_two (A : ND ℂ) (c : ℂ) {a a' b b' : ℕ} (ha : a < 2) (ha' : a' < 2) (hb : b < 2) (hb' : b' < 2) :
    sumIdx (List.replicate 2 2) (fun u => c * siteElem (fn A) 0 [a, a'] u * siteElem (fn A) 1 u [b, b']) = c * (fn A a b * fn A a' b') := by
  have : sumIdx (List.replicate 2 2) (fun u => c * siteElem (fn A) 0 [a, a'] u * siteElem (fn A) 1 u [b, b']) =
      c * sumIdx (List.replicate 2 2) fun u => siteElem (fn A) 0 [a, a'] u * siteElem (fn A) 1 u [b, b'] := by
    rw [← sumIdx_mul_left]
    exact sumIdx_congr fun u _ => by ring
  rw [this, site_mul _ _ 0 2 [a, a'] [b, b'] le_rfl ⟨ha, ha', trivial⟩ ⟨hb, hb', trivial⟩]
  simp [bondElem]

theorem localSum_copies (M : ND ℂ) (n : ℕ) (s t : List ℕ) : localSum (List.replicate (n + 1) M) s t = ∑ i ∈ range (n + 1), blockElem 2 M i 2 s t := by
  rw [List.replicate_succ', localSum_two, Finset.sum_range_succ]

/-- **C133**: `N - 1` copies of `local_ising(J, g)` are the transverse-field Ising model with half the field on the two ends. -/
theorem localIsing_spec (J g : ℂ) {N : ℕ} (hN : 2 ≤ N) : ∃ M, localIsing J g = .ok M ∧ M.shape = [4, 4] ∧
    ∀ s t, InB (List.replicate N 2) s → InB (List.replicate N 2) t → localSum (List.replicate (N - 1) M) s t =
      hamElem [(['Z', 'Z'], -J), (['X'], -g)] N s t + g / 2 * (siteElem (pauli 'X') 0 s t + siteElem (pauli 'X') (N - 1) s t) := by
  obtain ⟨n, rfl⟩ := Nat.exists_eq_add_of_le' hN
  obtain ⟨Z, z1, z2⟩ := sNBody_spec (op := szz) rfl (i := 0) (n := 2) (by omega)
  obtain ⟨Z', z1', z2'⟩ := sNBody_spec (op := szz) rfl (i := 1) (n := 2) (by omega)
  obtain ⟨X, x1, x2⟩ := sNBody_spec (op := sxx) rfl (i := 0) (n := 2) (by omega)
  obtain ⟨X', x1', x2'⟩ := sNBody_spec (op := sxx) rfl (i := 1) (n := 2) (by omega)
  obtain ⟨P, p1, p2⟩ := (z2.scl J).mul z2'
  obtain ⟨S, s1, s2⟩ := x2.zip (· + ·) x2'
  obtain ⟨E, e1, e2⟩ := p2.zip (· + ·) (s2.scl (g / 2))
  have e3 := e2.scl (-1)
  simp only [Nat.cast_zero, Nat.cast_one] at z1 z1' x1 x1'
  refine ⟨scl (-1) E, ?_, e3.1, fun s t hs ht => ?_⟩
  · unfold localIsing zzTerm add2
    rw [z1, ok_bind, z1', ok_bind, p1, ok_bind, x1, ok_bind, x1', ok_bind, s1, ok_bind, e1, ok_bind]
  have zv : ∀ {a b}, a < 2 → b < 2 → fn szz a b = pauli 'Z' a b := fun ha hb => szz_val ha hb
  have xv : ∀ {a b}, a < 2 → b < 2 → fn sxx a b = pauli 'X' a b := fun ha hb => sxx_val ha hb
  have gE := block_place (scl (-1) E)
    (fun i s t => -(J * bondElem (pauli 'Z') (pauli 'Z') i s t + g / 2 * (siteElem (pauli 'X') i s t + siteElem (pauli 'X') (i + 1) s t))) (by
      intro a a' b b' s t ha ha' hb hb'
      rw [e3.two ha ha' hb hb']
      simp only [pair_two szz J ha ha' hb hb']
      by_cases e : s = t
      · by_cases e' : a' = b' <;> by_cases e'' : a = b <;>
          simp [bondElem, siteElem, e, e', e'', xv ha hb, xv ha' hb', xv hb hb, xv hb' hb', zv ha hb, zv ha' hb', zv hb hb, zv hb' hb']
      · simp [bondElem, siteElem, e]) (by
      intro i a b s t
      by_cases e : a = b <;> simp [bondElem, siteElem, e])
  have hsum : ∑ i ∈ range (n + 1), siteElem (pauli 'X') (i + 1) s t = (∑ i ∈ range (n + 2), siteElem (pauli 'X') i s t) - siteElem (pauli 'X') 0 s t := by
    rw [Finset.sum_range_succ' _ (n + 1)]
    ring
  have hsum' : ∑ i ∈ range (n + 1), siteElem (pauli 'X') i s t = (∑ i ∈ range (n + 2), siteElem (pauli 'X') i s t) - siteElem (pauli 'X') (n + 1) s t := by
    rw [Finset.sum_range_succ _ (n + 1)]
    ring
  rw [show n + 2 - 1 = n + 1 by omega, localSum_copies, Finset.sum_congr rfl fun i hi => gE i (n + 2) s t (by have := mem_range.1 hi; omega) hs ht]
  simp only [hamElem, List.map_cons, List.map_nil, List.sum_cons, List.sum_nil, termElem, show n + 2 - 1 = n + 1 by omega, Finset.sum_neg_distrib,
    Finset.sum_add_distrib, ← Finset.mul_sum, hsum, hsum']
  ring

/-- **C133**: `N - 1` copies of `local_XX(J, g)` are the XX model with couplings `-J/2` and a field `-J`, which the last site does not feel; `g` does not
enter. -/
theorem localXX_spec (J g : ℂ) {N : ℕ} (hN : 2 ≤ N) : ∃ M, localXX J g = .ok M ∧ M.shape = [4, 4] ∧
    ∀ s t, InB (List.replicate N 2) s → InB (List.replicate N 2) t → localSum (List.replicate (N - 1) M) s t =
      hamElem [(['X', 'X'], -J / 2), (['Y', 'Y'], -J / 2), (['Z'], -J)] N s t + J * siteElem (pauli 'Z') (N - 1) s t := by
  obtain ⟨n, rfl⟩ := Nat.exists_eq_add_of_le' hN
  obtain ⟨Z, z1, z2⟩ := sNBody_spec (op := szz) rfl (i := 0) (n := 2) (by omega)
  obtain ⟨X, x1, x2⟩ := sNBody_spec (op := sxx) rfl (i := 0) (n := 2) (by omega)
  obtain ⟨X', x1', x2'⟩ := sNBody_spec (op := sxx) rfl (i := 1) (n := 2) (by omega)
  obtain ⟨Y, y1, y2⟩ := sNBody_spec (op := syy) rfl (i := 0) (n := 2) (by omega)
  obtain ⟨Y', y1', y2'⟩ := sNBody_spec (op := syy) rfl (i := 1) (n := 2) (by omega)
  obtain ⟨P, p1, p2⟩ := (x2.scl (1 / 2)).mul x2'
  obtain ⟨Q, q1, q2⟩ := (y2.scl (1 / 2)).mul y2'
  obtain ⟨S, s1, s2⟩ := z2.zip (· + ·) p2
  obtain ⟨E, e1, e2⟩ := s2.zip (· + ·) q2
  have e3 := e2.scl (-J)
  simp only [Nat.cast_zero, Nat.cast_one] at z1 x1 x1' y1 y1'
  refine ⟨scl (-J) E, ?_, e3.1, fun s t hs ht => ?_⟩
  · unfold localXX add2
    rw [z1, ok_bind, x1, ok_bind, x1', ok_bind, p1, ok_bind, y1, ok_bind, y1', ok_bind, q1, ok_bind, s1, ok_bind, e1, ok_bind]
  have zv : ∀ {a b}, a < 2 → b < 2 → fn szz a b = pauli 'Z' a b := fun ha hb => szz_val ha hb
  have xv : ∀ {a b}, a < 2 → b < 2 → fn sxx a b = pauli 'X' a b := fun ha hb => sxx_val ha hb
  have yv : ∀ {a b}, a < 2 → b < 2 → fn syy a b = pauli 'Y' a b := fun ha hb => syy_val ha hb
  have gE := block_place (scl (-J) E)
    (fun i s t => -J * (siteElem (pauli 'Z') i s t + 1 / 2 * bondElem (pauli 'X') (pauli 'X') i s t + 1 / 2 * bondElem (pauli 'Y') (pauli 'Y') i s t)) (by
      intro a a' b b' s t ha ha' hb hb'
      rw [e3.two ha ha' hb hb']
      simp only [pair_two sxx (1 / 2) ha ha' hb hb', pair_two syy (1 / 2) ha ha' hb hb', xv ha hb, xv ha' hb', yv ha hb, yv ha' hb']
      by_cases e : s = t
      · by_cases e' : a' = b' <;> simp [bondElem, siteElem, e, e', zv ha hb]
      · simp [bondElem, siteElem, e]) (by
      intro i a b s t
      by_cases e : a = b <;> simp [bondElem, siteElem, e])
  have hsum : ∑ i ∈ range (n + 1), siteElem (pauli 'Z') i s t = (∑ i ∈ range (n + 2), siteElem (pauli 'Z') i s t) - siteElem (pauli 'Z') (n + 1) s t := by
    rw [Finset.sum_range_succ _ (n + 1)]
    ring
  rw [show n + 2 - 1 = n + 1 by omega, localSum_copies, Finset.sum_congr rfl fun i hi => gE i (n + 2) s t (by have := mem_range.1 hi; omega) hs ht]
  simp only [hamElem, List.map_cons, List.map_nil, List.sum_cons, List.sum_nil, termElem, show n + 2 - 1 = n + 1 by omega,
    Finset.sum_add_distrib, ← Finset.mul_sum, hsum]
  ring

/-- **C133** (violated): the field `g` of `local_XX` is not there: on two sites with both spins up the model with couplings `-J/2` and a field `-g` on every
site has energy `-2 g`, while the term gives `-J`. -/
theorem localXX_wrong {J g : ℂ} (h : J ≠ 2 * g) : ∃ M, localXX J g = .ok M ∧
    localSum [M] [0, 0] [0, 0] ≠ hamElem [(['X', 'X'], -J / 2), (['Y', 'Y'], -J / 2), (['Z'], -g)] 2 [0, 0] [0, 0] := by
  obtain ⟨M, e, -, hM⟩ := localXX_spec J g (N := 2) le_rfl
  refine ⟨M, e, ?_⟩
  have := hM [0, 0] [0, 0] ⟨by norm_num, by norm_num, trivial⟩ ⟨by norm_num, by norm_num, trivial⟩
  rw [show List.replicate (2 - 1) M = [M] from rfl] at this
  rw [this]
  simp [hamElem, termElem, siteElem, bondElem, pauli, Finset.sum_range_succ]
  intro h'
  apply h
  linear_combination -h'

example := localIsing_spec 1 2 (N := 5) (by omega)
example := localXX_spec 1 2 (N := 5) (by omega)
example := localXX_wrong (J := 1) (g := 2) (by norm_num)

end Xmps.Qmb
