import Verif.Model.Qmb
import Verif.Props.ProjFmpo
import Verif.Props.NBody

/-!
# C112: the Hamiltonians of `qmb.py`
-/

namespace Xmps.Qmb

open Finset Xmps.Spec Xmps.ProjMpo Xmps.Spin

/-- `R` is the matrix of the operator with elements `f` on `n` spins -/
def Rep (n : ℕ) (R : ND ℂ) (f : List ℕ → List ℕ → ℂ) : Prop := R.shape = [2 ^ n, 2 ^ n] ∧
  ∀ s t, InB (List.replicate n 2) s → InB (List.replicate n 2) t → matElem (List.replicate n 2) R s t = f s t

section
variable {n : ℕ} {A B : ND ℂ} {f g : List ℕ → List ℕ → ℂ}

theorem Rep.congr (h : Rep n A f) (e : ∀ s t, InB (List.replicate n 2) s → InB (List.replicate n 2) t → f s t = g s t) : Rep n A g :=
  ⟨h.1, fun s t hs ht => by rw [h.2 s t hs ht, e s t hs ht]⟩

theorem Rep.scl (c : ℂ) (h : Rep n A f) : Rep n (scl c A) fun s t => c * f s t :=
  ⟨h.1, fun s t hs ht => by show c * _ = c * _; rw [← h.2 s t hs ht]; rfl⟩

theorem Rep.zip (o : ℂ → ℂ → ℂ) (h : Rep n A f) (h' : Rep n B g) : ∃ R, A.zipNd o B = .ok R ∧ Rep n R fun s t => o (f s t) (g s t) :=
  ⟨⟨A.shape, fun idx => o (A.val idx) (B.val idx)⟩, by rw [ND.zipNd, if_pos (by rw [h.1, h'.1])], h.1, fun s t hs ht => by
    show o _ _ = o _ _
    rw [← h.2 s t hs ht, ← h'.2 s t hs ht]; rfl⟩

theorem Rep.mul (h : Rep n A f) (h' : Rep n B g) : ∃ R, A.matmul B = .ok R ∧
    Rep n R fun s t => sumIdx (List.replicate n 2) fun u => f s u * g u t := by
  obtain ⟨R, r1, r2, r3⟩ := ND.matmul22 h.1 h'.1
  refine ⟨R, r1, r2, fun s t hs ht => ?_⟩
  have e : sumIdx (List.replicate n 2) (fun u => f s u * g u t) =
      sumIdx (List.replicate n 2) fun u => A.val [ravel (List.replicate n 2) s, ravel (List.replicate n 2) u] *
        B.val [ravel (List.replicate n 2) u, ravel (List.replicate n 2) t] := by
    refine sumIdx_congr fun u hu => ?_
    rw [← h.2 s u hs hu, ← h'.2 u t hu ht]
    rfl
  show _ = sumIdx _ _
  rw [e, matElem, r3, sumIdx_eq_range, List.prod_replicate]
  refine Finset.sum_congr rfl fun k hk => ?_
  rw [ravel_unravel (by simpa using mem_range.1 hk)]

end

/-- a matrix as a function -/
def fn (op : ND ℂ) (a b : ℕ) : ℂ := op.val [a, b]

theorem siteElem_block : ∀ (op : ND ℂ) (i : ℕ) (s t : List ℕ), i < s.length → s.length = t.length → blockElem 2 op i 1 s t = siteElem (fn op) i s t
  | op, 0, a :: s, b :: t, _, _ => by simp [blockElem, siteElem, fn]
  | op, i + 1, a :: s, b :: t, h, e => by
    rw [Ham.blockElem_succ, siteElem, siteElem_block op i s t (by simpa using h) (by simpa using e)]

theorem sNBody_list (op : ND ℂ) (i n : ℕ) (hi : i < n) : ((List.range n).map fun j : ℕ => if (i : ℤ) - j = 0 then op else eyeND 2) =
    List.replicate i (eyeND 2) ++ op :: List.replicate (n - 1 - i) (eyeND 2) := by
  apply List.ext_getElem
  · simp; omega
  intro j h1 h2
  simp only [List.getElem_map, List.getElem_range]
  rcases lt_trichotomy j i with h | h | h
  · rw [List.getElem_append_left (by simpa using h), List.getElem_replicate, if_neg (by omega)]
  · subst h
    rw [List.getElem_append_right (by simp), if_pos (by omega)]
    simp
  · rw [List.getElem_append_right (by simp; omega), if_neg (by omega)]
    obtain ⟨m, rfl⟩ := Nat.exists_eq_add_of_lt h
    simp [show i + m + 1 - i = m + 1 by omega]

/-- **C112** `S_n_body(op, i, n)` is `op` at site `i`, counted from 0 -/
theorem sNBody_spec {op : ND ℂ} (hop : op.shape = [2, 2]) {i n : ℕ} (hi : i < n) :
    ∃ R, sNBody op i n = .ok R ∧ Rep n R (siteElem (fn op) i) := by
  obtain ⟨R, b1, b2, b3⟩ := tensor_block 2 i 1 (n - 1 - i) op (by simpa using hop)
  have en : i + 1 + (n - 1 - i) = n := by omega
  rw [en] at b2 b3
  refine ⟨R, ?_, b2, fun s t hs ht => ?_⟩
  · rw [sNBody, if_neg (by omega), sNBody_list op i n hi, b1]
  · have l1 := hs.length_eq
    have l2 := ht.length_eq
    rw [List.length_replicate] at l1 l2
    rw [b3 s t hs ht, siteElem_block op i s t (by omega) (by omega)]

/-- sites beyond the end raise -/
theorem sNBody_high (op : ND ℂ) {i : ℤ} {n : ℕ} (hi : (n : ℤ) ≤ i) : sNBody op i n = .error .exception := by
  rw [sNBody, if_pos (by omega)]

/-- **C112, negation** negative sites do not raise and the operator is dropped -/
theorem sNBody_low (op : ND ℂ) {i : ℤ} {n : ℕ} (hn : 0 < n) (hi : i < 0) : ∃ R, sNBody op i n = .ok R ∧ Rep n R fun s t => if s = t then 1 else 0 := by
  have e : ((List.range n).map fun j : ℕ => if i - j = 0 then op else eyeND 2) = List.replicate n (eyeND 2 : ND ℂ) := by
    rw [List.eq_replicate_iff]
    refine ⟨by simp, fun b hb => ?_⟩
    obtain ⟨j, _, rfl⟩ := List.mem_map.1 hb
    rw [if_neg (by omega)]
  obtain ⟨R, r1, r2, r3⟩ := tensor_spec (List.replicate n 2) (List.replicate n (eyeND 2 : ND ℂ)) (by simp; omega) (Squares_replicate 2 _ rfl n)
  refine ⟨R, ?_, by rw [r2]; simp, fun s t hs ht => ?_⟩
  · rw [sNBody, if_neg (by omega), e, r1]
  · rw [matElem, r3 s t hs ht, prodElem_eye 2 n s t (by simpa using hs.length_eq) (by simpa using ht.length_eq)]

/-- product of operators at neighbouring sites -/
theorem site_mul (A B : ℕ → ℕ → ℂ) : ∀ (i n : ℕ) (s t : List ℕ), i + 2 ≤ n → InB (List.replicate n 2) s → InB (List.replicate n 2) t →
    sumIdx (List.replicate n 2) (fun u => siteElem A i s u * siteElem B (i + 1) u t) = bondElem A B i s t
  | 0, n, s, t, hn, hs, ht => by
    obtain ⟨n, rfl⟩ := Nat.exists_eq_add_of_le' hn
    match s, t, hs, ht with
    | a :: a' :: s, b :: b' :: t, hs, ht =>
      simp only [List.replicate_succ, InB_cons] at hs ht
      rw [List.replicate_succ, sumIdx_cons, Finset.sum_eq_single_of_mem b (mem_range.2 ht.1) fun x _ hx => by
        rw [← sumIdx_zero (K := ℂ) (List.replicate (n + 1) 2)]
        exact sumIdx_congr fun u _ => by simp [siteElem, hx]]
      have hin : InB (List.replicate (n + 1) 2) (a' :: s) := by rw [List.replicate_succ, InB_cons]; exact hs.2
      rw [sumIdx_single (List.replicate (n + 1) 2) _ (a' :: s) hin fun v _ hv => by
        show (if a' :: s = v then A a b else 0) * _ = 0
        rw [if_neg (Ne.symm hv), zero_mul]]
      by_cases h : s = t <;> simp [siteElem, bondElem, h]
  | i + 1, n, s, t, hn, hs, ht => by
    obtain ⟨n, rfl⟩ := Nat.exists_eq_add_of_le' (show 1 ≤ n by omega)
    match s, t, hs, ht with
    | a :: s, b :: t, hs, ht =>
      simp only [List.replicate_succ, InB_cons] at hs ht
      rw [List.replicate_succ, sumIdx_cons, bondElem, ← site_mul A B i n s t (by omega) hs.2 ht.2]
      rw [Finset.sum_eq_single_of_mem a (mem_range.2 hs.1) fun x _ hx => by
        rw [← sumIdx_zero (K := ℂ) (List.replicate n 2)]
        exact sumIdx_congr fun u _ => by simp [siteElem, Ne.symm hx]]
      by_cases h : a = b
      · simp [siteElem, h]
      · simp only [siteElem, h, if_false, mul_zero, sumIdx_zero]

theorem bond_flip : ∀ (i n : ℕ) (s t : List ℕ), i + 2 ≤ n → InB (List.replicate n 2) s → InB (List.replicate n 2) t →
    bondElem (fn sp) (fn sm) i s t + bondElem (fn sm) (fn sp) i s t =
      1 / 2 * (bondElem (pauli 'X') (pauli 'X') i s t + bondElem (pauli 'Y') (pauli 'Y') i s t) ∧
    bondElem (fn szz) (fn szz) i s t = bondElem (pauli 'Z') (pauli 'Z') i s t
  | 0, n, s, t, hn, hs, ht => by
    obtain ⟨n, rfl⟩ := Nat.exists_eq_add_of_le' hn
    match s, t, hs, ht with
    | a :: a' :: s, b :: b' :: t, hs, ht =>
      simp only [List.replicate_succ, InB_cons] at hs ht
      have := flip_flop hs.1 ht.1 hs.2.1 ht.2.1
      by_cases h : s = t
      · simp only [bondElem, h, if_true, fn, szz_val hs.1 ht.1, szz_val hs.2.1 ht.2.1]
        exact ⟨by rw [← this]; ring, trivial⟩
      · simp [bondElem, h]
  | i + 1, n, s, t, hn, hs, ht => by
    obtain ⟨n, rfl⟩ := Nat.exists_eq_add_of_le' (show 1 ≤ n by omega)
    match s, t, hs, ht with
    | a :: s, b :: t, hs, ht =>
      simp only [List.replicate_succ, InB_cons] at hs ht
      obtain ⟨h1, h2⟩ := bond_flip i n s t (by omega) hs.2 ht.2
      by_cases h : a = b
      · simp only [bondElem, h, if_true]
        exact ⟨h1, h2⟩
      · simp [bondElem, h]

theorem site_z (A : ND ℂ) (P : ℕ → ℕ → ℂ) (hA : ∀ a < 2, ∀ b < 2, A.val [a, b] = P a b) : ∀ (i n : ℕ) (s t : List ℕ), i < n → InB (List.replicate n 2) s →
    InB (List.replicate n 2) t → siteElem (fn A) i s t = siteElem P i s t
  | 0, n, s, t, hn, hs, ht => by
    obtain ⟨n, rfl⟩ := Nat.exists_eq_add_of_le' (show 1 ≤ n by omega)
    match s, t, hs, ht with
    | a :: s, b :: t, hs, ht =>
      simp only [List.replicate_succ, InB_cons] at hs ht
      simp only [siteElem, fn, hA a hs.1 b ht.1]
  | i + 1, n, s, t, hn, hs, ht => by
    obtain ⟨n, rfl⟩ := Nat.exists_eq_add_of_le' (show 1 ≤ n by omega)
    match s, t, hs, ht with
    | a :: s, b :: t, hs, ht =>
      simp only [List.replicate_succ, InB_cons] at hs ht
      simp only [siteElem, site_z A P hA i n s t (by omega) hs.2 ht.2]

/-- the coupling between two neighbouring sites -/
noncomputable def couple (J Jz : ℂ) (i : ℕ) (s t : List ℕ) : ℂ :=
  J / 4 * bondElem (pauli 'X') (pauli 'X') i s t + J / 4 * bondElem (pauli 'Y') (pauli 'Y') i s t + Jz * bondElem (pauli 'Z') (pauli 'Z') i s t

theorem pairTerm_ok (J Jz : ℂ) {i n : ℕ} (hi : i + 2 ≤ n) : ∃ R, pairTerm J Jz i (i + 1) n = .ok R ∧ Rep n R (couple J Jz i) := by
  have hsp : sp.shape = [2, 2] := rfl
  have hsm : sm.shape = [2, 2] := rfl
  have hsz : szz.shape = [2, 2] := rfl
  obtain ⟨P, p1, p2⟩ := sNBody_spec hsp (i := i) (n := n) (by omega)
  obtain ⟨P', p1', p2'⟩ := sNBody_spec hsp (i := i + 1) (n := n) (by omega)
  obtain ⟨M, m1, m2⟩ := sNBody_spec hsm (i := i) (n := n) (by omega)
  obtain ⟨M', m1', m2'⟩ := sNBody_spec hsm (i := i + 1) (n := n) (by omega)
  obtain ⟨Z, z1, z2⟩ := sNBody_spec hsz (i := i) (n := n) (by omega)
  obtain ⟨Z', z1', z2'⟩ := sNBody_spec hsz (i := i + 1) (n := n) (by omega)
  push_cast at p1' m1' z1'
  obtain ⟨X, x1, x2⟩ := p2.mul m2'
  obtain ⟨Y, y1, y2⟩ := m2.mul p2'
  obtain ⟨V, v1, v2⟩ := (z2.scl Jz).mul z2'
  obtain ⟨S, s1, s2⟩ := x2.zip (· + ·) y2
  obtain ⟨R, r1, r2⟩ := (s2.scl (J / 2)).zip (· + ·) v2
  refine ⟨R, ?_, r2.congr fun s t hs ht => ?_⟩
  · unfold pairTerm add2
    rw [p1, ok_bind, m1', ok_bind, x1, ok_bind, m1, ok_bind, p1', ok_bind, y1, ok_bind, z1, ok_bind, z1', ok_bind, v1, ok_bind, s1, ok_bind, r1]
  · obtain ⟨h1, h2⟩ := bond_flip i n s t hi hs ht
    have e : sumIdx (List.replicate n 2) (fun u => Jz * siteElem (fn szz) i s u * siteElem (fn szz) (i + 1) u t) =
        Jz * sumIdx (List.replicate n 2) fun u => siteElem (fn szz) i s u * siteElem (fn szz) (i + 1) u t := by
      rw [← sumIdx_mul_left]
      exact sumIdx_congr fun u _ => by ring
    rw [e, site_mul _ _ i n s t hi hs ht, site_mul _ _ i n s t hi hs ht, site_mul _ _ i n s t hi hs ht, h1, h2, couple]
    ring

theorem foldlM_add {n : ℕ} : ∀ (l : List (ND ℂ × (List ℕ → List ℕ → ℂ))) (A : ND ℂ) (f : List ℕ → List ℕ → ℂ), Rep n A f → (∀ p ∈ l, Rep n p.1 p.2) →
    ∃ R, (l.map (·.1)).foldlM add2 A = .ok R ∧ Rep n R fun s t => f s t + (l.map fun p => p.2 s t).sum
  | [], A, f, hA, _ => ⟨A, rfl, hA.congr fun s t _ _ => by simp⟩
  | p :: l, A, f, hA, h => by
    obtain ⟨R, r1, r2⟩ := hA.zip (· + ·) (h p (by simp))
    obtain ⟨R', q1, q2⟩ := foldlM_add l R _ r2 fun p hp => h p (by simp [hp])
    refine ⟨R', ?_, q2.congr fun s t _ _ => by simp [add_assoc]⟩
    rw [List.map_cons, List.foldlM_cons]
    have : add2 A p.1 = .ok R := r1
    rw [this, ok_bind, q1]

theorem sum_list_range (f : ℕ → ℂ) : ∀ k, ((List.range k).map f).sum = ∑ i ∈ range k, f i
  | 0 => by simp
  | k + 1 => by rw [List.range_succ, List.map_append, List.sum_append, sum_list_range f k, Finset.sum_range_succ]; simp

/-- `sum` of a list of operators computed one by one -/
theorem sumOps_ok {n k : ℕ} (F : ℕ → Py (ND ℂ)) (g : ℕ → List ℕ → List ℕ → ℂ) (h : ∀ i < k + 1, ∃ R, F i = .ok R ∧ Rep n R (g i)) :
    ∃ l R, (List.range (k + 1)).mapM F = .ok l ∧ sumOps l = .ok (some R) ∧ Rep n R fun s t => ∑ i ∈ range (k + 1), g i s t := by
  have : Nonempty (ND ℂ) := ⟨sp⟩
  choose! R h1 h2 using h
  have hm : (List.range (k + 1)).mapM F = .ok ((List.range (k + 1)).map R) := mapM_ok fun i hi => h1 i (by simpa using hi)
  obtain ⟨S, s1, s2⟩ := foldlM_add ((List.range k).map fun i => (R (i + 1), g (i + 1))) (R 0) (g 0) (h2 0 (by omega)) (by
    intro p hp
    obtain ⟨i, hi, rfl⟩ := List.mem_map.1 hp
    exact h2 (i + 1) (by have := List.mem_range.1 hi; omega))
  refine ⟨_, S, hm, ?_, s2.congr fun s t _ _ => ?_⟩
  · rw [List.range_succ_eq_map, List.map_cons, sumOps]
    rw [List.map_map] at s1 ⊢
    have : (List.range k).map (R ∘ Nat.succ) = (List.range k).map ((fun x => x.1) ∘ fun i => (R (i + 1), g (i + 1))) := rfl
    rw [this, s1, ok_bind]
  · rw [Finset.sum_range_succ', add_comm, List.map_map, ← sum_list_range fun i => g (i + 1) s t]
    rfl

/-- **C112** the full matrix: for every length it is the Hamiltonian -/
theorem anisotropicHeisenbergFull_spec (h J Jz : ℂ) {N : ℕ} (hN : 1 ≤ N) :
    ∃ R, anisotropicHeisenbergFull h J Jz N = .ok R ∧ R.shape = [2 ^ N, 2 ^ N] ∧ ∀ s t, InB (List.replicate N 2) s → InB (List.replicate N 2) t →
      matElem (List.replicate N 2) R s t = hamElem (anisoDict h J Jz) N s t := by
  obtain ⟨k, rfl⟩ := Nat.exists_eq_add_of_le' hN
  obtain ⟨l, B, b1, b2, b3⟩ := sumOps_ok (n := k + 1) (k := k) (fun i : ℕ => do return scl h (← sNBody szz i (k + 1))) (fun i s t => h * siteElem (fn szz) i s t) (by
    intro i hi
    obtain ⟨R, r1, r2⟩ := sNBody_spec (op := szz) rfl hi
    exact ⟨_, by simp only [r1, ok_bind]; rfl, r2.scl h⟩)
  have hz : ∀ s t, InB (List.replicate (k + 1) 2) s → InB (List.replicate (k + 1) 2) t →
      ∑ i ∈ range (k + 1), h * siteElem (fn szz) i s t = h * ∑ i ∈ range (k + 1), siteElem (pauli 'Z') i s t := by
    intro s t hs ht
    rw [Finset.mul_sum]
    exact Finset.sum_congr rfl fun i hi => by
      rw [site_z szz (pauli 'Z') (fun a ha b hb => szz_val ha hb) i (k + 1) s t (mem_range.1 hi) hs ht]
  rcases k with _ | k
  · obtain ⟨s1, s2⟩ := b3.scl (-1)
    refine ⟨_, ?_, s1, fun s t hs ht => ?_⟩
    · unfold anisotropicHeisenbergFull
      rw [b1]
      simp only [ok_bind, b2]
      rfl
    · rw [s2 s t hs ht]
      simp only [hz s t hs ht]
      rw [aniso_elem]
      simp
  · obtain ⟨l', A, a1, a2, a3⟩ := sumOps_ok (n := k + 2) (k := k) (fun i : ℕ => pairTerm J Jz i (i + 1) (k + 2)) (fun i => couple J Jz i) (by
      intro i hi
      obtain ⟨R, r1, r2⟩ := pairTerm_ok J Jz (i := i) (n := k + 2) (by omega)
      exact ⟨R, by exact_mod_cast r1, r2⟩)
    obtain ⟨R, r1, r2, r3⟩ := a3.zip (· + ·) (b3.scl (-1))
    refine ⟨R, ?_, r2, fun s t hs ht => ?_⟩
    · unfold anisotropicHeisenbergFull
      have e : k + 1 + 1 - 1 = k + 1 := rfl
      rw [e, a1]
      simp only [ok_bind, a2, b1, b2]
      exact r1
    · rw [r3 s t hs ht]
      simp only [hz s t hs ht]
      rw [aniso_elem]
      simp only [couple, Finset.sum_add_distrib, ← Finset.mul_sum, show k + 1 + 1 - 1 = k + 1 by omega]
      ring

/-- a two-site matrix placed at bond `i` -/
theorem block_place (M : ND ℂ) (g : ℕ → List ℕ → List ℕ → ℂ)
    (h0 : ∀ a a' b b' s t, a < 2 → a' < 2 → b < 2 → b' < 2 → g 0 (a :: a' :: s) (b :: b' :: t) = if s = t then M.val [a * 2 + a', b * 2 + b'] else 0)
    (hs : ∀ i a b s t, g (i + 1) (a :: s) (b :: t) = if a = b then g i s t else 0) : ∀ (i L : ℕ) (s t : List ℕ), i + 2 ≤ L →
    InB (List.replicate L 2) s → InB (List.replicate L 2) t → blockElem 2 M i 2 s t = g i s t
  | 0, L, s, t, hL, hs', ht => by
    obtain ⟨L, rfl⟩ := Nat.exists_eq_add_of_le' hL
    match s, t, hs', ht with
    | a :: a' :: s, b :: b' :: t, hs', ht =>
      simp only [List.replicate_succ, InB_cons] at hs' ht
      rw [h0 a a' b b' s t hs'.1 hs'.2.1 ht.1 ht.2.1]
      simp [blockElem, ravel_cons]
  | i + 1, L, s, t, hL, hs', ht => by
    obtain ⟨L, rfl⟩ := Nat.exists_eq_add_of_le' (show 1 ≤ L by omega)
    match s, t, hs', ht with
    | a :: s, b :: t, hs', ht =>
      simp only [List.replicate_succ, InB_cons] at hs' ht
      rw [Ham.blockElem_succ, hs, block_place M g h0 hs i L s t (by omega) hs'.2 ht.2]

/-- elements of a two-site matrix -/
theorem Rep.two {M : ND ℂ} {f : List ℕ → List ℕ → ℂ} (h : Rep 2 M f) {a a' b b' : ℕ} (ha : a < 2) (ha' : a' < 2) (hb : b < 2) (hb' : b' < 2) :
    M.val [a * 2 + a', b * 2 + b'] = f [a, a'] [b, b'] := by
  rw [← h.2 [a, a'] [b, b'] ⟨ha, ha', trivial⟩ ⟨hb, hb', trivial⟩]
  simp [matElem]

/-- the operator given by a list of two-site matrices, the first on sites 0 and 1, the next on sites 1 and 2, … -/
noncomputable def localSum (hs : List (ND ℂ)) (s t : List ℕ) : ℂ := (hs.zipIdx.map fun p => blockElem 2 p.1 p.2 2 s t).sum

theorem localSum_two (B E : ND ℂ) (n : ℕ) (s t : List ℕ) : localSum (List.replicate n B ++ [E]) s t =
    (∑ i ∈ range n, blockElem 2 B i 2 s t) + blockElem 2 E n 2 s t := by
  rw [localSum, List.zipIdx_append, List.map_append, List.sum_append, Ham.sum_zipIdx_replicate B (fun M i => blockElem 2 M i 2 s t)]
  simp

/-- **C112** the local terms add up to the Hamiltonian, for two sites or more -/
theorem localHeisenbergs_spec (h J Jz : ℂ) {N : ℕ} (hN : 2 ≤ N) : ∃ hs, localHeisenbergs h J Jz N = .ok hs ∧ hs.length = N - 1 ∧
    (∀ M ∈ hs, M.shape = [4, 4]) ∧ ∀ s t, InB (List.replicate N 2) s → InB (List.replicate N 2) t → localSum hs s t = hamElem (anisoDict h J Jz) N s t := by
  obtain ⟨n, rfl⟩ := Nat.exists_eq_add_of_le' hN
  obtain ⟨P, p1, p2⟩ := pairTerm_ok J Jz (i := 0) (n := 2) le_rfl
  obtain ⟨Z, z1, z2⟩ := sNBody_spec (op := szz) rfl (i := 0) (n := 2) (by omega)
  obtain ⟨Z', z1', z2'⟩ := sNBody_spec (op := szz) rfl (i := 1) (n := 2) (by omega)
  obtain ⟨B, b1, b2⟩ := p2.zip (· - ·) (z2.scl h)
  obtain ⟨S, s1, s2⟩ := z2.zip (· + ·) z2'
  obtain ⟨E, e1, e2⟩ := p2.zip (· - ·) (s2.scl h)
  have hB : localBulk h J Jz = .ok B := by
    unfold localBulk
    simp only [Nat.cast_zero, zero_add] at p1 z1
    rw [p1, ok_bind, z1, ok_bind, b1]
  have hE : localEnd h J Jz = .ok E := by
    unfold localEnd add2
    simp only [Nat.cast_zero, zero_add, Nat.cast_one] at p1 z1 z1'
    rw [p1, ok_bind, z1, ok_bind, z1', ok_bind, s1, ok_bind, e1]
  refine ⟨List.replicate n B ++ [E], ?_, by simp, ?_, fun s t hs ht => ?_⟩
  · rw [localHeisenbergs, hB, ok_bind, hE, ok_bind]
    rfl
  · intro M hM
    rw [List.mem_append, List.mem_replicate, List.mem_singleton] at hM
    rcases hM with ⟨_, rfl⟩ | rfl
    · exact b2.1
    · exact e2.1
  · have zv : ∀ {a b}, a < 2 → b < 2 → fn szz a b = pauli 'Z' a b := fun ha hb => szz_val ha hb
    have gB := block_place B (fun i s t => couple J Jz i s t - h * siteElem (pauli 'Z') i s t) (by
      intro a a' b b' s t ha ha' hb hb'
      rw [b2.two ha ha' hb hb']
      by_cases e : s = t
      · by_cases e' : a' = b' <;> simp [couple, bondElem, siteElem, e, e', zv ha hb]
      · simp [couple, bondElem, siteElem, e]) (by
      intro i a b s t
      by_cases e : a = b <;> simp [couple, bondElem, siteElem, e])
    have gE := block_place E (fun i s t => couple J Jz i s t - h * (siteElem (pauli 'Z') i s t + siteElem (pauli 'Z') (i + 1) s t)) (by
      intro a a' b b' s t ha ha' hb hb'
      rw [e2.two ha ha' hb hb']
      by_cases e : s = t
      · by_cases e' : a' = b' <;> by_cases e'' : a = b <;> simp [couple, bondElem, siteElem, e, e', e'', zv ha hb, zv ha' hb', zv hb hb, zv hb' hb']
      · simp [couple, bondElem, siteElem, e]) (by
      intro i a b s t
      by_cases e : a = b <;> simp [couple, bondElem, siteElem, e])
    rw [localSum_two, gE n (n + 2) s t le_rfl hs ht,
      Finset.sum_congr rfl fun i hi => gB i (n + 2) s t (by have := mem_range.1 hi; omega) hs ht, aniso_elem]
    simp only [couple, show n + 2 - 1 = n + 1 by omega, Finset.sum_sub_distrib, Finset.sum_add_distrib, ← Finset.mul_sum, Finset.sum_range_succ _ n,
      Finset.sum_range_succ _ (n + 1)]
    ring

/-- **C112, negation** one site: a two-site matrix is returned -/
theorem localHeisenbergs_one (h J Jz : ℂ) : ∃ M, localHeisenbergs h J Jz 1 = .ok [M] ∧ M.shape = [4, 4] := by
  obtain ⟨hs, h1, h2, h3, _⟩ := localHeisenbergs_spec h J Jz (N := 2) le_rfl
  match hs, h2 with
  | [M], _ => exact ⟨M, h1, h3 M (by simp)⟩

theorem sxx_val {a b : ℕ} (ha : a < 2) (hb : b < 2) : sxx.val [a, b] = pauli 'X' a b := by
  interval_cases a <;> interval_cases b <;> simp [sxx, Ham.ofMat, pauli]

/-- **C112** `local_isings(J, g, N)`: the transverse-field Ising model -/
theorem localIsings_spec (J g : ℂ) {N : ℕ} (hN : 2 ≤ N) : ∃ hs, localIsings J g N = .ok hs ∧ hs.length = N - 1 ∧
    (∀ M ∈ hs, M.shape = [4, 4]) ∧ ∀ s t, InB (List.replicate N 2) s → InB (List.replicate N 2) t →
      localSum hs s t = hamElem [(['Z', 'Z'], -J), (['X'], -g)] N s t := by
  obtain ⟨n, rfl⟩ := Nat.exists_eq_add_of_le' hN
  obtain ⟨Z, z1, z2⟩ := sNBody_spec (op := szz) rfl (i := 0) (n := 2) (by omega)
  obtain ⟨Z', z1', z2'⟩ := sNBody_spec (op := szz) rfl (i := 1) (n := 2) (by omega)
  obtain ⟨X, x1, x2⟩ := sNBody_spec (op := sxx) rfl (i := 0) (n := 2) (by omega)
  obtain ⟨X', x1', x2'⟩ := sNBody_spec (op := sxx) rfl (i := 1) (n := 2) (by omega)
  obtain ⟨P, p1, p2⟩ := (z2.scl J).mul z2'
  obtain ⟨B, b1, b2⟩ := p2.zip (· + ·) (x2.scl g)
  obtain ⟨S, s1, s2⟩ := x2.zip (· + ·) x2'
  obtain ⟨E, e1, e2⟩ := p2.zip (· + ·) (s2.scl g)
  have b3 := b2.scl (-1)
  have e3 := e2.scl (-1)
  simp only [Nat.cast_zero, Nat.cast_one] at z1 z1' x1 x1'
  refine ⟨List.replicate n (scl (-1) B) ++ [scl (-1) E], ?_, by simp, ?_, fun s t hs ht => ?_⟩
  · unfold localIsings zzTerm add2
    rw [z1, ok_bind, z1', ok_bind, p1, ok_bind, x1, ok_bind, b1, ok_bind, ok_bind, x1', ok_bind, s1, ok_bind, e1, ok_bind]
    rfl
  · intro M hM
    rw [List.mem_append, List.mem_replicate, List.mem_singleton] at hM
    rcases hM with ⟨_, rfl⟩ | rfl
    · exact b3.1
    · exact e3.1
  · have zv : ∀ {a b}, a < 2 → b < 2 → fn szz a b = pauli 'Z' a b := fun ha hb => szz_val ha hb
    have xv : ∀ {a b}, a < 2 → b < 2 → fn sxx a b = pauli 'X' a b := fun ha hb => sxx_val ha hb
    have e : ∀ a a' b b', a < 2 → a' < 2 → b < 2 → b' < 2 →
        sumIdx (List.replicate 2 2) (fun u => J * siteElem (fn szz) 0 [a, a'] u * siteElem (fn szz) 1 u [b, b']) = J * (pauli 'Z' a b * pauli 'Z' a' b') := by
      intro a a' b b' ha ha' hb hb'
      have : sumIdx (List.replicate 2 2) (fun u => J * siteElem (fn szz) 0 [a, a'] u * siteElem (fn szz) 1 u [b, b']) =
          J * sumIdx (List.replicate 2 2) fun u => siteElem (fn szz) 0 [a, a'] u * siteElem (fn szz) 1 u [b, b'] := by
        rw [← sumIdx_mul_left]
        exact sumIdx_congr fun u _ => by ring
      rw [this, site_mul _ _ 0 2 [a, a'] [b, b'] le_rfl ⟨ha, ha', trivial⟩ ⟨hb, hb', trivial⟩]
      simp [bondElem, zv ha hb, zv ha' hb']
    have gB := block_place (scl (-1) B) (fun i s t => -(J * bondElem (pauli 'Z') (pauli 'Z') i s t + g * siteElem (pauli 'X') i s t)) (by
      intro a a' b b' s t ha ha' hb hb'
      rw [b3.two ha ha' hb hb']
      simp only [e a a' b b' ha ha' hb hb']
      by_cases e : s = t
      · by_cases e' : a' = b' <;> simp [bondElem, siteElem, e, e', xv ha hb]
      · simp [bondElem, siteElem, e]) (by
      intro i a b s t
      by_cases e : a = b <;> simp [bondElem, siteElem, e])
    have gE := block_place (scl (-1) E) (fun i s t => -(J * bondElem (pauli 'Z') (pauli 'Z') i s t + g * (siteElem (pauli 'X') i s t + siteElem (pauli 'X') (i + 1) s t))) (by
      intro a a' b b' s t ha ha' hb hb'
      rw [e3.two ha ha' hb hb']
      simp only [e a a' b b' ha ha' hb hb']
      by_cases e : s = t
      · by_cases e' : a' = b' <;> by_cases e'' : a = b <;> simp [bondElem, siteElem, e, e', e'', xv ha hb, xv ha' hb', xv hb hb, xv hb' hb']
      · simp [bondElem, siteElem, e]) (by
      intro i a b s t
      by_cases e : a = b <;> simp [bondElem, siteElem, e])
    rw [localSum_two, gE n (n + 2) s t le_rfl hs ht,
      Finset.sum_congr rfl fun i hi => gB i (n + 2) s t (by have := mem_range.1 hi; omega) hs ht]
    simp only [hamElem, List.map_cons, List.map_nil, List.sum_cons, List.sum_nil, termElem, show n + 2 - 1 = n + 1 by omega, Finset.sum_neg_distrib,
      Finset.sum_add_distrib, ← Finset.mul_sum, Finset.sum_range_succ _ n, Finset.sum_range_succ _ (n + 1)]
    ring

example := localHeisenbergs_spec 1 2 3 (N := 5) (by omega)
example := localIsings_spec 1 2 (N := 5) (by omega)
example := anisotropicHeisenbergFull_spec 1 2 3 (N := 1) le_rfl
example := sNBody_spec (op := sp) rfl (i := 2) (n := 4) (by omega)
example := sNBody_low sp (i := -1) (n := 4) (by omega) (by omega)

end Xmps.Qmb
