import Verif.Props.Hamiltonian

/-!
# C27: the matrix-product operator of a Heisenberg-type Hamiltonian
-/

namespace Xmps.Ham

open Finset Xmps.Spec Xmps.Spin

variable {ilog : ℕ → ℕ → ℕ}

theorem sx_val {a b : ℕ} (ha : a < 2) (hb : b < 2) : (ofMat sx).val [a, b] = pauli 'X' a b := by
  interval_cases a <;> interval_cases b <;> simp [ofMat, sx, pauli]

theorem sy_val {a b : ℕ} (ha : a < 2) (hb : b < 2) : (ofMat sy).val [a, b] = pauli 'Y' a b := by
  interval_cases a <;> interval_cases b <;> simp [ofMat, sy, pauli]

theorem sz_val {a b : ℕ} (ha : a < 2) (hb : b < 2) : (ofMat sz).val [a, b] = pauli 'Z' a b := by
  interval_cases a <;> interval_cases b <;> simp [ofMat, sz, pauli]

section

variable (Jx Jy Jz hx hy hz : ℂ)

theorem row4 : ∀ (n : ℕ) (s t : List ℕ), InB (List.replicate n 2) s → InB (List.replicate n 2) t →
    mpoElem 5 (List.replicate n (heisMpo Jx Jy Jz hx hy hz)) 4 4 s t = if s = t then 1 else 0
  | 0, s, t, hs, ht => by
    match s, t, hs, ht with
    | [], [], _, _ => simp [mpoElem]
  | n + 1, s, t, hs, ht => by
    match s, t, hs, ht with
    | a :: s, b :: t, hs, ht =>
      rw [List.replicate_succ, InB_cons] at hs ht
      rw [List.replicate_succ, mpoElem]
      simp only [Finset.sum_range_succ, Finset.sum_range_zero]
      rw [row4 n s t hs.2 ht.2]
      by_cases h1 : a = b <;> by_cases h2 : s = t <;> simp [heisMpo, eyeND, h1, h2]

theorem rowJ (n : ℕ) (a b : ℕ) (s t : List ℕ) (hs : InB (List.replicate (n + 1) 2) (a :: s)) (ht : InB (List.replicate (n + 1) 2) (b :: t)) :
    mpoElem 5 (List.replicate (n + 1) (heisMpo Jx Jy Jz hx hy hz)) 1 4 (a :: s) (b :: t) = (if s = t then Jz * pauli 'Z' a b else 0) ∧
    mpoElem 5 (List.replicate (n + 1) (heisMpo Jx Jy Jz hx hy hz)) 2 4 (a :: s) (b :: t) = (if s = t then Jy * pauli 'Y' a b else 0) ∧
    mpoElem 5 (List.replicate (n + 1) (heisMpo Jx Jy Jz hx hy hz)) 3 4 (a :: s) (b :: t) = (if s = t then Jx * pauli 'X' a b else 0) := by
  rw [List.replicate_succ, InB_cons] at hs ht
  refine ⟨?_, ?_, ?_⟩
  all_goals
    rw [List.replicate_succ, mpoElem]
    simp only [Finset.sum_range_succ, Finset.sum_range_zero]
    rw [row4 _ _ _ _ _ _ n s t hs.2 ht.2]
    simp [heisMpo, sx_val hs.1 ht.1, sy_val hs.1 ht.1, sz_val hs.1 ht.1]

/-- the operator given by the couplings and fields -/
noncomputable def heisElem (L : ℕ) (s t : List ℕ) : ℂ :=
  Jx * (∑ i ∈ range (L - 1), bondElem (pauli 'X') (pauli 'X') i s t) + Jy * (∑ i ∈ range (L - 1), bondElem (pauli 'Y') (pauli 'Y') i s t) +
  Jz * (∑ i ∈ range (L - 1), bondElem (pauli 'Z') (pauli 'Z') i s t) +
  hx * (∑ i ∈ range L, siteElem (pauli 'X') i s t) + hy * (∑ i ∈ range L, siteElem (pauli 'Y') i s t) +
  hz * ∑ i ∈ range L, siteElem (pauli 'Z') i s t

theorem site_cons (A : ℕ → ℕ → ℂ) (n a b : ℕ) (s t : List ℕ) : ∑ i ∈ range (n + 1), siteElem A i (a :: s) (b :: t) =
    (if a = b then ∑ i ∈ range n, siteElem A i s t else 0) + if s = t then A a b else 0 := by
  rw [Finset.sum_range_succ']
  by_cases h : a = b <;> simp [siteElem, h]

theorem bond_cons (A : ℕ → ℕ → ℂ) (n a a' b b' : ℕ) (s t : List ℕ) : ∑ i ∈ range (n + 1), bondElem A A i (a :: a' :: s) (b :: b' :: t) =
    (if a = b then ∑ i ∈ range n, bondElem A A i (a' :: s) (b' :: t) else 0) + if s = t then A a b * A a' b' else 0 := by
  rw [Finset.sum_range_succ']
  by_cases h : a = b <;> simp [bondElem, h]

theorem row0 : ∀ (n : ℕ) (s t : List ℕ), InB (List.replicate n 2) s → InB (List.replicate n 2) t →
    mpoElem 5 (List.replicate n (heisMpo Jx Jy Jz hx hy hz)) 0 4 s t = heisElem Jx Jy Jz hx hy hz n s t
  | 0, s, t, hs, ht => by
    match s, t, hs, ht with
    | [], [], _, _ => simp [mpoElem, heisElem]
  | n + 1, s, t, hs, ht => by
    match s, t, hs, ht with
    | a :: s, b :: t, hs, ht =>
      rw [List.replicate_succ, InB_cons] at hs ht
      rw [List.replicate_succ, mpoElem]
      simp only [Finset.sum_range_succ, Finset.sum_range_zero]
      rw [row0 n s t hs.2 ht.2, row4 _ _ _ _ _ _ n s t hs.2 ht.2]
      have hw : ∀ x, (heisMpo Jx Jy Jz hx hy hz).val [0, 0, a, b] * x = if a = b then x else 0 := by
        intro x; by_cases h : a = b <;> simp [heisMpo, eyeND, h]
      have h1 : (heisMpo Jx Jy Jz hx hy hz).val [0, 1, a, b] = pauli 'Z' a b := sz_val hs.1 ht.1
      have h2 : (heisMpo Jx Jy Jz hx hy hz).val [0, 2, a, b] = pauli 'Y' a b := sy_val hs.1 ht.1
      have h3 : (heisMpo Jx Jy Jz hx hy hz).val [0, 3, a, b] = pauli 'X' a b := sx_val hs.1 ht.1
      have h4 : (heisMpo Jx Jy Jz hx hy hz).val [0, 4, a, b] = hz * pauli 'Z' a b + hy * pauli 'Y' a b + hx * pauli 'X' a b := by
        rw [← sz_val hs.1 ht.1, ← sy_val hs.1 ht.1, ← sx_val hs.1 ht.1]; rfl
      rw [hw, h1, h2, h3, h4]
      rcases n with _ | n
      · match s, t, hs.2, ht.2 with
        | [], [], _, _ =>
          simp [mpoElem, heisElem, siteElem]
          ring
      · have hs2 := hs.2
        have ht2 := ht.2
        match s, t, hs2, ht2 with
        | a' :: s, b' :: t, hs2, ht2 =>
          obtain ⟨r1, r2, r3⟩ := rowJ Jx Jy Jz hx hy hz n a' b' s t hs2 ht2
          rw [r1, r2, r3]
          simp only [heisElem, Nat.add_sub_cancel, site_cons, bond_cons]
          by_cases h1 : a = b <;> by_cases h2 : s = t <;> by_cases h3 : a' = b' <;> simp [h1, h2, h3] <;> ring

end

/-- only the couplings XX, YY, ZZ -/
def Heis (u : Dict) : Prop := ∀ p ∈ u, p.1.length = 2 → p.1 = ['X', 'X'] ∨ p.1 = ['Y', 'Y'] ∨ p.1 = ['Z', 'Z']

theorem forM_ok {α : Type} (f : α → Py Unit) : ∀ (l : List α), (∀ x ∈ l, f x = .ok ()) → l.forM f = .ok ()
  | [], _ => rfl
  | x :: l, h => by
    change (f x >>= fun _ => l.forM f) = _
    rw [h x (by simp), ok_bind]
    exact forM_ok f l fun y hy => h y (by simp [hy])

theorem forM_err {α : Type} (f : α → Py Unit) (e : PyErr) : ∀ (l : List α), (∀ x ∈ l, f x = .ok () ∨ f x = .error e) → (∃ x ∈ l, f x = .error e) →
    l.forM f = .error e
  | [], _, ⟨x, hx, _⟩ => by simp at hx
  | x :: l, h, ⟨y, hy, he⟩ => by
    change (f x >>= fun _ => l.forM f) = _
    rcases h x (by simp) with h1 | h1
    · rw [h1, ok_bind]
      refine forM_err f e l (fun z hz => h z (by simp [hz])) ⟨y, ?_, he⟩
      rcases List.mem_cons.1 hy with rfl | h2
      · rw [he] at h1; simp at h1
      · exact h2
    · rw [h1]; rfl

theorem get0_absent {u : Dict} {k : List Char} (h : ∀ p ∈ u, p.1 ≠ k) : get0 u k = 0 := by
  have : dget u k = none := dget_none.2 fun hm => by
    obtain ⟨p, hp, e⟩ := List.mem_map.1 hm
    exact h p hp e
  simp [get0, this]

/-- **C27** the MPO of a Heisenberg-type dictionary, contracted between the boundary indices 0 and 4, is the Hamiltonian: for
every length. -/
theorem toMpo_spec {u : Dict} (hu : Proper u) (hh : Heis u) (L : ℕ) :
    ∃ Ws, toMpo (init u) L = .ok Ws ∧ Ws.length = L ∧ (∀ W ∈ Ws, W.shape = [5, 5, 2, 2]) ∧
      ∀ s t, InB (List.replicate L 2) s → InB (List.replicate L 2) t → mpoElem 5 Ws 0 4 s t = hamElem u L s t := by
  have hX : IsPauli 'X' := .inl rfl
  have hY : IsPauli 'Y' := .inr (.inl rfl)
  have hZ : IsPauli 'Z' := .inr (.inr rfl)
  have hm := forM_ok (fun key => open Classical in
    if ¬ (key ∈ heisKeys ∨ key.reverse ∈ heisKeys) then .error .notImplemented
    else if get0 (init u) key.reverse ≠ get0 (init u) key then .error .notImplemented
    else .ok ()) ((init u).map (·.1)) (by
      intro key hk
      obtain ⟨p, hp, rfl⟩ := List.mem_map.1 hk
      rcases init_entry hu hp with ⟨a, ha, e, _⟩ | ⟨a, b, ha, hb, e, hmem⟩
      · have e2 : get0 (init u) ['I', a] = get0 (init u) [a, 'I'] := by rw [(get0_field hu ha).1, (get0_field hu ha).2]
        have e3 : ['I', a] ∈ heisKeys := by rcases ha with rfl | rfl | rfl <;> decide
        rcases e with e | e <;> simp [e, e2, e3]
      · rcases hh p hmem (by rw [e]; rfl) with e1 | e1 | e1 <;> simp [e1, heisKeys])
  have hok : toMpo (init u) L = .ok (List.replicate L (heisMpo (get0 (init u) ['X', 'X']) (get0 (init u) ['Y', 'Y'])
      (get0 (init u) ['Z', 'Z']) (get0 (init u) ['I', 'X']) (get0 (init u) ['I', 'Y']) (get0 (init u) ['I', 'Z']))) := by
    unfold toMpo
    rw [hm, ok_bind]
    rfl
  refine ⟨_, hok, List.length_replicate, ?_, ?_⟩
  · intro W hW
    rw [(List.mem_replicate.1 hW).2]
    rfl
  · intro s t hs ht
    rw [row0 _ _ _ _ _ _ L s t hs ht, hamElem_eq hu]
    have hz : ∀ a b, a ≠ b → get0 u [a, b] = 0 := by
      intro a b hab
      refine get0_absent fun p hp e => ?_
      rcases hh p hp (by rw [e]; rfl) with e1 | e1 | e1 <;>
      · rw [e] at e1
        simp at e1
        exact hab (e1.1.trans e1.2.symm)
    simp only [ks12, pairKeys, List.cons_append, List.nil_append, List.map_cons, List.map_nil, List.sum_cons, List.sum_nil, heisElem, T,
      get0_pair hu hX hX, get0_pair hu hY hY, get0_pair hu hZ hZ, (get0_field hu hX).1, (get0_field hu hY).1, (get0_field hu hZ).1,
      hz 'X' 'Y' (by decide), hz 'X' 'Z' (by decide), hz 'Y' 'X' (by decide), hz 'Y' 'Z' (by decide), hz 'Z' 'X' (by decide), hz 'Z' 'Y' (by decide)]
    ring

/-- **C27** so it agrees with `to_full` of the matrices, on three sites or more -/
theorem toMpo_eq_toFull {u : Dict} (hu : Proper u) (hh : Heis u) (hv : Visible u) {L : ℕ} (hL : 3 ≤ L) (hlog : ilog 4 2 = 2) :
    ∃ Ws ms R, toMpo (init u) L = .ok Ws ∧ toMatrices (init u) L = .ok ms ∧ toFull ilog (mk none (some ms) 2) none = .ok R ∧
      ∀ s t, InB (List.replicate L 2) s → InB (List.replicate L 2) t → mpoElem 5 Ws 0 4 s t = matElem (List.replicate L 2) R s t := by
  obtain ⟨Ws, w1, _, _, w2⟩ := toMpo_spec hu hh L
  obtain ⟨ms, R, m1, m2, _, m3⟩ := toFull_partial (ilog := ilog) hu hv hL hlog
  exact ⟨Ws, ms, R, w1, m1, m2, fun s t hs ht => by rw [w2 s t hs ht, m3 s t hs ht]⟩

/-- anything else is refused -/
theorem toMpo_raises {u : Dict} (hu : Proper u) (hh : ¬ Heis u) (L : ℕ) : toMpo (init u) L = .error .notImplemented := by
  unfold toMpo
  rw [forM_err _ .notImplemented]
  · rfl
  · intro key _
    by_cases h1 : ¬ (key ∈ heisKeys ∨ key.reverse ∈ heisKeys)
    · right; rw [if_pos h1]
    · by_cases h2 : get0 (init u) key.reverse ≠ get0 (init u) key
      · right; rw [if_neg h1, if_pos h2]
      · left; rw [if_neg h1, if_neg h2]
  · unfold Heis at hh
    push Not at hh
    obtain ⟨p, hp, hlen, n1, n2, n3⟩ := hh
    rcases hu.keys p hp with ⟨a, _, e⟩ | ⟨a, b, ha, hb, e⟩
    · rw [e] at hlen; simp at hlen
    · refine ⟨[a, b], ?_, ?_⟩
      · have : dget (init u) [a, b] = some p.2 := by
          rw [init_pair hu.nodup ha.ne hb.ne, ← e]
          exact dget_of_mem hu.nodup hp
        exact List.mem_map.2 ⟨_, mem_of_dget this, rfl⟩
      · rw [e] at n1 n2 n3
        rw [if_pos]
        rcases ha with rfl | rfl | rfl <;> rcases hb with rfl | rfl | rfl <;> simp_all [heisKeys]

/-! ### concrete cases and the disagreements -/

/-- the transverse-field Ising model of the documentation -/
noncomputable def tfim (l : ℂ) : Dict := [(['Z', 'Z'], 1), (['X'], l)]

theorem tfim_proper (l : ℂ) : Proper (tfim l) := by
  refine ⟨by simp [tfim], ?_⟩
  intro p hp
  simp only [tfim, List.mem_cons, List.not_mem_nil, or_false] at hp
  rcases hp with rfl | rfl
  · exact .inr ⟨'Z', 'Z', by simp [IsPauli], by simp [IsPauli], rfl⟩
  · exact .inl ⟨'X', by simp [IsPauli], rfl⟩

theorem tfim_visible : Visible (tfim 1) := by
  intro p hp
  simp only [tfim, List.mem_cons, List.not_mem_nil, or_false] at hp
  rcases hp with rfl | rfl <;> (right; norm_num)

theorem tfim_heis (l : ℂ) : Heis (tfim l) := by
  intro p hp h2
  simp only [tfim, List.mem_cons, List.not_mem_nil, or_false] at hp
  rcases hp with rfl | rfl
  · simp
  · simp at h2

example := toFull_partial (ilog := fun p d => Nat.log d p) (tfim_proper 1) tfim_visible (L := 5) (by omega) (Nat.log_pow (b := 2) (by omega) 2)
example := toMpo_eq_toFull (ilog := fun p d => Nat.log d p) (tfim_proper 1) (tfim_heis 1) tfim_visible (L := 5) (by omega) (Nat.log_pow (b := 2) (by omega) 2)
example := toFull_strings (ilog := fun p d => Nat.log d p) (tfim_proper 1) 2 5 (by omega)

/-- **C26, negation** on two sites the Ising model has field 1/2 instead of 1 -/
theorem toFull_two_wrong (hlog : ilog 4 2 = 2) : ∃ ms R, toMatrices (init (tfim 1)) 2 = .ok ms ∧
    toFull ilog (mk none (some ms) 2) none = .ok R ∧ matElem [2, 2] R [0, 0] [1, 0] = 1 / 2 ∧ hamElem (tfim 1) 2 [0, 0] [1, 0] = 1 := by
  obtain ⟨ms, R, m1, m2, _, m3⟩ := toFull_two (ilog := ilog) (tfim_proper 1) tfim_visible hlog
  refine ⟨ms, R, m1, m2, ?_, ?_⟩
  · rw [m3 [0, 0] [1, 0] (by simp) (by simp)]
    simp [tfim, hamElem, termElem, Finset.sum_range_succ, siteElem, bondElem, pauli]
  · simp [tfim, hamElem, termElem, Finset.sum_range_succ, siteElem, bondElem, pauli]

/-- **C26, negation** a coupling of 1e-9 is dropped -/
theorem toFull_small (hlog : ilog 4 2 = 2) : ∃ ms R, toMatrices (init [(['Z', 'Z'], 1e-9)]) 3 = .ok ms ∧
    toFull ilog (mk none (some ms) 2) none = .ok R ∧ matElem [2, 2, 2] R [0, 0, 0] [0, 0, 0] = 0 ∧
    hamElem [(['Z', 'Z'], 1e-9)] 3 [0, 0, 0] [0, 0, 0] = 2e-9 := by
  have hu : Proper [(['Z', 'Z'], (1e-9 : ℂ))] := by
    refine ⟨by simp, fun p hp => ?_⟩
    rw [List.mem_singleton.1 hp]
    exact .inr ⟨'Z', 'Z', by simp [IsPauli], by simp [IsPauli], rfl⟩
  have hi : init [(['Z', 'Z'], (1e-9 : ℂ))] = [(['Z', 'Z'], (1e-9 : ℂ))] := init_id _ (by simp)
  have hs : ∀ ks, ['Z', 'Z'] ∉ ks → squeeze (halves (init [(['Z', 'Z'], (1e-9 : ℂ))]) ks) = [] := by
    intro ks hk
    rw [hi]
    simp only [halves, List.map_cons, List.map_nil, hk, if_false, squeeze]
    norm_num
  obtain ⟨M0, a1, a2, a3⟩ := part_shape hu kI
  obtain ⟨Mi, b1, b2, b3⟩ := part_shape hu kB
  obtain ⟨ML, c1, c2, c3⟩ := part_shape hu kF
  rw [hs kI (by decide)] at a3
  rw [hs kF (by decide)] at c3
  have hms := toMatrices_ok (L := 3) le_rfl a1 b1 c1
  obtain ⟨R, r1, r2, r3⟩ := toFull_matrices (ilog := ilog) (ms := [M0, ML]) (k := 2) (by simp) (by
    intro m hm
    simp only [List.mem_cons, List.not_mem_nil, or_false] at hm
    rcases hm with rfl | rfl
    · exact a2
    · exact c2) hlog none
  refine ⟨[M0, ML], R, by rw [hms]; rfl, r1, ?_, ?_⟩
  · have := r3 [0, 0, 0] [0, 0, 0] (by simp) (by simp)
    refine Eq.trans this ?_
    simp only [List.zipIdx_cons, List.zipIdx_nil, List.map_cons, List.map_nil, List.sum_cons, List.sum_nil, add_zero]
    rw [block_two a3 0 3 _ _ (by omega) (by simp) (by simp), block_two c3 (0 + 1) 3 _ _ (by omega) (by simp) (by simp)]
    simp
  · simp [hamElem, termElem, Finset.sum_range_succ, bondElem, pauli]
    norm_num

/-- a field given both as `X` and as `IX`: the second value is lost -/
example : dget (init [(['X'], 2), (['I', 'X'], 7)]) ['I', 'X'] = some 2 :=
  (init_field (by simp) (by simp [dget_cons]) (by decide)).1

end Xmps.Ham
