import Verif.Lemmas.Ham

/-!
# C26, C27: Hamiltonians from Pauli strings
-/

namespace Xmps.Ham

open Finset Xmps.Spec Xmps.Spin

variable {ilog : ℕ → ℕ → ℕ}

/-! ### to_full from matrices -/

theorem full_fold {k n : ℕ} : ∀ (l : List (ND ℂ × ℕ)) (T : ND ℂ), T.shape = [2 ^ n, 2 ^ n] →
    (∀ p ∈ l, p.1.shape = [2 ^ k, 2 ^ k] ∧ p.2 + k ≤ n) →
    ∃ R, l.foldlM (fullStep n k) T = .ok R ∧ R.shape = [2 ^ n, 2 ^ n] ∧ ∀ s t, InB (List.replicate n 2) s → InB (List.replicate n 2) t →
      matElem (List.replicate n 2) R s t = matElem (List.replicate n 2) T s t + (l.map fun p => blockElem 2 p.1 p.2 k s t).sum
  | [], T, hT, _ => ⟨T, rfl, hT, fun s t _ _ => by simp⟩
  | (X, i) :: l, T, hT, h => by
    obtain ⟨hX, hi⟩ := h (X, i) (by simp)
    simp only at hX hi
    obtain ⟨B, b1, b2, b3⟩ := tensor_block 2 i k (n - k - i) X hX
    have e : i + k + (n - k - i) = n := by omega
    rw [e] at b2 b3
    obtain ⟨R, r1, r2, r3⟩ := full_fold l ⟨[2 ^ n, 2 ^ n], fun idx => T.val idx + B.val idx⟩ rfl fun p hp => h p (by simp [hp])
    refine ⟨R, ?_, r2, ?_⟩
    · rw [List.foldlM_cons]
      have : fullStep n k T (X, i) = .ok ⟨[2 ^ n, 2 ^ n], fun idx => T.val idx + B.val idx⟩ := by
        unfold fullStep
        simp only [List.append_assoc, List.singleton_append]
        rw [b1, ok_bind, b2]
        simp
      rw [this, ok_bind, r1]
    · intro s t hs ht
      rw [r3 s t hs ht, List.map_cons, List.sum_cons, ← b3 s t hs ht, matElem, matElem, matElem, ← add_assoc]

/-- **C26** `Hamiltonian(matrices=ms).to_full()` is the sum of the matrices, the `i`-th one on the sites from `i` on -/
theorem toFull_matrices {ms : List (ND ℂ)} {k : ℕ} (hne : ms ≠ []) (hms : ∀ m ∈ ms, m.shape = [2 ^ k, 2 ^ k]) (hlog : ilog (2 ^ k) 2 = k)
    (L : Option ℕ) : ∃ R, toFull ilog (mk none (some ms) 2) L = .ok R ∧ R.shape = [2 ^ (ms.length + k - 1), 2 ^ (ms.length + k - 1)] ∧
      ∀ s t, InB (List.replicate (ms.length + k - 1) 2) s → InB (List.replicate (ms.length + k - 1) 2) t →
        matElem (List.replicate (ms.length + k - 1) 2) R s t = (ms.zipIdx.map fun p => blockElem 2 p.1 p.2 k s t).sum := by
  have hl : 0 < ms.length := List.length_pos_iff.2 hne
  obtain ⟨R, r1, r2, r3⟩ := full_fold (k := k) (n := ms.length + k - 1) ms.zipIdx (zerosND [2 ^ (ms.length + k - 1), 2 ^ (ms.length + k - 1)]) rfl
    (fun p hp => by
      have := List.mem_zipIdx hp
      refine ⟨hms p.1 ?_, by omega⟩
      rw [this.2.2]
      exact List.getElem_mem _)
  refine ⟨R, ?_, r2, fun s t hs ht => by rw [r3 s t hs ht]; simp [matElem, zerosND]⟩
  have hk : kOf ilog ms (some 2) = .ok k := by
    match ms, hne with
    | m :: ms, _ =>
      have hm : m.dim 0 = 2 ^ k := by simp [ND.dim, hms m (by simp)]
      simp [kOf, hm, hlog]
  simp only [toFull, mk, Option.map_some, ok_bind, hk, r1]

/-! ### the constructor -/

theorem mem_of_dget {d : Dict} {x : List Char} {v : ℂ} (h : dget d x = some v) : (x, v) ∈ d := by
  induction d with
  | nil => simp [dget_nil] at h
  | cons p d ih =>
    obtain ⟨k, w⟩ := p
    rw [dget_cons] at h
    by_cases hx : x = k
    · rw [if_pos hx] at h
      simp at h
      simp [hx, h]
    · rw [if_neg hx] at h
      simp [ih h]

theorem dget_of_mem {d : Dict} (hd : (d.map (·.1)).Nodup) {p : List Char × ℂ} (h : p ∈ d) : dget d p.1 = some p.2 := by
  induction d with
  | nil => simp at h
  | cons q d ih =>
    obtain ⟨k, w⟩ := q
    rw [List.map_cons, List.nodup_cons] at hd
    rw [dget_cons]
    rcases List.mem_cons.1 h with e | e
    · subst e; simp
    · rw [if_neg, ih hd.2 e]
      intro e'
      exact hd.1 (List.mem_map.2 ⟨p, e, e'⟩)

/-- a field given as one letter replaces whatever was given for the two-letter forms of it -/
theorem init_field {u : Dict} (hu : (u.map (·.1)).Nodup) {a : Char} {v : ℂ} (h : dget u [a] = some v) (ha : a ≠ 'I') :
    dget (init u) ['I', a] = some v ∧ dget (init u) [a, 'I'] = some v ∧ dget (init u) [a] = none := by
  refine ⟨?_, ?_, ?_⟩
  · rw [init, dget_fold_init u u _ hu]
    simp [h]
  · rw [init, dget_fold_init u u _ hu]
    simp [h, ha]
  · rw [init, dget_fold_init u u _ hu]
    simp [h]

theorem init_pair {u : Dict} (hu : (u.map (·.1)).Nodup) {a b : Char} (ha : a ≠ 'I') (hb : b ≠ 'I') :
    dget (init u) [a, b] = dget u [a, b] := by
  rw [init, dget_fold_init u u _ hu]
  simp [ha, hb]

theorem _root_.Xmps.Spec.IsPauli.ne {c : Char} (h : IsPauli c) : c ≠ 'I' := by
  rcases h with rfl | rfl | rfl <;> decide

theorem _root_.Xmps.Spec.IsPauli.letter {c : Char} (h : IsPauli c) : Letter c := Or.inr h

/-- the entries after the constructor -/
theorem init_entry {u : Dict} (hu : Proper u) {p : List Char × ℂ} (hp : p ∈ init u) :
    (∃ a, IsPauli a ∧ (p.1 = ['I', a] ∨ p.1 = [a, 'I']) ∧ ([a], p.2) ∈ u) ∨ ∃ a b, IsPauli a ∧ IsPauli b ∧ p.1 = [a, b] ∧ p ∈ u := by
  have h := dget_of_mem (keys_init u hu.nodup) hp
  rw [init, dget_fold_init u u _ hu.nodup] at h
  obtain ⟨k, v⟩ := p
  have fin : dget u k = some v → (∃ a, IsPauli a ∧ k = [a]) ∨ ∃ a b, IsPauli a ∧ IsPauli b ∧ k = [a, b] ∧ (k, v) ∈ u := by
    intro h
    rcases hu.keys _ (mem_of_dget h) with ⟨a, ha, e⟩ | ⟨a, b, ha, hb, e⟩
    · exact .inl ⟨a, ha, e⟩
    · exact .inr ⟨a, b, ha, hb, e, mem_of_dget h⟩
  have one : ∀ {c w}, dget u [c] = some w → IsPauli c := by
    intro c w h
    rcases hu.keys _ (mem_of_dget h) with ⟨a, ha, e⟩ | ⟨a, b, ha, hb, e⟩
    · simp at e; rw [e]; exact ha
    · simp at e
  rcases k with _ | ⟨a, _ | ⟨b, _ | ⟨c, k⟩⟩⟩
  · rcases fin h with ⟨a, _, e⟩ | ⟨a, b, _, _, e, _⟩ <;> simp at e
  · simp only at h
    split_ifs at h with h1
    rw [h] at h1
    simp at h1
  · simp only at h
    split_ifs at h with h1 h2
    · exact .inl ⟨b, one h, .inl (by rw [h1.1]), mem_of_dget h⟩
    · exact .inl ⟨a, one h, .inr (by rw [h2.1]), mem_of_dget h⟩
    · rcases fin h with ⟨a, _, e⟩ | h
      · simp at e
      · exact .inr h
  · rcases fin h with ⟨a, _, e⟩ | ⟨a, b, _, _, e, _⟩ <;> simp at e

/-- the fields and couplings -/
def pairKeys : List (List Char) :=
  [['X', 'X'], ['X', 'Y'], ['X', 'Z'], ['Y', 'X'], ['Y', 'Y'], ['Y', 'Z'], ['Z', 'X'], ['Z', 'Y'], ['Z', 'Z']]

/-- keys after the constructor -/
def ks15 : List (List Char) :=
  [['I', 'X'], ['X', 'I'], ['I', 'Y'], ['Y', 'I'], ['I', 'Z'], ['Z', 'I']] ++ pairKeys

/-- keys before -/
def ks12 : List (List Char) := [['X'], ['Y'], ['Z']] ++ pairKeys

theorem pair_mem {a b : Char} (ha : IsPauli a) (hb : IsPauli b) : [a, b] ∈ pairKeys := by
  rcases ha with rfl | rfl | rfl <;> rcases hb with rfl | rfl | rfl <;> decide

theorem init_mem {u : Dict} (hu : Proper u) {p : List Char × ℂ} (hp : p ∈ init u) : p.1 ∈ ks15 := by
  rcases init_entry hu hp with ⟨a, ha, e | e, _⟩ | ⟨a, b, ha, hb, e, _⟩
  · rw [e]; rcases ha with rfl | rfl | rfl <;> decide
  · rw [e]; rcases ha with rfl | rfl | rfl <;> decide
  · rw [e]; exact List.mem_append_right _ (pair_mem ha hb)

theorem ks15_key2 {k : List Char} (h : k ∈ ks15) : Key2 k := by
  simp only [ks15, pairKeys, List.cons_append, List.nil_append, List.mem_cons, List.not_mem_nil, or_false] at h
  rcases h with rfl | rfl | rfl | rfl | rfl | rfl | rfl | rfl | rfl | rfl | rfl | rfl | rfl | rfl | rfl <;>
    exact ⟨_, _, by simp [Letter], by simp [Letter], rfl⟩

/-! ### to_matrices -/

/-- halving a set of keys -/
noncomputable def halves (d : Dict) (ks : List (List Char)) : Dict := d.map fun p => if p.1 ∈ ks then (p.1, p.2 / 2) else p

theorem halve_halves (d : Dict) (ks : List (List Char)) (k : List Char) (h : k ∉ ks) : halve (halves d ks) k = halves d (k :: ks) := by
  unfold halve halves
  rw [List.map_map]
  refine List.map_congr_left fun p _ => ?_
  by_cases h1 : p.1 ∈ ks
  · have : p.1 ≠ k := by rintro rfl; exact h h1
    simp [h1, this]
  · by_cases h2 : p.1 = k
    · subst h2; simp [h1]
    · simp [h1, h2]

theorem halves_nil (d : Dict) : halves d [] = d := by simp [halves]

/-- the weight of a key after halving -/
noncomputable def wt (ks : List (List Char)) (k : List Char) : ℂ := if k ∈ ks then 1 / 2 else 1

theorem sum_halves (d : Dict) (ks : List (List Char)) (F : List Char → ℂ) : ((halves d ks).map fun p => p.2 * F p.1).sum =
    (d.map fun p => p.2 * (wt ks p.1 * F p.1)).sum := by
  unfold halves wt
  rw [List.map_map]
  congr 1
  refine List.map_congr_left fun p _ => ?_
  by_cases h : p.1 ∈ ks
  · simp [h]; ring
  · simp [h]

theorem keys_halves (d : Dict) (ks : List (List Char)) : (halves d ks).map (·.1) = d.map (·.1) := by
  unfold halves
  rw [List.map_map]
  refine List.map_congr_left fun p _ => ?_
  by_cases h : p.1 ∈ ks <;> simp [h]

/-- fields on the second site of a bond -/
def kI : List (List Char) := [['I', 'Z'], ['I', 'Y'], ['I', 'X']]
/-- fields on the first site -/
def kF : List (List Char) := [['Z', 'I'], ['Y', 'I'], ['X', 'I']]
/-- both -/
def kB : List (List Char) := [['I', 'Z'], ['Z', 'I'], ['I', 'Y'], ['Y', 'I'], ['I', 'X'], ['X', 'I']]

theorem fold_eq (d : Dict) : ['X', 'Y', 'Z'].foldl halveStep (d, d, d) = (halves d kI, halves d kB, halves d kF) := by
  rw [halve_fold]
  refine Prod.ext ?_ (Prod.ext ?_ ?_)
  · dsimp only
    conv_lhs => rw [← halves_nil d]
    rw [halve_halves _ _ _ (by decide), halve_halves _ _ _ (by decide), halve_halves _ _ _ (by decide)]
    rfl
  · dsimp only
    conv_lhs => rw [← halves_nil d]
    rw [halve_halves _ _ _ (by decide), halve_halves _ _ _ (by decide), halve_halves _ _ _ (by decide),
      halve_halves _ _ _ (by decide), halve_halves _ _ _ (by decide), halve_halves _ _ _ (by decide)]
    rfl
  · dsimp only
    conv_lhs => rw [← halves_nil d]
    rw [halve_halves _ _ _ (by decide), halve_halves _ _ _ (by decide), halve_halves _ _ _ (by decide)]
    rfl

/-- no coefficient is so small that `_squeeze` drops it or its half -/
def Visible (u : Dict) : Prop := ∀ p ∈ u, p.2 = 0 ∨ 2e-8 < ‖p.2‖

theorem part_shape {u : Dict} (hu : Proper u) (ks : List (List Char)) :
    ∃ M, toMatrix (squeeze (init (halves (init u) ks))) = .ok M ∧ M.shape = [4, 4] ∧ ∀ a a' b b', a < 2 → a' < 2 → b < 2 → b' < 2 →
      M.val [a * 2 + a', b * 2 + b'] = ((squeeze (halves (init u) ks)).map fun p => p.2 * keyVal p.1 a a' b b').sum := by
  have hk : ∀ p ∈ halves (init u) ks, p.1 ∈ ks15 := by
    intro p hp
    obtain ⟨q, hq, rfl⟩ := List.mem_map.1 hp
    have := init_mem hu hq
    by_cases h : q.1 ∈ ks <;> simp [h, this]
  have hid : init (halves (init u) ks) = halves (init u) ks := init_id _ fun p hp => by
    obtain ⟨a, b, _, _, e⟩ := ks15_key2 (hk p hp)
    simp [e]
  rw [hid]
  exact toMatrix_ok _ fun p hp => ks15_key2 (hk p (List.mem_filter.1 hp).1)

theorem part {u : Dict} (hu : Proper u) (hv : Visible u) (ks : List (List Char)) :
    ∃ M, toMatrix (squeeze (init (halves (init u) ks))) = .ok M ∧ M.shape = [4, 4] ∧ ∀ (i L : ℕ) (s t : List ℕ), i + 2 ≤ L →
      InB (List.replicate L 2) s → InB (List.replicate L 2) t →
        blockElem 2 M i 2 s t = (ks15.map fun k => get0 (init u) k * (wt ks k * keyElem k i s t)).sum := by
  obtain ⟨M, m1, m2, m3⟩ := part_shape hu ks
  refine ⟨M, m1, m2, fun i L s t hi hs ht => ?_⟩
  rw [block_two m3 i L s t hi hs ht, sum_squeeze _ ?_ (fun k => keyElem k i s t), sum_halves _ _ (fun k => keyElem k i s t),
    sum_dict (fun k => wt ks k * keyElem k i s t) ks15 (by decide) (init u) (keys_init u hu.nodup) fun p hp => init_mem hu hp]
  intro p hp
  obtain ⟨q, hq, rfl⟩ := List.mem_map.1 hp
  have : q.2 = 0 ∨ 2e-8 < ‖q.2‖ := by
    rcases init_entry hu hq with ⟨a, _, _, h⟩ | ⟨_, _, _, _, _, h⟩
    · exact hv ([a], q.2) h
    · exact hv _ h
  by_cases h : q.1 ∈ ks
  · simp only [h, if_true]
    rcases this with h0 | h1
    · left; rw [h0]; simp
    · right
      rw [norm_div]
      simp only [Complex.norm_ofNat]
      norm_num at h1 ⊢
      linarith
  · simp only [h, if_false]
    rcases this with h0 | h1
    · exact .inl h0
    · right
      norm_num at h1 ⊢
      linarith

/-- per key: the term of the specification -/
noncomputable def T (L : ℕ) (s t : List ℕ) : List Char → ℂ
  | [a] => ∑ i ∈ range L, siteElem (pauli a) i s t
  | [a, b] => ∑ i ∈ range (L - 1), bondElem (pauli a) (pauli b) i s t
  | _ => 0

theorem hamElem_eq {u : Dict} (hu : Proper u) (L : ℕ) (s t : List ℕ) : hamElem u L s t = (ks12.map fun k => get0 u k * T L s t k).sum := by
  rw [← sum_dict (T L s t) ks12 (by decide) u hu.nodup]
  · unfold hamElem
    congr 1
    refine List.map_congr_left fun p hp => ?_
    obtain ⟨k, v⟩ := p
    rcases hu.keys _ hp with ⟨a, _, e⟩ | ⟨a, b, _, _, e⟩
    · simp only at e; subst e; rfl
    · simp only at e; subst e; rfl
  · intro p hp
    rcases hu.keys _ hp with ⟨a, ha, e⟩ | ⟨a, b, ha, hb, e⟩
    · rw [e]; rcases ha with rfl | rfl | rfl <;> decide
    · rw [e]; exact List.mem_append_right _ (pair_mem ha hb)

theorem get0_field {u : Dict} (hu : Proper u) {a : Char} (ha : IsPauli a) : get0 (init u) ['I', a] = get0 u [a] ∧ get0 (init u) [a, 'I'] = get0 u [a] := by
  have hn : ∀ {x : List Char}, 'I' ∈ x → dget u x = none := by
    intro x hx
    rw [dget_none]
    intro h
    obtain ⟨p, hp, e⟩ := List.mem_map.1 h
    rcases hu.keys p hp with ⟨a, ha, e'⟩ | ⟨a, b, ha, hb, e'⟩
    · rw [e'] at e
      rw [← e] at hx
      simp at hx
      exact ha.ne hx.symm
    · rw [e'] at e
      rw [← e] at hx
      simp at hx
      rcases hx with hx | hx
      · exact ha.ne hx.symm
      · exact hb.ne hx.symm
  unfold get0
  rcases h : dget u [a] with _ | v
  · rw [init, dget_fold_init u u _ hu.nodup, dget_fold_init u u _ hu.nodup]
    simp [h, hn, ha.ne]
  · obtain ⟨h1, h2, _⟩ := init_field hu.nodup h ha.ne
    rw [h1, h2]
    simp

theorem get0_pair {u : Dict} (hu : Proper u) {a b : Char} (ha : IsPauli a) (hb : IsPauli b) : get0 (init u) [a, b] = get0 u [a, b] := by
  unfold get0
  rw [init_pair hu.nodup ha.ne hb.ne]

theorem list_lin (ks : List (List Char)) (g f1 f3 : List Char → ℂ) (n : ℕ) (f : ℕ → List Char → ℂ) :
    (ks.map fun k => g k * f1 k).sum + ((∑ i ∈ range n, (ks.map fun k => g k * f i k).sum) + (ks.map fun k => g k * f3 k).sum) =
      (ks.map fun k => g k * (f1 k + ((∑ i ∈ range n, f i k) + f3 k))).sum := by
  induction ks with
  | nil => simp
  | cons k ks ih =>
    simp only [List.map_cons, List.sum_cons, Finset.sum_add_distrib, mul_add, ← Finset.mul_sum] at ih ⊢
    linear_combination ih

theorem PI_pauli {a : Char} (h : IsPauli a) : PI a = pauli a := by
  funext x y
  simp [PI, h.ne]

theorem field_sum (f : ℕ → ℂ) (n : ℕ) : (1 * f 0 + ((∑ i ∈ range n, 1 / 2 * f (i + 1)) + 1 / 2 * f (n + 1))) +
    (1 / 2 * f 1 + ((∑ i ∈ range n, 1 / 2 * f (i + 1 + 1)) + 1 * f (n + 1 + 1))) = ∑ i ∈ range (n + 3), f i := by
  induction n with
  | zero => simp [Finset.sum_range_succ]; ring
  | succ n ih =>
    rw [Finset.sum_range_succ _ (n + 3), ← ih, Finset.sum_range_succ, Finset.sum_range_succ]
    ring

theorem pair_sum (f : ℕ → ℂ) (n : ℕ) : 1 * f 0 + ((∑ i ∈ range n, 1 * f (i + 1)) + 1 * f (n + 1)) = ∑ i ∈ range (n + 2), f i := by
  simp only [one_mul]
  rw [Finset.sum_range_succ, Finset.sum_range_succ']
  ring

theorem sum_zipIdx_replicate (M : ND ℂ) (G : ND ℂ → ℕ → ℂ) : ∀ (n j : ℕ), (((List.replicate n M).zipIdx j).map fun p => G p.1 p.2).sum =
    ∑ i ∈ range n, G M (i + j)
  | 0, j => by simp
  | n + 1, j => by
    rw [List.replicate_succ, List.zipIdx_cons, List.map_cons, List.sum_cons, sum_zipIdx_replicate M G n (j + 1), Finset.sum_range_succ']
    rw [add_comm, zero_add]
    congr 1
    exact Finset.sum_congr rfl fun i _ => by congr 1; omega

theorem toMatrices_ok {u : Dict} {L : ℕ} (hL : 3 ≤ L) {M0 Mi ML : ND ℂ} (h0 : toMatrix (squeeze (init (halves (init u) kI))) = .ok M0)
    (hi : toMatrix (squeeze (init (halves (init u) kB))) = .ok Mi) (hl : toMatrix (squeeze (init (halves (init u) kF))) = .ok ML) :
    toMatrices (init u) L = .ok ([M0] ++ List.replicate (L - 3) Mi ++ [ML]) := by
  unfold toMatrices
  simp only [fold_eq, h0, hi, hl, ok_bind, py_pure]
  rw [if_neg (by omega)]
  by_cases h : L = 3
  · subst h; simp
  · rw [if_neg h]

/-- **C26, partial.** For three sites or more, `Hamiltonian(matrices=Hamiltonian(u).to_matrices(L)).to_full()` is the sum
over the bonds of the couplings and over the sites of the fields, with the user's coefficients.  Missing from the claim:
`Hamiltonian(u).to_full(L)` itself raises (`toFull_strings`), two sites are wrong (`toFull_two`), small coefficients are dropped
(`toFull_small`). -/
theorem toFull_partial {u : Dict} (hu : Proper u) (hv : Visible u) {L : ℕ} (hL : 3 ≤ L) (hlog : ilog 4 2 = 2) :
    ∃ ms R, toMatrices (init u) L = .ok ms ∧ toFull ilog (mk none (some ms) 2) none = .ok R ∧ R.shape = [2 ^ L, 2 ^ L] ∧
      ∀ s t, InB (List.replicate L 2) s → InB (List.replicate L 2) t → matElem (List.replicate L 2) R s t = hamElem u L s t := by
  obtain ⟨M0, a1, a2, a3⟩ := part hu hv kI
  obtain ⟨Mi, b1, b2, b3⟩ := part hu hv kB
  obtain ⟨ML, c1, c2, c3⟩ := part hu hv kF
  obtain ⟨n, rfl⟩ := Nat.exists_eq_add_of_le' hL
  have hms := toMatrices_ok hL a1 b1 c1
  rw [show n + 3 - 3 = n by omega] at hms
  have hlen : ([M0] ++ List.replicate n Mi ++ [ML]).length + 2 - 1 = n + 3 := by simp
  have hf := toFull_matrices (ilog := ilog) (ms := [M0] ++ List.replicate n Mi ++ [ML]) (k := 2) (by simp) (by
    intro m hm
    simp only [List.mem_append, List.mem_singleton, List.mem_replicate] at hm
    rcases hm with (rfl | ⟨_, rfl⟩) | rfl
    · exact a2
    · exact b2
    · exact c2) hlog none
  rw [hlen] at hf
  obtain ⟨R, r1, r2, r3⟩ := hf
  refine ⟨_, R, hms, r1, r2, fun s t hs ht => ?_⟩
  have ls : s.length = n + 3 := by simpa using hs.length_eq
  have lt : t.length = n + 3 := by simpa using ht.length_eq
  rw [r3 s t hs ht, hamElem_eq hu]
  have e : (([M0] ++ List.replicate n Mi ++ [ML]).zipIdx.map fun p => blockElem 2 p.1 p.2 2 s t).sum =
      blockElem 2 M0 0 2 s t + ((∑ i ∈ range n, blockElem 2 Mi (i + 1) 2 s t) + blockElem 2 ML (n + 1) 2 s t) := by
    rw [List.append_assoc, List.singleton_append, List.zipIdx_cons, List.map_cons, List.sum_cons, List.zipIdx_append, List.map_append,
      List.sum_append, sum_zipIdx_replicate Mi (fun M i => blockElem 2 M i 2 s t)]
    simp [add_comm 1 n]
  rw [e, a3 0 (n + 3) s t (by omega) hs ht, c3 (n + 1) (n + 3) s t (by omega) hs ht,
    Finset.sum_congr rfl fun i hi => b3 (i + 1) (n + 3) s t (by have := Finset.mem_range.1 hi; omega) hs ht,
    list_lin ks15 (get0 (init u)) (fun k => wt kI k * keyElem k 0 s t) (fun k => wt kF k * keyElem k (n + 1) s t) n
      (fun i k => wt kB k * keyElem k (i + 1) s t)]
  have hpair : ∀ a b, IsPauli a → IsPauli b → wt kI [a, b] * keyElem [a, b] 0 s t +
      ((∑ i ∈ range n, wt kB [a, b] * keyElem [a, b] (i + 1) s t) + wt kF [a, b] * keyElem [a, b] (n + 1) s t) = T (n + 3) s t [a, b] := by
    intro a b ha hb
    have w1 : wt kI [a, b] = 1 := by simp [wt, kI, ha.ne]
    have w2 : wt kB [a, b] = 1 := by simp [wt, kB, ha.ne, hb.ne]
    have w3 : wt kF [a, b] = 1 := by simp [wt, kF, hb.ne]
    rw [w1, w2, w3, pair_sum (fun i => keyElem [a, b] i s t) n]
    simp only [T, keyElem, List.getD_cons_zero, List.getD_cons_succ, PI_pauli ha, PI_pauli hb]
    rfl
  have hfield : ∀ a, IsPauli a → (wt kI [a, 'I'] * keyElem [a, 'I'] 0 s t +
      ((∑ i ∈ range n, wt kB [a, 'I'] * keyElem [a, 'I'] (i + 1) s t) + wt kF [a, 'I'] * keyElem [a, 'I'] (n + 1) s t)) +
      (wt kI ['I', a] * keyElem ['I', a] 0 s t +
      ((∑ i ∈ range n, wt kB ['I', a] * keyElem ['I', a] (i + 1) s t) + wt kF ['I', a] * keyElem ['I', a] (n + 1) s t)) = T (n + 3) s t [a] := by
    intro a ha
    have w1 : wt kI [a, 'I'] = 1 ∧ wt kB [a, 'I'] = 1 / 2 ∧ wt kF [a, 'I'] = 1 / 2 ∧ wt kI ['I', a] = 1 / 2 ∧ wt kB ['I', a] = 1 / 2 ∧
        wt kF ['I', a] = 1 := by
      rcases ha with rfl | rfl | rfl <;> (refine ⟨?_, ?_, ?_, ?_, ?_, ?_⟩ <;> simp [wt, kI, kB, kF])
    obtain ⟨w1, w2, w3, w4, w5, w6⟩ := w1
    have k1 : ∀ i, i + 2 ≤ n + 3 → keyElem [a, 'I'] i s t = siteElem (pauli a) i s t := by
      intro i hi
      simp only [keyElem, List.getD_cons_zero, List.getD_cons_succ, PI_pauli ha]
      exact bond_left _ i s t (by omega) (by omega)
    have k2 : ∀ i, i + 2 ≤ n + 3 → keyElem ['I', a] i s t = siteElem (pauli a) (i + 1) s t := by
      intro i hi
      simp only [keyElem, List.getD_cons_zero, List.getD_cons_succ, PI_pauli ha]
      exact bond_right _ i s t (by omega) (by omega)
    have s1 : ∑ i ∈ range n, (1 / 2 : ℂ) * keyElem [a, 'I'] (i + 1) s t = ∑ i ∈ range n, 1 / 2 * siteElem (pauli a) (i + 1) s t :=
      Finset.sum_congr rfl fun i hi => by rw [k1 (i + 1) (by have := Finset.mem_range.1 hi; omega)]
    have s2 : ∑ i ∈ range n, (1 / 2 : ℂ) * keyElem ['I', a] (i + 1) s t = ∑ i ∈ range n, 1 / 2 * siteElem (pauli a) (i + 1 + 1) s t :=
      Finset.sum_congr rfl fun i hi => by rw [k2 (i + 1) (by have := Finset.mem_range.1 hi; omega)]
    rw [w1, w2, w3, w4, w5, w6, k1 0 (by omega), k1 (n + 1) (by omega), k2 0 (by omega), k2 (n + 1) (by omega), s1, s2]
    exact field_sum (fun i => siteElem (pauli a) i s t) n
  have hX : IsPauli 'X' := .inl rfl
  have hY : IsPauli 'Y' := .inr (.inl rfl)
  have hZ : IsPauli 'Z' := .inr (.inr rfl)
  simp only [ks15, ks12, pairKeys, List.cons_append, List.nil_append, List.map_cons, List.map_nil, List.sum_cons, List.sum_nil]
  simp only [hpair _ _ hX hX, hpair _ _ hX hY, hpair _ _ hX hZ, hpair _ _ hY hX, hpair _ _ hY hY, hpair _ _ hY hZ, hpair _ _ hZ hX,
    hpair _ _ hZ hY, hpair _ _ hZ hZ, get0_pair hu hX hX, get0_pair hu hX hY, get0_pair hu hX hZ, get0_pair hu hY hX, get0_pair hu hY hY,
    get0_pair hu hY hZ, get0_pair hu hZ hX, get0_pair hu hZ hY, get0_pair hu hZ hZ, (get0_field hu hX).1, (get0_field hu hX).2,
    (get0_field hu hY).1, (get0_field hu hY).2, (get0_field hu hZ).1, (get0_field hu hZ).2]
  linear_combination get0 u ['X'] * hfield 'X' hX + get0 u ['Y'] * hfield 'Y' hY + get0 u ['Z'] * hfield 'Z' hZ

/-- **C26, negation** `Hamiltonian(strings).to_full(L)` never returns: the attribute `d` is only set for matrices. -/
theorem toFull_strings {u : Dict} (hu : Proper u) (d L : ℕ) (hL : 2 ≤ L) :
    toFull ilog (mk (some u) none d) (some L) = .error .attributeError := by
  obtain ⟨M0, a1, _, _⟩ := part_shape hu kI
  obtain ⟨Mi, b1, _, _⟩ := part_shape hu kB
  obtain ⟨ML, c1, _, _⟩ := part_shape hu kF
  have : ∃ m ms, toMatrices (init u) L = .ok (m :: ms) := by
    by_cases h : L = 2
    · subst h
      refine ⟨Mi, [], ?_⟩
      unfold toMatrices
      simp only [fold_eq, b1, ok_bind, py_pure]
      rfl
    · exact ⟨M0, _, toMatrices_ok (by omega) a1 b1 c1⟩
  obtain ⟨m, ms, h⟩ := this
  simp [toFull, mk, h, kOf]

/-- on two sites the fields come out halved -/
theorem toFull_two {u : Dict} (hu : Proper u) (hv : Visible u) (hlog : ilog 4 2 = 2) :
    ∃ ms R, toMatrices (init u) 2 = .ok ms ∧ toFull ilog (mk none (some ms) 2) none = .ok R ∧ R.shape = [4, 4] ∧
      ∀ s t, InB [2, 2] s → InB [2, 2] t → matElem [2, 2] R s t =
        hamElem (u.map fun p => if p.1.length = 1 then (p.1, p.2 / 2) else p) 2 s t := by
  obtain ⟨Mi, b1, b2, b3⟩ := part hu hv kB
  obtain ⟨R, r1, r2, r3⟩ := toFull_matrices (ilog := ilog) (ms := [Mi]) (k := 2) (by simp) (by
    intro m hm; rw [List.mem_singleton.1 hm]; exact b2) hlog none
  refine ⟨[Mi], R, ?_, r1, by simpa using r2, fun s t hs ht => ?_⟩
  · unfold toMatrices
    simp only [fold_eq, b1, ok_bind, py_pure]
    rfl
  have ls : s.length = 2 := by simpa using hs.length_eq
  have lt : t.length = 2 := by simpa using ht.length_eq
  have h3 := r3 s t hs ht
  simp only [List.length_singleton, show 1 + 2 - 1 = 2 by omega, List.replicate_succ, List.replicate_zero] at h3
  rw [h3]
  have hu' : Proper (u.map fun p => if p.1.length = 1 then (p.1, p.2 / 2) else p) := by
    refine ⟨?_, ?_⟩
    · rw [List.map_map]
      have : u.map ((fun x => x.1) ∘ fun p : List Char × ℂ => if p.1.length = 1 then (p.1, p.2 / 2) else p) = u.map (·.1) :=
        List.map_congr_left fun p _ => by by_cases h : p.1.length = 1 <;> simp [h]
      rw [this]
      exact hu.nodup
    · intro p hp
      obtain ⟨q, hq, rfl⟩ := List.mem_map.1 hp
      have := hu.keys q hq
      by_cases h : q.1.length = 1 <;> simp only [h, if_true, if_false] <;> exact this
  have hsum : hamElem (u.map fun p => if p.1.length = 1 then (p.1, p.2 / 2) else p) 2 s t =
      (ks12.map fun k => get0 u k * ((if k.length = 1 then 1 / 2 else 1) * T 2 s t k)).sum := by
    rw [← sum_dict (fun k => (if k.length = 1 then 1 / 2 else 1) * T 2 s t k) ks12 (by decide) u hu.nodup]
    · unfold hamElem
      rw [List.map_map]
      congr 1
      refine List.map_congr_left fun p hp => ?_
      obtain ⟨k, v⟩ := p
      rcases hu.keys _ hp with ⟨a, _, e⟩ | ⟨a, b, _, _, e⟩
      · simp only at e; subst e; simp [termElem, T]; ring
      · simp only at e; subst e; simp [termElem, T]
    · intro p hp
      rcases hu.keys _ hp with ⟨a, ha, e⟩ | ⟨a, b, ha, hb, e⟩
      · rw [e]; rcases ha with rfl | rfl | rfl <;> decide
      · rw [e]; exact List.mem_append_right _ (pair_mem ha hb)
  rw [hsum]
  simp only [List.zipIdx_cons, List.zipIdx_nil, List.map_cons, List.map_nil, List.sum_cons, List.sum_nil, add_zero]
  rw [b3 0 2 s t (by omega) hs ht]
  have hpair : ∀ a b, IsPauli a → IsPauli b → wt kB [a, b] * keyElem [a, b] 0 s t = T 2 s t [a, b] := by
    intro a b ha hb
    have w2 : wt kB [a, b] = 1 := by simp [wt, kB, ha.ne, hb.ne]
    rw [w2]
    simp [T, keyElem, PI_pauli ha, PI_pauli hb]
  have hfield : ∀ a, IsPauli a → wt kB [a, 'I'] * keyElem [a, 'I'] 0 s t + wt kB ['I', a] * keyElem ['I', a] 0 s t = 1 / 2 * T 2 s t [a] := by
    intro a ha
    have w1 : wt kB [a, 'I'] = 1 / 2 ∧ wt kB ['I', a] = 1 / 2 := by
      rcases ha with rfl | rfl | rfl <;> (refine ⟨?_, ?_⟩ <;> simp [wt, kB])
    rw [w1.1, w1.2]
    simp only [keyElem, List.getD_cons_zero, List.getD_cons_succ, PI_pauli ha]
    rw [bond_left _ 0 s t (by omega) (by omega), bond_right _ 0 s t (by omega) (by omega)]
    simp [T, Finset.sum_range_succ]
    ring
  have hX : IsPauli 'X' := .inl rfl
  have hY : IsPauli 'Y' := .inr (.inl rfl)
  have hZ : IsPauli 'Z' := .inr (.inr rfl)
  simp only [ks15, ks12, pairKeys, List.cons_append, List.nil_append, List.map_cons, List.map_nil, List.sum_cons, List.sum_nil]
  simp only [hpair _ _ hX hX, hpair _ _ hX hY, hpair _ _ hX hZ, hpair _ _ hY hX, hpair _ _ hY hY, hpair _ _ hY hZ, hpair _ _ hZ hX,
    hpair _ _ hZ hY, hpair _ _ hZ hZ, get0_pair hu hX hX, get0_pair hu hX hY, get0_pair hu hX hZ, get0_pair hu hY hX, get0_pair hu hY hY,
    get0_pair hu hY hZ, get0_pair hu hZ hX, get0_pair hu hZ hY, get0_pair hu hZ hZ, (get0_field hu hX).1, (get0_field hu hX).2,
    (get0_field hu hY).1, (get0_field hu hY).2, (get0_field hu hZ).1, (get0_field hu hZ).2, List.length_cons, List.length_nil]
  norm_num
  linear_combination get0 u ['X'] * hfield 'X' hX + get0 u ['Y'] * hfield 'Y' hY + get0 u ['Z'] * hfield 'Z' hZ

end Xmps.Ham
