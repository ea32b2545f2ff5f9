import Verif.Spec.Ham
import Verif.Model.Hamiltonian
import Verif.Lemmas.Kron
import Verif.Props.SpinAlgebra
import Mathlib.Tactic.IntervalCases

/-!
# Dictionaries of Pauli strings and the matrices made from them
-/

namespace Xmps.Ham

open Finset Xmps.Spec Xmps.Spin

/-! ### dictionaries -/

theorem dget_nil (x : List Char) : dget [] x = none := rfl

theorem dget_cons (k : List Char) (v : ℂ) (d : Dict) (x : List Char) : dget ((k, v) :: d) x = if x = k then some v else dget d x := by
  unfold dget
  by_cases h : x = k
  · subst h; simp [List.lookup_cons]
  · have : (x == k) = false := by simpa using h
    rw [if_neg h, List.lookup_cons, this]

theorem dget_none {d : Dict} {x : List Char} : dget d x = none ↔ x ∉ d.map (·.1) := by
  induction d with
  | nil => simp [dget_nil]
  | cons p d ih =>
    obtain ⟨k, v⟩ := p
    rw [dget_cons]
    by_cases h : x = k
    · simp [h]
    · rw [if_neg h, ih]; simp [h]

theorem dget_append (d d' : Dict) (x : List Char) : dget (d ++ d') x = (dget d x).orElse fun _ => dget d' x := by
  induction d with
  | nil => simp [dget_nil]
  | cons p d ih =>
    obtain ⟨k, v⟩ := p
    rw [List.cons_append, dget_cons, dget_cons, ih]
    by_cases h : x = k <;> simp [h]

theorem dget_dset (d : Dict) (k : List Char) (v : ℂ) (x : List Char) : dget (dset d k v) x = if x = k then some v else dget d x := by
  unfold dset
  by_cases hk : k ∈ d.map (·.1)
  · rw [if_pos hk]
    induction d with
    | nil => simp at hk
    | cons p d ih =>
      obtain ⟨k', v'⟩ := p
      rw [List.map_cons]
      by_cases h : k' = k
      · subst h
        simp only [if_true]
        rw [dget_cons, dget_cons]
        by_cases hx : x = k'
        · simp [hx]
        · rw [if_neg hx, if_neg hx, if_neg hx]
          by_cases hkd : k' ∈ d.map (·.1)
          · rw [ih hkd, if_neg hx]
          · congr 1
            refine Eq.trans (List.map_congr_left (g := id) fun p hp => ?_) (List.map_id d)
            rw [if_neg fun e => hkd (List.mem_map.2 ⟨p, hp, e⟩)]
            rfl
      · rw [if_neg h, dget_cons, dget_cons]
        have hkd : k ∈ d.map (·.1) := by
          simp only [List.map_cons, List.mem_cons] at hk
          rcases hk with e | e
          · exact absurd e.symm h
          · exact e
        rw [ih hkd]
        by_cases hx : x = k'
        · subst hx
          simp [h]
        · simp [hx]
  · rw [if_neg hk, dget_append, dget_cons, dget_nil]
    by_cases hx : x = k
    · subst hx
      rw [dget_none.2 hk]
      simp
    · rw [if_neg hx, if_neg hx]
      cases dget d x <;> rfl

theorem dget_dpop (d : Dict) (k x : List Char) : dget (dpop d k) x = if x = k then none else dget d x := by
  induction d with
  | nil => simp [dpop, dget_nil]
  | cons p d ih =>
    obtain ⟨k', v'⟩ := p
    unfold dpop at ih ⊢
    rw [List.filter_cons]
    by_cases h : k' = k
    · subst h
      simp only [ne_eq, not_true_eq_false, decide_false, Bool.false_eq_true, if_false]
      rw [ih, dget_cons]
      by_cases hx : x = k' <;> simp [hx]
    · simp only [ne_eq, h, not_false_eq_true, decide_true, if_true]
      rw [dget_cons, dget_cons, ih]
      by_cases hx : x = k'
      · subst hx; simp [h]
      · simp [hx]

theorem keys_dset (d : Dict) (k : List Char) (v : ℂ) (h : (d.map (·.1)).Nodup) : ((dset d k v).map (·.1)).Nodup := by
  unfold dset
  by_cases hk : k ∈ d.map (·.1)
  · rw [if_pos hk, List.map_map]
    have : ((fun x : List Char × ℂ => x.1) ∘ fun p : List Char × ℂ => if p.1 = k then (k, v) else p) = fun p => p.1 := by
      funext p
      by_cases hp : p.1 = k <;> simp [hp]
    rw [this]
    exact h
  · rw [if_neg hk, List.map_append, List.nodup_append]
    refine ⟨h, by simp, ?_⟩
    intro a ha b hb e
    simp only [List.map_cons, List.map_nil, List.mem_singleton] at hb
    exact hk (by rw [← hb, ← e]; exact ha)

theorem keys_dpop (d : Dict) (k : List Char) (h : (d.map (·.1)).Nodup) : ((dpop d k).map (·.1)).Nodup :=
  h.sublist (List.filter_sublist.map _)

theorem keys_init (u : Dict) (h : (u.map (·.1)).Nodup) : ((init u).map (·.1)).Nodup := by
  have : ∀ (l d : Dict), (d.map (·.1)).Nodup → ((l.foldl initStep d).map (·.1)).Nodup := by
    intro l
    induction l with
    | nil => intro d hd; exact hd
    | cons p l ih =>
      intro d hd
      rw [List.foldl_cons]
      apply ih
      unfold initStep
      split_ifs
      · exact keys_dpop _ _ (keys_dset _ _ _ (keys_dset _ _ _ hd))
      · exact hd
  exact this u u h

theorem get0_cons (k : List Char) (v : ℂ) (d : Dict) (x : List Char) : get0 ((k, v) :: d) x = if x = k then v else get0 d x := by
  unfold get0
  rw [dget_cons]
  split_ifs <;> rfl

/-- a sum over the entries of a dictionary is a sum over any list of distinct keys containing its keys -/
theorem sum_dict (F : List Char → ℂ) (ks : List (List Char)) (hks : ks.Nodup) : ∀ d : Dict, (d.map (·.1)).Nodup → (∀ p ∈ d, p.1 ∈ ks) →
    (d.map fun p => p.2 * F p.1).sum = (ks.map fun k => get0 d k * F k).sum
  | [], _, _ => by
    have : (ks.map fun k => get0 [] k * F k) = ks.map fun _ => (0 : ℂ) := List.map_congr_left fun k _ => by simp [get0, dget_nil]
    rw [this]
    simp
  | (k, v) :: d, hd, hk => by
    rw [List.map_cons, List.nodup_cons] at hd
    rw [List.map_cons, List.sum_cons, sum_dict F ks hks d hd.2 fun p hp => hk p (by simp [hp])]
    have h0 : get0 d k = 0 := by
      unfold get0
      rw [dget_none.2 hd.1]
      rfl
    have e : ∀ x, get0 ((k, v) :: d) x * F x = (if x = k then v * F k else 0) + get0 d x * F x := by
      intro x
      rw [get0_cons]
      by_cases hx : x = k
      · subst hx; rw [if_pos rfl, if_pos rfl, h0]; ring
      · rw [if_neg hx, if_neg hx]; ring
    rw [List.map_congr_left fun x _ => e x, List.sum_map_add]
    congr 1
    have hmem : k ∈ ks := hk (k, v) (by simp)
    clear * - hks hmem
    induction ks with
    | nil => simp at hmem
    | cons y ys ih =>
      rw [List.nodup_cons] at hks
      rw [List.map_cons, List.sum_cons]
      rcases List.mem_cons.1 hmem with e | e
      · subst e
        rw [if_pos rfl]
        have : ys.map (fun x => if x = k then v * F k else 0) = ys.map fun _ => (0 : ℂ) :=
          List.map_congr_left fun x hx => by rw [if_neg]; rintro rfl; exact hks.1 hx
        rw [this]
        simp
      · rw [if_neg (by rintro rfl; exact hks.1 e), zero_add]
        exact ih hks.2 e

/-- what the constructor does to a dictionary -/
theorem dget_fold_init : ∀ (l d : Dict) (x : List Char), (l.map (·.1)).Nodup → dget (l.foldl initStep d) x =
    match x with
    | [c] => if (dget l [c]).isSome then none else dget d [c]
    | [a, b] => if a = 'I' ∧ (dget l [b]).isSome then dget l [b] else if b = 'I' ∧ (dget l [a]).isSome then dget l [a] else dget d [a, b]
    | x => dget d x
  | [], d, x, _ => by
    rcases x with _ | ⟨a, _ | ⟨b, _ | ⟨c, x⟩⟩⟩ <;> simp [dget_nil]
  | (k, v) :: l, d, x, hl => by
    rw [List.map_cons, List.nodup_cons] at hl
    rw [List.foldl_cons, dget_fold_init l (initStep d (k, v)) x hl.2]
    by_cases hk : k.length = 1
    · obtain ⟨e, rfl⟩ := List.length_eq_one_iff.1 hk
      have hle : dget l [e] = none := dget_none.2 hl.1
      have hs : initStep d ([e], v) = dpop (dset (dset d ['I', e] v) [e, 'I'] v) [e] := by simp [initStep]
      rw [hs]
      rcases x with _ | ⟨a, _ | ⟨b, _ | ⟨c, x⟩⟩⟩
      · simp [dget_dpop, dget_dset]
      · simp only [dget_dpop, dget_dset, dget_cons]
        by_cases ha : a = e
        · subst ha; simp
        · simp [ha]
      · simp only [dget_dpop, dget_dset, dget_cons]
        by_cases hb : b = e
        · subst hb
          by_cases ha : a = 'I'
          · subst ha
            simp only [hle]
            by_cases h3 : b = 'I'
            · subst h3; simp [hle]
            · simp [h3]
          · by_cases ha2 : a = b
            · subst ha2
              simp [ha]
            · by_cases hI : b = 'I'
              · subst hI
                simp [ha, hle]
              · simp [ha, hI]
        · by_cases ha : a = e
          · subst ha
            by_cases hI : b = 'I'
            · subst hI
              by_cases h3 : a = 'I'
              · exact absurd h3.symm hb
              · simp [h3, hle]
            · simp [hI, hb]
          · simp [ha, hb]
      · simp [dget_dpop, dget_dset]
    · have hs : initStep d (k, v) = d := by simp [initStep, hk]
      rw [hs]
      rcases x with _ | ⟨a, _ | ⟨b, _ | ⟨c, x⟩⟩⟩
      · rfl
      · have h1 : [a] ≠ k := by rintro rfl; exact hk rfl
        simp [dget_cons, h1]
      · have h1 : [a] ≠ k := by rintro rfl; exact hk rfl
        have h2 : [b] ≠ k := by rintro rfl; exact hk rfl
        simp [dget_cons, h1, h2]
      · rfl

/-- without one-letter keys the constructor changes nothing -/
theorem init_id (d : Dict) (h : ∀ p ∈ d, p.1.length ≠ 1) : init d = d := by
  have : ∀ (l d : Dict), (∀ p ∈ l, p.1.length ≠ 1) → l.foldl initStep d = d := by
    intro l
    induction l with
    | nil => intro d _; rfl
    | cons p l ih =>
      intro d hd
      rw [List.foldl_cons, show initStep d p = d by simp [initStep, hd p (by simp)]]
      exact ih d fun q hq => hd q (by simp [hq])
  exact this d d h

theorem keys_halve (d : Dict) (k : List Char) : (halve d k).map (·.1) = d.map (·.1) := by
  unfold halve
  rw [List.map_map]
  refine List.map_congr_left fun p _ => ?_
  by_cases h : p.1 = k <;> simp [h]

theorem halve_absent (d : Dict) (k : List Char) (h : k ∉ d.map (·.1)) : halve d k = d := by
  unfold halve
  refine Eq.trans (List.map_congr_left (g := id) fun p hp => ?_) (List.map_id d)
  rw [if_neg fun e => h (List.mem_map.2 ⟨p, hp, e⟩)]
  rfl

theorem sum_halve (d : Dict) (k : List Char) (F : List Char → ℂ) : ((halve d k).map fun p => p.2 * F p.1).sum =
    (d.map fun p => p.2 * ((if p.1 = k then 1 / 2 else 1) * F p.1)).sum := by
  unfold halve
  rw [List.map_map]
  congr 1
  refine List.map_congr_left fun p _ => ?_
  by_cases h : p.1 = k
  · simp [h]; ring
  · simp [h]

theorem halveStep_eq (x : Dict × Dict × Dict) (c : Char) (h1 : x.1.map (·.1) = x.2.1.map (·.1)) (h2 : x.2.2.map (·.1) = x.2.1.map (·.1)) :
    halveStep x c = (halve x.1 ['I', c], halve (halve x.2.1 [c, 'I']) ['I', c], halve x.2.2 [c, 'I']) := by
  obtain ⟨x0, xi, xL⟩ := x
  simp only at h1 h2
  unfold halveStep
  by_cases a : [c, 'I'] ∈ xi.map (·.1)
  · simp only [a, if_true]
    by_cases b : ['I', c] ∈ xi.map (·.1)
    · simp only [keys_halve, b, if_true]
    · simp only [keys_halve, b, if_false]
      rw [halve_absent x0 _ (by rw [h1]; exact b), halve_absent (halve xi [c, 'I']) _ (by rw [keys_halve]; exact b)]
  · simp only [a, if_false]
    rw [halve_absent xi [c, 'I'] a, halve_absent xL [c, 'I'] (by rw [h2]; exact a)]
    by_cases b : ['I', c] ∈ xi.map (·.1)
    · simp only [b, if_true]
    · simp only [b, if_false]
      rw [halve_absent x0 _ (by rw [h1]; exact b), halve_absent xi _ b]

theorem halve_fold (d : Dict) : ['X', 'Y', 'Z'].foldl halveStep (d, d, d) =
    (halve (halve (halve d ['I', 'X']) ['I', 'Y']) ['I', 'Z'],
      halve (halve (halve (halve (halve (halve d ['X', 'I']) ['I', 'X']) ['Y', 'I']) ['I', 'Y']) ['Z', 'I']) ['I', 'Z'],
      halve (halve (halve d ['X', 'I']) ['Y', 'I']) ['Z', 'I']) := by
  simp only [List.foldl_cons, List.foldl_nil]
  rw [halveStep_eq (d, d, d) 'X' rfl rfl]
  rw [halveStep_eq _ 'Y' (by simp only [keys_halve]) (by simp only [keys_halve])]
  rw [halveStep_eq _ 'Z' (by simp only [keys_halve]) (by simp only [keys_halve])]

theorem sum_squeeze (d : Dict) (h : ∀ p ∈ d, p.2 = 0 ∨ 1e-8 < ‖p.2‖) (F : List Char → ℂ) :
    ((squeeze d).map fun p => p.2 * F p.1).sum = (d.map fun p => p.2 * F p.1).sum := by
  classical
  induction d with
  | nil => simp [squeeze]
  | cons p d ih =>
    have ih := ih fun q hq => h q (by simp [hq])
    unfold squeeze at ih ⊢
    rw [List.filter_cons]
    rcases h p (by simp) with h0 | h1
    · have : ‖p.2‖ ≤ 1e-8 := by rw [h0]; norm_num
      simp only [this, not_true_eq_false, decide_false, Bool.false_eq_true, if_false]
      rw [ih, List.map_cons, List.sum_cons, h0, zero_mul, zero_add]
    · simp only [not_le.2 h1, not_false_eq_true, decide_true, if_true]
      rw [List.map_cons, List.map_cons, List.sum_cons, List.sum_cons, ih]

/-! ### matrices -/

/-- Pauli matrix or identity -/
noncomputable def PI (c : Char) (a b : ℕ) : ℂ := if c = 'I' then (if a = b then 1 else 0) else pauli c a b

/-- the four letters -/
def Letter (c : Char) : Prop := c = 'I' ∨ c = 'X' ∨ c = 'Y' ∨ c = 'Z'

theorem S_ok {c : Char} (h : Letter c) : ∃ N, S c = .ok N ∧ N.shape = [2, 2] ∧ ∀ a b, a < 2 → b < 2 → N.val [a, b] = PI c a b := by
  have hp := paulis_eq 1
  rcases h with rfl | rfl | rfl | rfl
  · exact ⟨_, rfl, rfl, fun a b _ _ => by simp [PI, eyeND]⟩
  · refine ⟨ofMat (paulis 1).1, rfl, rfl, fun a b ha hb => ?_⟩
    rw [hp]
    interval_cases a <;> interval_cases b <;> simp [ofMat, PI, pauli]
  · refine ⟨ofMat (paulis 1).2.1, rfl, rfl, fun a b ha hb => ?_⟩
    rw [hp]
    interval_cases a <;> interval_cases b <;> simp [ofMat, PI, pauli]
  · refine ⟨ofMat (paulis 1).2.2, rfl, rfl, fun a b ha hb => ?_⟩
    rw [hp]
    interval_cases a <;> interval_cases b <;> simp [ofMat, PI, pauli]

/-- a key of two letters -/
def Key2 (k : List Char) : Prop := ∃ a b, Letter a ∧ Letter b ∧ k = [a, b]

/-- entry of the two-site matrix of a key -/
noncomputable def keyVal (k : List Char) (a a' b b' : ℕ) : ℂ := PI (k.getD 0 'I') a b * PI (k.getD 1 'I') a' b'

theorem addTerm_ok (h : ND ℂ) {p : List Char × ℂ} (hp : Key2 p.1) : ∃ M, addTerm h p = .ok M ∧ M.shape = [4, 4] ∧
    ∀ a a' b b', a < 2 → a' < 2 → b < 2 → b' < 2 →
      M.val [a * 2 + a', b * 2 + b'] = h.val [a * 2 + a', b * 2 + b'] + p.2 * keyVal p.1 a a' b b' := by
  obtain ⟨c, c', hc, hc', hk⟩ := hp
  obtain ⟨N, n1, n2, n3⟩ := S_ok hc
  obtain ⟨N', n1', n2', n3'⟩ := S_ok hc'
  obtain ⟨R, r1, r2, r3⟩ := tensor_spec [2, 2] [N, N'] (by simp) ⟨n2, n2', trivial⟩
  refine ⟨⟨[4, 4], fun idx => h.val idx + p.2 * R.val idx⟩, ?_, rfl, ?_⟩
  · have : p.1.mapM S = .ok [N, N'] := by
      rw [hk, List.mapM_cons, n1, ok_bind, List.mapM_cons, n1', ok_bind, List.mapM_nil]
      rfl
    unfold addTerm
    rw [this, ok_bind, r1, ok_bind, r2]
    rfl
  · intro a a' b b' ha ha' hb hb'
    have := r3 [a, a'] [b, b'] (by simp [ha, ha']) (by simp [hb, hb'])
    simp only [ravel_cons, ravel_nil, List.prod_cons, List.prod_nil, mul_one, add_zero] at this
    simp only [this, prodElem, keyVal, hk, n3 a b ha hb, n3' a' b' ha' hb', List.getD_cons_zero, List.getD_cons_succ, mul_one]

theorem toMatrix_ok (d : Dict) (hd : ∀ p ∈ d, Key2 p.1) : ∃ M, toMatrix d = .ok M ∧ M.shape = [4, 4] ∧
    ∀ a a' b b', a < 2 → a' < 2 → b < 2 → b' < 2 →
      M.val [a * 2 + a', b * 2 + b'] = (d.map fun p => p.2 * keyVal p.1 a a' b b').sum := by
  have gen : ∀ (d : Dict) (h : ND ℂ), h.shape = [4, 4] → (∀ p ∈ d, Key2 p.1) → ∃ M, d.foldlM addTerm h = .ok M ∧ M.shape = [4, 4] ∧
      ∀ a a' b b', a < 2 → a' < 2 → b < 2 → b' < 2 →
        M.val [a * 2 + a', b * 2 + b'] = h.val [a * 2 + a', b * 2 + b'] + (d.map fun p => p.2 * keyVal p.1 a a' b b').sum := by
    intro d
    induction d with
    | nil => intro h hh _; exact ⟨h, rfl, hh, fun a a' b b' _ _ _ _ => by simp⟩
    | cons p d ih =>
      intro h hh hd
      obtain ⟨M, m1, m2, m3⟩ := addTerm_ok h (hd p (by simp))
      obtain ⟨M', k1, k2, k3⟩ := ih M m2 fun q hq => hd q (by simp [hq])
      refine ⟨M', by rw [List.foldlM_cons, m1, ok_bind, k1], k2, ?_⟩
      intro a a' b b' ha ha' hb hb'
      rw [k3 a a' b b' ha ha' hb hb', m3 a a' b b' ha ha' hb hb', List.map_cons, List.sum_cons, add_assoc]
  obtain ⟨M, m1, m2, m3⟩ := gen d (zerosND [4, 4]) rfl hd
  refine ⟨M, m1, m2, fun a a' b b' ha ha' hb hb' => ?_⟩
  rw [m3 a a' b b' ha ha' hb hb']
  simp [zerosND]

/-! ### placing them on the chain -/

/-- element of a key at bond `i` -/
noncomputable def keyElem (k : List Char) (i : ℕ) (s t : List ℕ) : ℂ := bondElem (PI (k.getD 0 'I')) (PI (k.getD 1 'I')) i s t

theorem blockElem_succ (X : ND ℂ) (d i k a b : ℕ) (s t : List ℕ) :
    blockElem d X (i + 1) k (a :: s) (b :: t) = if a = b then blockElem d X i k s t else 0 := by
  simp only [blockElem, List.take_succ_cons, List.drop_succ_cons, show i + 1 + k = (i + k) + 1 by omega, List.cons.injEq]
  by_cases h : a = b <;> simp [h]

theorem block_two {M : ND ℂ} {d : Dict}
    (hM : ∀ a a' b b', a < 2 → a' < 2 → b < 2 → b' < 2 → M.val [a * 2 + a', b * 2 + b'] = (d.map fun p => p.2 * keyVal p.1 a a' b b').sum) :
    ∀ (i L : ℕ) (s t : List ℕ), i + 2 ≤ L → InB (List.replicate L 2) s → InB (List.replicate L 2) t →
      blockElem 2 M i 2 s t = (d.map fun p => p.2 * keyElem p.1 i s t).sum
  | 0, L, s, t, hL, hs, ht => by
    obtain ⟨L, rfl⟩ := Nat.exists_eq_add_of_le' hL
    match s, t, hs, ht with
    | a :: a' :: s, b :: b' :: t, hs, ht =>
      simp only [Nat.zero_add, List.replicate_succ, InB_cons] at hs ht
      have e : blockElem 2 M 0 2 (a :: a' :: s) (b :: b' :: t) = if s = t then M.val [a * 2 + a', b * 2 + b'] else 0 := by
        simp [blockElem, ravel_cons]
      rw [e, hM a a' b b' hs.1 hs.2.1 ht.1 ht.2.1]
      by_cases h : s = t
      · simp [h, keyElem, bondElem, keyVal]
      · simp [h, keyElem, bondElem]
  | i + 1, L, s, t, hL, hs, ht => by
    obtain ⟨L, rfl⟩ := Nat.exists_eq_add_of_le' (show 1 ≤ L by omega)
    match s, t, hs, ht with
    | a :: s, b :: t, hs, ht =>
      simp only [List.replicate_succ, InB_cons] at hs ht
      rw [blockElem_succ, block_two hM i L s t (by omega) hs.2 ht.2]
      by_cases h : a = b <;> simp [h, keyElem, bondElem]

theorem bond_left (A : ℕ → ℕ → ℂ) : ∀ (i : ℕ) (s t : List ℕ), i + 2 ≤ s.length → t.length = s.length →
    bondElem A (PI 'I') i s t = siteElem A i s t
  | 0, s, t, hs, ht => by
    match s, t, hs, ht with
    | a :: a' :: s, b :: b' :: t, _, _ =>
      by_cases h : s = t <;> by_cases h2 : a' = b' <;> simp [bondElem, siteElem, PI, h, h2]
    | a :: a' :: s, [], _, ht => simp at ht
    | a :: a' :: s, [b], _, ht => simp at ht
  | i + 1, s, t, hs, ht => by
    match s, t, hs, ht with
    | a :: s, b :: t, hs, ht =>
      simp only [bondElem, siteElem]
      rw [bond_left A i s t (by simp at hs; omega) (by simpa using ht)]
    | a :: s, [], _, ht => simp at ht
    | [], _, hs, ht => simp at hs

theorem bond_right (A : ℕ → ℕ → ℂ) : ∀ (i : ℕ) (s t : List ℕ), i + 2 ≤ s.length → t.length = s.length →
    bondElem (PI 'I') A i s t = siteElem A (i + 1) s t
  | 0, s, t, hs, ht => by
    match s, t, hs, ht with
    | a :: a' :: s, b :: b' :: t, _, _ =>
      by_cases h : s = t <;> by_cases h2 : a = b <;> simp [bondElem, siteElem, PI, h, h2]
    | a :: a' :: s, [], _, ht => simp at ht
    | a :: a' :: s, [b], _, ht => simp at ht
  | i + 1, s, t, hs, ht => by
    match s, t, hs, ht with
    | a :: s, b :: t, hs, ht =>
      simp only [bondElem]
      rw [bond_right A i s t (by simp at hs; omega) (by simpa using ht)]
      rfl
    | a :: s, [], _, ht => simp at ht
    | [], _, hs, ht => simp at hs

end Xmps.Ham
