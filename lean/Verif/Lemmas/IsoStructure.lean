import Verif.Lemmas.Isometrise

/-!
# The extents made by `create_structure`, and when the truncated tensors are large enough
-/

namespace Xmps.FPEPS

open Finset Spec

/-- the extents of `create_structure` along one direction: 1 at the borders, `X` inside -/
def edgeX (L X j : ℕ) : ℕ := if j = 0 ∨ j = L then 1 else X

theorem frame_ofFn {α : Type} (a b c : α) (L : ℕ) :
    [a] ++ (List.replicate L b ++ [c]) = List.ofFn fun i : Fin (L + 2) => if i.1 = 0 then a else if i.1 = L + 1 then c else b := by
  refine List.ext_getElem (by simp) fun k h1 h2 => ?_
  simp only [List.length_ofFn] at h2
  rw [List.getElem_ofFn]
  rcases k with _ | k
  · simp
  · simp only [List.cons_append, List.nil_append, List.getElem_cons_succ, Nat.add_eq_zero_iff, one_ne_zero, and_false, if_false, Nat.add_right_cancel_iff]
    by_cases hk : k = L
    · subst hk
      rw [if_pos rfl, List.getElem_append_right (by simp)]
      simp
    · rw [if_neg hk, List.getElem_append_left (by simp; omega), List.getElem_replicate]

/-- `create_structure`, entry by entry -/
theorem createStructure_eq {m n : ℕ} (d X : ℕ) (hm : 0 < m) (hn : 0 < n) (h1 : ¬ (m = 1 ∧ n = 1)) :
    createStructure n m d X = .ok (List.ofFn fun j : Fin m => List.ofFn fun i : Fin n =>
      [d, edgeX m X j, edgeX n X (i + 1), edgeX m X (j + 1), edgeX n X i]) := by
  unfold createStructure structRow
  by_cases hn1 : n = 1
  · subst hn1
    obtain ⟨m, rfl⟩ : ∃ k, m = k + 2 := ⟨m - 2, by omega⟩
    rw [if_neg (by simp), if_neg (by simp), if_pos ⟨rfl, by omega⟩, Nat.add_sub_cancel, frame_ofFn]
    congr 2
    funext j
    have := j.2
    simp only [List.ofFn_succ, List.ofFn_zero, edgeX]
    simp only [Fin.val_zero, true_or, or_true, if_true, zero_add, Nat.add_eq_zero_iff, one_ne_zero, and_false, false_or]
    split_ifs <;> first | rfl | omega
  · obtain ⟨n, rfl⟩ : ∃ k, n = k + 2 := ⟨n - 2, by omega⟩
    by_cases hm1 : m = 1
    · subst hm1
      rw [if_neg (by simp), if_pos ⟨rfl, by omega⟩, Nat.add_sub_cancel, frame_ofFn]
      congr 2
      beta_reduce
      congr 1
      funext i
      have := i.2
      have e1 : edgeX 1 X (⟨0, hm⟩ : Fin 1).1 = 1 := by simp [edgeX]
      have e2 : edgeX 1 X ((⟨0, hm⟩ : Fin 1).1 + 1) = 1 := by simp [edgeX]
      rw [e1, e2]
      simp only [edgeX, Nat.add_eq_zero_iff, one_ne_zero, and_false, false_or]
      split_ifs <;> first | rfl | omega
    · obtain ⟨m, rfl⟩ : ∃ k, m = k + 2 := ⟨m - 2, by omega⟩
      rw [if_pos ⟨by omega, by omega⟩, Nat.add_sub_cancel, Nat.add_sub_cancel]
      simp only [frame_ofFn]
      congr 2
      funext j
      have := j.2
      have e : ∀ (c : Prop) [Decidable c] (f g : Fin (n + 2) → List ℕ), (if c then List.ofFn f else List.ofFn g) = List.ofFn fun i => if c then f i else g i := by
        intro c _ f g
        split_ifs <;> rfl
      rw [e, e]
      congr 1
      funext i
      have := i.2
      simp only [edgeX, Nat.add_eq_zero_iff, one_ne_zero, and_false, false_or]
      split_ifs <;> first | rfl | omega

/-- `random`, as a grid -/
theorem random_holds {m n : ℕ} (rnd : ℕ → ℕ → List ℕ → ℂ) (d X : ℕ) (hm : 0 < m) (hn : 0 < n) (h1 : ¬ (m = 1 ∧ n = 1)) :
    ∃ x, random rnd n m d X = .ok x ∧ x.Lx = n ∧ x.Ly = m ∧ x.d = d ∧ x.X = X ∧ x.oc = none ∧
      x.Holds m n (fun _ _ => d) (fun j _ => edgeX m X j) (fun _ i => edgeX n X i)
        (fun j i => ⟨[d, edgeX m X j, edgeX n X (i + 1), edgeX m X (j + 1), edgeX n X i], rnd j i⟩) := by
  refine ⟨⟨_, n, m, d, X, none⟩, by unfold random; rw [createStructure_eq d X hm hn h1, ok_bind], rfl, rfl, rfl, rfl, rfl, fun j i => by simp, ?_, hm, hn⟩
  simp only [zipIdx_ofFn, List.map_ofFn, Function.comp_def, gridList]

section

/-- an extent after the truncations of an `L` by `L` grid: the bond at position `a` of its line, which is line `b` -/
def bondE (L d X a b : ℕ) : ℕ :=
  if a = 1 ∨ a = L - 1 then min (min (edgeX L X a) (d ^ min b (L - 1 - b))) d else min (edgeX L X a) (d ^ min b (L - 1 - b))

variable {L d X : ℕ}

theorem vIso_square (hL : 2 ≤ L) (j : Fin (L + 1)) (i : Fin L) : vIso d (fun (j : Fin (L + 1)) (_ : Fin L) => edgeX L X j) j i = bondE L d X j i := by
  unfold vIso bondE
  have : 1 < L := hL
  simp [this]

theorem hIso_square (hL : 2 ≤ L) (j : Fin L) (i : Fin (L + 1)) : hIso d (fun (_ : Fin L) (i : Fin (L + 1)) => edgeX L X i) j i = bondE L d X i j := by
  unfold hIso bondE
  have : 1 < L := hL
  simp [this]

theorem edgeX_pos (hX : 0 < X) (a : ℕ) : 0 < edgeX L X a := by
  unfold edgeX
  split_ifs <;> omega

theorem bondE_pos (hd : 0 < d) (hX : 0 < X) (a b : ℕ) : 0 < bondE L d X a b := by
  unfold bondE
  have := edgeX_pos (L := L) hX a
  have := Nat.pow_pos (n := min b (L - 1 - b)) hd
  split_ifs <;> simp [*]

theorem bondE_rev {a b : ℕ} (hL : 2 ≤ L) (ha : a ≤ L) : bondE L d X (L - a) b = bondE L d X a b := by
  unfold bondE
  have e1 : (L - a = 1 ∨ L - a = L - 1) ↔ (a = 1 ∨ a = L - 1) := by omega
  have e2 : edgeX L X (L - a) = edgeX L X a := by
    unfold edgeX
    have : (L - a = 0 ∨ L - a = L) ↔ (a = 0 ∨ a = L) := by omega
    simp only [this]
  simp only [e1, e2]

theorem bondE_rev' {a b : ℕ} (hb : b < L) : bondE L d X a (L - 1 - b) = bondE L d X a b := by
  unfold bondE
  have : min (L - 1 - b) (L - 1 - (L - 1 - b)) = min b (L - 1 - b) := by omega
  rw [this]

/-- inside, an extent is the smaller of `X` and a power of `d`, and at most `d` next to the border -/
theorem bondE_inner {a b : ℕ} (h0 : 0 < a) (h1 : a < L) :
    bondE L d X a b = if a = 1 ∨ a = L - 1 then min (min X (d ^ min b (L - 1 - b))) d else min X (d ^ min b (L - 1 - b)) := by
  unfold bondE edgeX
  rw [if_neg (by omega : ¬ (a = 0 ∨ a = L))]

theorem bondE_last (hd : 0 < d) (hL : 2 ≤ L) (b : ℕ) : bondE L d X L b = 1 := by
  unfold bondE edgeX
  rw [if_neg (by omega), if_pos (.inr rfl)]
  have := Nat.pow_pos (n := min b (L - 1 - b)) hd
  omega

/-- towards the border an extent drops by a factor `d` at most -/
theorem bondE_step {a b : ℕ} (hd : 0 < d) (h0 : 0 < a) (h1 : a < L) (h2 : bondE L d X a b ≤ d ^ 2) :
    bondE L d X a b ≤ d * bondE L d X (a + 1) b := by
  by_cases ha : a + 1 = L
  · rw [ha, bondE_last hd (by omega), mul_one, bondE_inner h0 h1, if_pos (by omega)]
    exact min_le_right _ _
  · rw [bondE_inner (a := a + 1) (by omega) (by omega)]
    have hb : bondE L d X a b ≤ min X (d ^ min b (L - 1 - b)) := by
      rw [bondE_inner h0 h1]
      split_ifs
      · exact min_le_left _ _
      · exact le_rfl
    have hdb : min X (d ^ min b (L - 1 - b)) ≤ d * min X (d ^ min b (L - 1 - b)) := Nat.le_mul_of_pos_left _ hd
    split_ifs
    · rcases le_total (min X (d ^ min b (L - 1 - b))) d with h | h
      · rw [min_eq_left h]
        exact hb.trans hdb
      · rw [min_eq_right h, ← sq]
        exact h2
    · exact hb.trans hdb

/-- it drops only next to the border -/
theorem bondE_mono {a b : ℕ} (h0 : 0 < a) (h1 : a + 2 < L) : bondE L d X a b ≤ bondE L d X (a + 1) b := by
  rw [bondE_inner h0 (by omega), bondE_inner (a := a + 1) (by omega) (by omega), if_neg (c := a + 1 = 1 ∨ a + 1 = L - 1) (by omega)]
  split_ifs
  · exact min_le_left _ _
  · exact le_rfl

/-- in the lines next to the border it does not drop before the border -/
theorem bondE_mono' {a b : ℕ} (hd : 0 < d) (h0 : 0 < a) (h1 : a + 1 < L) (hb : L ≤ b + 2) (hbL : b < L) : bondE L d X a b ≤ bondE L d X (a + 1) b := by
  have : d ^ min b (L - 1 - b) ≤ d := by
    calc d ^ min b (L - 1 - b) ≤ d ^ 1 := Nat.pow_le_pow_right hd (by omega)
      _ = d := pow_one d
  rw [bondE_inner h0 (by omega), bondE_inner (a := a + 1) (by omega) (by omega)]
  split_ifs <;> omega

/-- in the outermost lines it is 1 -/
theorem bondE_border {a b : ℕ} (hb : b + 1 = L) : bondE L d X a b ≤ 1 := by
  unfold bondE
  have : min b (L - 1 - b) = 0 := by omega
  rw [this, pow_zero]
  split_ifs <;> omega

/-- a site in a quadrant -/
theorem bondE_diag {a b : ℕ} (hd : 0 < d) (hX : 0 < X) (ha0 : 0 < a) (ha : a < L) (hb0 : 0 < b) (hb : b < L)
    (h2 : bondE L d X a b ≤ d ^ 2) (h2' : bondE L d X b a ≤ d ^ 2) :
    bondE L d X a b * bondE L d X b a ≤ d * (bondE L d X (a + 1) b * bondE L d X (b + 1) a) := by
  have s1 := bondE_step hd ha0 ha h2
  have s2 := bondE_step hd hb0 hb h2'
  by_cases h : bondE L d X a b ≤ bondE L d X (a + 1) b
  · calc _ ≤ bondE L d X (a + 1) b * (d * bondE L d X (b + 1) a) := Nat.mul_le_mul h s2
      _ = _ := by ring
  · by_cases h' : bondE L d X b a ≤ bondE L d X (b + 1) a
    · calc _ ≤ d * bondE L d X (a + 1) b * bondE L d X (b + 1) a := Nat.mul_le_mul s1 h'
        _ = _ := by ring
    · exfalso
      have e1 : L ≤ a + 2 := by
        by_contra hc
        exact h (bondE_mono ha0 (by omega))
      have e2 : L ≤ b + 1 := by
        by_contra hc
        exact h' (bondE_mono' hd hb0 (by omega) e1 ha)
      exact h ((bondE_border (by omega)).trans (bondE_pos hd hX _ _))

/-- the extents are at most `d²` for small grids and small bond dimensions -/
theorem bondE_le {a b : ℕ} (hd : 0 < d) (h0 : 0 < a) (h1 : a < L) (h : min b (L - 1 - b) ≤ 2 ∨ X ≤ d ^ 2 ∨ d = 1) : bondE L d X a b ≤ d ^ 2 := by
  have hm : min X (d ^ min b (L - 1 - b)) ≤ d ^ 2 := by
    rcases h with h | h | rfl
    · exact (min_le_right _ _).trans (Nat.pow_le_pow_right hd h)
    · exact (min_le_left _ _).trans h
    · simp
  rw [bondE_inner h0 h1]
  split_ifs
  · exact (min_le_left _ _).trans hm
  · exact hm

/-- the condition at a site of the square grid -/
theorem fits_square_iff (hL : 2 ≤ L) (cj ci j i : Fin L) :
    Fits (fun _ _ => d) (vIso d fun (j : Fin (L + 1)) (_ : Fin L) => edgeX L X j) (hIso d fun (_ : Fin L) (i : Fin (L + 1)) => edgeX L X i) cj ci j i ↔
      (if j ≤ cj then 1 else bondE L d X j i) * (if ci ≤ i then 1 else bondE L d X (i + 1) j) * (if cj ≤ j then 1 else bondE L d X (j + 1) i) *
        (if i ≤ ci then 1 else bondE L d X i j) ≤
      d * (if j ≤ cj then bondE L d X j i else 1) * (if ci ≤ i then bondE L d X (i + 1) j else 1) * (if cj ≤ j then bondE L d X (j + 1) i else 1) *
        (if i ≤ ci then bondE L d X i j else 1) := by
  unfold Fits outSize inSize
  simp only [vIso_square hL, hIso_square hL, Fin.val_castSucc, Fin.val_succ]

/-- a site off the row and the column of the centre -/
theorem fits_diag (hL : 2 ≤ L) (hd : 0 < d) (hX : 0 < X) {cj ci j i : Fin L} (hj : j ≠ cj) (hi : i ≠ ci)
    (h : min j.1 (L - 1 - j.1) ≤ 2 ∧ min i.1 (L - 1 - i.1) ≤ 2 ∨ X ≤ d ^ 2 ∨ d = 1) :
    Fits (fun _ _ => d) (vIso d fun (j : Fin (L + 1)) (_ : Fin L) => edgeX L X j) (hIso d fun (_ : Fin L) (i : Fin (L + 1)) => edgeX L X i) cj ci j i := by
  rw [fits_square_iff hL]
  have hjL := j.2
  have hiL := i.2
  have hjc := cj.2
  have hic := ci.2
  have h1 : min j.1 (L - 1 - j.1) ≤ 2 ∨ X ≤ d ^ 2 ∨ d = 1 := h.imp_left And.left
  have h2 : min i.1 (L - 1 - i.1) ≤ 2 ∨ X ≤ d ^ 2 ∨ d = 1 := h.imp_left And.right
  have h1' : min (L - 1 - j.1) (L - 1 - (L - 1 - j.1)) ≤ 2 ∨ X ≤ d ^ 2 ∨ d = 1 := h1.imp_left fun h => by omega
  have h2' : min (L - 1 - i.1) (L - 1 - (L - 1 - i.1)) ≤ 2 ∨ X ≤ d ^ 2 ∨ d = 1 := h2.imp_left fun h => by omega
  have ej1 : ∀ x, bondE L d X (L - 1 - j.1) x = bondE L d X (j.1 + 1) x := fun x => by
    rw [← bondE_rev hL (a := j.1 + 1) (by omega)]
    congr 1
    omega
  have ej2 : ∀ x, bondE L d X (L - 1 - j.1 + 1) x = bondE L d X j.1 x := fun x => by
    rw [← bondE_rev hL (a := j.1) (by omega)]
    congr 1
    omega
  have ei1 : ∀ x, bondE L d X (L - 1 - i.1) x = bondE L d X (i.1 + 1) x := fun x => by
    rw [← bondE_rev hL (a := i.1 + 1) (by omega)]
    congr 1
    omega
  have ei2 : ∀ x, bondE L d X (L - 1 - i.1 + 1) x = bondE L d X i.1 x := fun x => by
    rw [← bondE_rev hL (a := i.1) (by omega)]
    congr 1
    omega
  have ej3 : ∀ x, bondE L d X x (L - 1 - j.1) = bondE L d X x j.1 := fun x => bondE_rev' hjL
  have ei3 : ∀ x, bondE L d X x (L - 1 - i.1) = bondE L d X x i.1 := fun x => bondE_rev' hiL
  rcases lt_or_gt_of_ne hj with kj | kj <;> rcases lt_or_gt_of_ne hi with ki | ki
  · have aj : j ≤ cj := kj.le
    have bj : ¬ cj ≤ j := not_le.2 kj
    have ai : i ≤ ci := ki.le
    have bi : ¬ ci ≤ i := not_le.2 ki
    have kj' : j.1 < cj.1 := kj
    have ki' : i.1 < ci.1 := ki
    have := bondE_diag hd hX (a := L - 1 - j.1) (b := L - 1 - i.1) (by omega) (by omega) (by omega) (by omega)
      (bondE_le hd (by omega) (by omega) h2') (bondE_le hd (by omega) (by omega) h1')
    rw [ei3, ej3, ei3, ej3, ej1, ei1, ej2, ei2] at this
    simp only [aj, bj, ai, bi, if_true, if_false, one_mul, mul_one]
    linarith
  · have aj : j ≤ cj := kj.le
    have bj : ¬ cj ≤ j := not_le.2 kj
    have ai : ¬ i ≤ ci := not_le.2 ki
    have bi : ci ≤ i := ki.le
    have kj' : j.1 < cj.1 := kj
    have ki' : ci.1 < i.1 := ki
    have := bondE_diag hd hX (a := L - 1 - j.1) (b := i.1) (by omega) (by omega) (by omega) (by omega)
      (bondE_le hd (by omega) (by omega) h2) (bondE_le hd (by omega) (by omega) h1')
    rw [ej3, ej3, ej1, ej2] at this
    simp only [aj, bj, ai, bi, if_true, if_false, one_mul, mul_one]
    linarith
  · have aj : ¬ j ≤ cj := not_le.2 kj
    have bj : cj ≤ j := kj.le
    have ai : i ≤ ci := ki.le
    have bi : ¬ ci ≤ i := not_le.2 ki
    have kj' : cj.1 < j.1 := kj
    have ki' : i.1 < ci.1 := ki
    have := bondE_diag hd hX (a := j.1) (b := L - 1 - i.1) (by omega) (by omega) (by omega) (by omega)
      (bondE_le hd (by omega) (by omega) h2') (bondE_le hd (by omega) (by omega) h1)
    rw [ei3, ei3, ei1, ei2] at this
    simp only [aj, bj, ai, bi, if_true, if_false, one_mul, mul_one]
    linarith
  · have aj : ¬ j ≤ cj := not_le.2 kj
    have bj : cj ≤ j := kj.le
    have ai : ¬ i ≤ ci := not_le.2 ki
    have bi : ci ≤ i := ki.le
    have kj' : cj.1 < j.1 := kj
    have ki' : ci.1 < i.1 := ki
    have := bondE_diag hd hX (a := j.1) (b := i.1) (by omega) (by omega) (by omega) (by omega)
      (bondE_le hd (by omega) (by omega) h2) (bondE_le hd (by omega) (by omega) h1)
    simp only [aj, bj, ai, bi, if_true, if_false, one_mul, mul_one]
    linarith

/-- a site in the row or the column of the centre, given the inequality for the leg towards the centre: `a` is the position along the line
(counted towards the border), `b` the line -/
theorem fits_line (hL : 2 ≤ L) {cj ci j i : Fin L} (hne : (j, i) ≠ (cj, ci)) (hl : j = cj ∨ i = ci)
    (h : ∀ a b, 0 < a → a < L → (i = ci ∧ b = i.1 ∧ (a = j.1 ∨ a = L - 1 - j.1) ∨ j = cj ∧ b = j.1 ∧ (a = i.1 ∨ a = L - 1 - i.1)) →
      bondE L d X a b ≤ d * bondE L d X (a + 1) b * (bondE L d X b a * bondE L d X (b + 1) a)) :
    Fits (fun _ _ => d) (vIso d fun (j : Fin (L + 1)) (_ : Fin L) => edgeX L X j) (hIso d fun (_ : Fin L) (i : Fin (L + 1)) => edgeX L X i) cj ci j i := by
  rw [fits_square_iff hL]
  have hjL := j.2
  have hiL := i.2
  have hjc := cj.2
  have hic := ci.2
  have e1 : ∀ (k : Fin L) x, bondE L d X (L - 1 - k.1) x = bondE L d X (k.1 + 1) x := fun k x => by
    rw [← bondE_rev hL (a := k.1 + 1) (by omega)]
    congr 1
    omega
  have e2 : ∀ (k : Fin L) x, bondE L d X (L - 1 - k.1 + 1) x = bondE L d X k.1 x := fun k x => by
    rw [← bondE_rev hL (a := k.1) (by omega)]
    congr 1
    omega
  have e3 : ∀ (k : Fin L) x, bondE L d X x (L - 1 - k.1) = bondE L d X x k.1 := fun k x => bondE_rev' k.2
  rcases hl with rfl | rfl
  · have hi : i ≠ ci := fun hc => hne (by rw [hc])
    rcases lt_or_gt_of_ne hi with ki | ki
    · have bi : ¬ ci ≤ i := not_le.2 ki
      have ai : i ≤ ci := ki.le
      have ki' : i.1 < ci.1 := ki
      have := h (L - 1 - i.1) j.1 (by omega) (by omega) (.inr ⟨rfl, rfl, .inr rfl⟩)
      rw [e1, e2, e3, e3] at this
      simp only [le_refl, ai, bi, if_true, if_false, one_mul, mul_one]
      linarith
    · have bi : ci ≤ i := ki.le
      have ai : ¬ i ≤ ci := not_le.2 ki
      have ki' : ci.1 < i.1 := ki
      have := h i.1 j.1 (by omega) (by omega) (.inr ⟨rfl, rfl, .inl rfl⟩)
      simp only [le_refl, ai, bi, if_true, if_false, one_mul, mul_one]
      linarith
  · have hj : j ≠ cj := fun hc => hne (by rw [hc])
    rcases lt_or_gt_of_ne hj with kj | kj
    · have bj : ¬ cj ≤ j := not_le.2 kj
      have aj : j ≤ cj := kj.le
      have kj' : j.1 < cj.1 := kj
      have := h (L - 1 - j.1) i.1 (by omega) (by omega) (.inl ⟨rfl, rfl, .inr rfl⟩)
      rw [e1, e2, e3, e3] at this
      simp only [le_refl, aj, bj, if_true, if_false, one_mul, mul_one]
      linarith
    · have bj : cj ≤ j := kj.le
      have aj : ¬ j ≤ cj := not_le.2 kj
      have kj' : cj.1 < j.1 := kj
      have := h j.1 i.1 (by omega) (by omega) (.inl ⟨rfl, rfl, .inl rfl⟩)
      simp only [le_refl, aj, bj, if_true, if_false, one_mul, mul_one]
      linarith

/-- the sites at which the tensors are large enough: all of them when the grid or the bond dimension is small -/
theorem fits_small (hL : 2 ≤ L) (hd : 0 < d) (hX : 0 < X) {cj ci : Fin L} (h : L ≤ 6 ∨ X ≤ d ^ 2 ∨ d = 1 ∨ L = 7 ∧ cj.1 = 3 ∧ ci.1 = 3) (j i : Fin L) (hne : (j, i) ≠ (cj, ci)) :
    Fits (fun _ _ => d) (vIso d fun (j : Fin (L + 1)) (_ : Fin L) => edgeX L X j) (hIso d fun (_ : Fin L) (i : Fin (L + 1)) => edgeX L X i) cj ci j i := by
  have hjL := j.2
  have hiL := i.2
  by_cases hs : L ≤ 6 ∨ X ≤ d ^ 2 ∨ d = 1
  · have hb : ∀ b, b < L → min b (L - 1 - b) ≤ 2 ∨ X ≤ d ^ 2 ∨ d = 1 := fun b hb => hs.imp_left fun h => by omega
    by_cases hl : j = cj ∨ i = ci
    · refine fits_line hL hne hl fun a b h0 h1 hc => ?_
      have hbL : b < L := by omega
      refine (bondE_step hd h0 h1 (bondE_le hd h0 h1 (hb b hbL))).trans (Nat.le_mul_of_pos_right _ ?_)
      exact Nat.mul_pos (bondE_pos hd hX _ _) (bondE_pos hd hX _ _)
    · push Not at hl
      exact fits_diag hL hd hX hl.1 hl.2 (hs.imp_left fun h => by omega)
  · have hc : L = 7 ∧ cj.1 = 3 ∧ ci.1 = 3 := by
      rcases h with h | h | h | h
      · exact absurd (.inl h) hs
      · exact absurd (.inr (.inl h)) hs
      · exact absurd (.inr (.inr h)) hs
      · exact h
    obtain ⟨rfl, hcj, hci⟩ := hc
    by_cases hl : j = cj ∨ i = ci
    · refine fits_line hL hne hl fun a b h0 h1 hc => ?_
      have hb3 : b = 3 := by
        rcases hc with ⟨rfl, hb, _⟩ | ⟨rfl, hb, _⟩ <;> omega
      subst hb3
      have hpos := Nat.mul_pos (bondE_pos (L := 7) hd hX 3 a) (bondE_pos (L := 7) hd hX (3 + 1) a)
      by_cases ha4 : a ≤ 4
      · exact ((bondE_mono h0 (by omega)).trans (Nat.le_mul_of_pos_left _ hd)).trans (Nat.le_mul_of_pos_right _ hpos)
      · by_cases ha5 : a = 5
        · subst ha5
          rw [bondE_inner (by omega) (by omega), bondE_inner (by omega) (by omega), bondE_inner (by omega) (by omega), bondE_inner (by omega) (by omega)]
          norm_num
          rcases le_total X d with hXd | hXd
          · have h3 : d ≤ d ^ 3 := Nat.le_self_pow (by norm_num) d
            rw [min_eq_right h3, min_eq_left hXd]
            left
            exact (Nat.le_mul_of_pos_left _ hd).trans (Nat.le_mul_of_pos_right _ (Nat.mul_pos hX hX))
          · have h3 : d ≤ d ^ 3 := Nat.le_self_pow (by norm_num) d
            right
            rw [min_eq_right h3, min_eq_right hXd]
            calc d ^ 3 ≤ d ^ 3 * d := Nat.le_mul_of_pos_right _ hd
              _ = d * d * (d * d) := by ring
        · obtain rfl : a = 6 := by omega
          refine le_trans ?_ (Nat.le_mul_of_pos_right _ hpos)
          rw [bondE_last hd (by omega), mul_one, bondE_inner (by omega) (by omega), if_pos (by omega)]
          exact min_le_right _ _
    · push Not at hl
      have h1 : j.1 ≠ 3 := fun h => hl.1 (Fin.ext (by omega))
      have h2 : i.1 ≠ 3 := fun h => hl.2 (Fin.ext (by omega))
      exact fits_diag hL hd hX hl.1 hl.2 (.inl (by omega))

/-- a site in row `j` whose tensor is too small -/
theorem unfit_row (hL : 7 ≤ L) (hd : 2 ≤ d) (hX : d ^ 2 < X) {cj ci j : Fin L} (hj : j ≠ cj) (h3 : 3 ≤ j.1) (h4 : j.1 + 4 ≤ L) :
    ∃ i, ¬ Fits (fun _ _ => d) (vIso d fun (j : Fin (L + 1)) (_ : Fin L) => edgeX L X j) (hIso d fun (_ : Fin L) (i : Fin (L + 1)) => edgeX L X i) cj ci j i := by
  have hdX : d ≤ X := (Nat.le_self_pow (by norm_num) d).trans hX.le
  have hp3 : d ^ 3 ≤ d ^ min j.1 (L - 1 - j.1) := Nat.pow_le_pow_right (by omega) (by omega)
  have hp1 : d ≤ d ^ min j.1 (L - 1 - j.1) := (Nat.le_self_pow (by norm_num) d).trans hp3
  have hp2 : d ^ 2 < d ^ min j.1 (L - 1 - j.1) := (Nat.pow_lt_pow_right (by omega) (by norm_num)).trans_le hp3
  have hin : ∀ a, 2 ≤ a → a + 2 ≤ L → d ^ 2 < bondE L d X a j.1 := by
    intro a h0 h1
    rw [bondE_inner (by omega) (by omega), if_neg (by omega)]
    exact lt_min hX hp2
  have hout : ∀ a, a = 1 ∨ a = L - 1 → bondE L d X a j.1 = d := by
    intro a ha
    rw [bondE_inner (by omega) (by omega), if_pos ha]
    exact min_eq_right (le_min hdX hp1)
  have hv : ∀ a b, b = 1 ∨ b = L - 2 → 3 ≤ a → a + 3 ≤ L → bondE L d X a b = d := by
    intro a b hb h0 h1
    have : min b (L - 1 - b) = 1 := by omega
    rw [bondE_inner (by omega) (by omega), if_neg (by omega), this, pow_one]
    exact min_eq_right hdX
  have key : ∀ t, d ^ 2 < t → ¬ (t * d ≤ d * (d * d)) := by
    intro t ht
    have : d ^ 2 * d < t * d := Nat.mul_lt_mul_of_pos_right ht (by omega)
    have e : d ^ 2 * d = d * (d * d) := by ring
    omega
  by_cases hc : 1 < ci.1
  · refine ⟨⟨1, by omega⟩, ?_⟩
    rw [fits_square_iff (by omega)]
    have bi : ¬ ci ≤ ⟨1, by omega⟩ := not_le.2 hc
    have ai : (⟨1, by omega⟩ : Fin L) ≤ ci := le_of_lt hc
    have hr := hin 2 le_rfl (by omega)
    rcases lt_or_gt_of_ne hj with kj | kj
    · have aj : j ≤ cj := kj.le
      have bj : ¬ cj ≤ j := not_le.2 kj
      simp only [aj, bj, ai, bi, if_true, if_false, one_mul, mul_one, Nat.reduceAdd]
      rw [hv _ _ (.inl rfl) (by omega) (by omega), hv _ _ (.inl rfl) (by omega) (by omega), hout 1 (.inl rfl)]
      intro h
      exact key _ hr (by linarith)
    · have aj : ¬ j ≤ cj := not_le.2 kj
      have bj : cj ≤ j := kj.le
      simp only [aj, bj, ai, bi, if_true, if_false, one_mul, mul_one, Nat.reduceAdd]
      rw [hv _ _ (.inl rfl) (by omega) (by omega), hv _ _ (.inl rfl) (by omega) (by omega), hout 1 (.inl rfl)]
      intro h
      exact key _ hr (by linarith)
  · refine ⟨⟨L - 2, by omega⟩, ?_⟩
    rw [fits_square_iff (by omega)]
    have hlt : ci.1 < L - 2 := by omega
    have bi : ci ≤ ⟨L - 2, by omega⟩ := le_of_lt hlt
    have ai : ¬ (⟨L - 2, by omega⟩ : Fin L) ≤ ci := not_le.2 hlt
    have hr := hin (L - 2) (by omega) (by omega)
    have e : L - 2 + 1 = L - 1 := by omega
    rcases lt_or_gt_of_ne hj with kj | kj
    · have aj : j ≤ cj := kj.le
      have bj : ¬ cj ≤ j := not_le.2 kj
      simp only [aj, bj, ai, bi, if_true, if_false, one_mul, mul_one, e]
      rw [hv _ _ (.inr rfl) (by omega) (by omega), hv _ _ (.inr rfl) (by omega) (by omega), hout (L - 1) (.inr rfl)]
      intro h
      exact key _ hr (by linarith)
    · have aj : ¬ j ≤ cj := not_le.2 kj
      have bj : cj ≤ j := kj.le
      simp only [aj, bj, ai, bi, if_true, if_false, one_mul, mul_one, e]
      rw [hv _ _ (.inr rfl) (by omega) (by omega), hv _ _ (.inr rfl) (by omega) (by omega), hout (L - 1) (.inr rfl)]
      intro h
      exact key _ hr (by linarith)

/-- the condition is the same for the transposed grid -/
theorem fits_square_T (hL : 2 ≤ L) (cj ci j i : Fin L) :
    Fits (fun _ _ => d) (vIso d fun (j : Fin (L + 1)) (_ : Fin L) => edgeX L X j) (hIso d fun (_ : Fin L) (i : Fin (L + 1)) => edgeX L X i) cj ci j i ↔
    Fits (fun _ _ => d) (vIso d fun (j : Fin (L + 1)) (_ : Fin L) => edgeX L X j) (hIso d fun (_ : Fin L) (i : Fin (L + 1)) => edgeX L X i) ci cj i j := by
  rw [fits_square_iff hL, fits_square_iff hL]
  have e : ∀ {a b a' b' : ℕ}, a = a' → b = b' → (a ≤ b ↔ a' ≤ b') := fun h h' => by rw [h, h']
  refine e ?_ ?_ <;> ring

/-- otherwise there is a site whose tensor is too small -/
theorem unfit_large (hd : 2 ≤ d) (hX : d ^ 2 < X) {cj ci : Fin L} (hL : 7 ≤ L) (hc : ¬ (L = 7 ∧ cj.1 = 3 ∧ ci.1 = 3)) :
    ∃ j i, (j, i) ≠ (cj, ci) ∧
      ¬ Fits (fun _ _ => d) (vIso d fun (j : Fin (L + 1)) (_ : Fin L) => edgeX L X j) (hIso d fun (_ : Fin L) (i : Fin (L + 1)) => edgeX L X i) cj ci j i := by
  by_cases h : L = 7 ∧ cj.1 = 3
  · have hi : (⟨3, by omega⟩ : Fin L) ≠ ci := by
      intro h'
      exact hc ⟨h.1, h.2, by rw [← h']⟩
    obtain ⟨j, hj⟩ := unfit_row (ci := cj) hL hd hX hi le_rfl hL
    exact ⟨j, ⟨3, by omega⟩, fun h' => hi (Prod.ext_iff.1 h').2, fun hf => hj ((fits_square_T (by omega) _ _ _ _).1 hf)⟩
  · obtain ⟨j, h1, h2, h3⟩ : ∃ j : Fin L, j ≠ cj ∧ 3 ≤ j.1 ∧ j.1 + 4 ≤ L := by
      by_cases h3 : cj.1 = 3
      · refine ⟨⟨4, by omega⟩, fun h' => ?_, by simp, by simp; omega⟩
        rw [← h'] at h3
        simp at h3
      · exact ⟨⟨3, by omega⟩, fun h' => h3 (by rw [← h']), by simp, by simp; omega⟩
    obtain ⟨i, hi⟩ := unfit_row (ci := ci) hL hd hX h1 h2 h3
    exact ⟨j, i, fun h' => h1 (Prod.ext_iff.1 h').1, hi⟩

end

end Xmps.FPEPS
