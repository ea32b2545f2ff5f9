import Mathlib.Tactic.IntervalCases
import Verif.Model.PepsFix

/-!
# C135: `fPEPS.fix_neighbours`

Specification: two neighbouring tensors fit if the legs that face each other have the same dimension; a cut keeps the entries.
-/

namespace Xmps.Spec

/-- the legs of neighbouring tensors of a network of `Lx` columns and `Ly` rows have the same dimension -/
def Fits (Lx Ly : ℕ) (g : ℕ → ℕ → ND ℂ) : Prop :=
  (∀ a b, a + 1 < Ly → b < Lx → (g a b).dim 3 = (g (a + 1) b).dim 1) ∧ ∀ a b, a < Ly → b + 1 < Lx → (g a b).dim 2 = (g a (b + 1)).dim 4

/-- the legs that the site in row `j` and column `i` shares with its neighbours, on either side -/
def Shared (Lx Ly i j a b m : ℕ) : Prop :=
  (a = j ∧ b = i ∧ (m = 1 ∧ 1 ≤ j ∨ m = 2 ∧ i + 1 < Lx ∨ m = 3 ∧ j + 1 < Ly ∨ m = 4 ∧ 1 ≤ i)) ∨
    (a + 1 = j ∧ b = i ∧ m = 3) ∨ (a = j ∧ b = i + 1 ∧ m = 4 ∧ i + 1 < Lx) ∨ (a = j + 1 ∧ b = i ∧ m = 1 ∧ j + 1 < Ly) ∨ (a = j ∧ b + 1 = i ∧ m = 2)

end Xmps.Spec

namespace Xmps.FPEPS

open Spec

variable {Lx Ly rows cols : ℕ} {g : ℕ → ℕ → ND ℂ} {i j : ℕ}

theorem cut_dim {A : ND ℂ} {k : ℕ} (D m : ℕ) (hk : k < A.shape.length) : (cut A k D).dim m = if m = k then min (A.dim k) D else A.dim m := by
  unfold cut ND.dim
  simp only [List.getD_eq_getElem?_getD, List.getElem?_modify]
  by_cases h : m = k
  · subst h
    simp [hk]
  · simp [h, Ne.symm h]

theorem cut_length (A : ND ℂ) (k D : ℕ) : (cut A k D).shape.length = A.shape.length := by simp [cut]

/-- one bond -/
theorem meet_ok {k j' i' k' own : ℕ} (c : Prop) [Decidable c] (h5 : ∀ a b, (g a b).shape.length = 5) (hk : k < 5) (hk' : k' < 5) (hb : c → j' < rows ∧ i' < cols) (hn : c → ¬ (j' = j ∧ i' = i))
    (ho : own = (g j i).dim k) : ∃ r, (if c then meet rows cols g j i k j' i' k' own else .ok g) = .ok r ∧ (∀ a b, (r a b).val = (g a b).val) ∧
      (∀ a b, (r a b).shape.length = 5) ∧
      ∀ a b m, (r a b).dim m = if c ∧ (a = j ∧ b = i ∧ m = k ∨ a = j' ∧ b = i' ∧ m = k') then min ((g j i).dim k) ((g j' i').dim k') else (g a b).dim m := by
  by_cases hc : c
  swap
  · exact ⟨g, by rw [if_neg hc], fun _ _ => rfl, h5, fun a b m => by simp [hc]⟩
  have hn := hn hc
  rw [if_pos hc]
  set D := min own ((g j' i').dim k') with hD
  set r := put (put g j' i' (cut (g j' i') k' D)) j i (cut (put g j' i' (cut (g j' i') k' D) j i) k D) with hr
  have hr1 : ∀ a b, r a b = if a = j ∧ b = i then cut (g j i) k D else if a = j' ∧ b = i' then cut (g j' i') k' D else g a b := by
    intro a b
    rw [hr]
    unfold put
    by_cases h : a = j ∧ b = i
    · rw [if_pos h, if_pos h, if_neg (fun h' => hn ⟨h'.1.symm, h'.2.symm⟩)]
    · rw [if_neg h, if_neg h]
  have hdim : ∀ a b m, (r a b).dim m =
      if c ∧ (a = j ∧ b = i ∧ m = k ∨ a = j' ∧ b = i' ∧ m = k') then min ((g j i).dim k) ((g j' i').dim k') else (g a b).dim m := by
    intro a b m
    rw [hr1]
    by_cases h : a = j ∧ b = i
    · obtain ⟨rfl, rfl⟩ := h
      rw [if_pos ⟨rfl, rfl⟩, cut_dim _ _ (by rw [h5]; exact hk), hD, ho]
      by_cases hm : m = k
      · subst hm
        simp [hc]
      · rw [if_neg hm, if_neg]
        rintro ⟨-, h | h⟩
        · exact hm h.2.2
        · exact hn ⟨h.1.symm, h.2.1.symm⟩
    · rw [if_neg h]
      by_cases h' : a = j' ∧ b = i'
      · obtain ⟨rfl, rfl⟩ := h'
        rw [if_pos ⟨rfl, rfl⟩, cut_dim _ _ (by rw [h5]; exact hk'), hD, ho]
        by_cases hm : m = k'
        · subst hm
          rw [if_pos rfl, if_pos ⟨hc, Or.inr ⟨rfl, rfl, rfl⟩⟩]
          omega
        · rw [if_neg hm, if_neg]
          rintro ⟨-, h' | h'⟩
          · exact h ⟨h'.1, h'.2.1⟩
          · exact hm h'.2.2
      · rw [if_neg h', if_neg]
        rintro ⟨-, h'' | h''⟩
        · exact h ⟨h''.1, h''.2.1⟩
        · exact h' ⟨h''.1, h''.2.1⟩
  refine ⟨r, ?_, ?_, ?_, hdim⟩
  · unfold meet
    rw [decide_eq_true (hb hc), guardPy_true, ok_bind, show ((g j' i').shape.length == 5) = true by rw [h5]; rfl, guardPy_true, ok_bind]
    show (guardPy ((r j' i').dim k' == (r j i).dim k) .assertionError >>= fun _ => Except.ok r) = _
    rw [hdim, hdim, if_pos ⟨hc, Or.inr ⟨rfl, rfl, rfl⟩⟩, if_pos ⟨hc, Or.inl ⟨rfl, rfl, rfl⟩⟩, beq_self_eq_true, guardPy_true, ok_bind]
  · intro a b
    rw [hr1]
    split_ifs with h h'
    · obtain ⟨rfl, rfl⟩ := h
      rfl
    · obtain ⟨rfl, rfl⟩ := h'
      rfl
    · rfl
  · intro a b
    rw [hr1]
    split_ifs
    · rw [cut_length, h5]
    · rw [cut_length, h5]
    · rw [h5]

/-- **C135**: if `Lx` and `Ly` are the numbers of columns and rows, `fix_neighbours` never raises, keeps the entries, and gives each of the bonds of the site the smaller of the two dimensions that met there; no
other leg of any tensor changes. -/
theorem fixNeighbours_spec (h5 : ∀ a b, (g a b).shape.length = 5) (hi : i < Lx) (hj : j < Ly) : ∃ r, fixNeighbours Ly Lx Lx Ly g i j = .ok r ∧
    (∀ a b, (r a b).val = (g a b).val ∧ (r a b).shape.length = 5) ∧
    (∀ a b m, ¬ Shared Lx Ly i j a b m → (r a b).dim m = (g a b).dim m) ∧
    (1 ≤ j → (r j i).dim 1 = min ((g j i).dim 1) ((g (j - 1) i).dim 3) ∧ (r (j - 1) i).dim 3 = min ((g j i).dim 1) ((g (j - 1) i).dim 3)) ∧
    (i + 1 < Lx → (r j i).dim 2 = min ((g j i).dim 2) ((g j (i + 1)).dim 4) ∧ (r j (i + 1)).dim 4 = min ((g j i).dim 2) ((g j (i + 1)).dim 4)) ∧
    (j + 1 < Ly → (r j i).dim 3 = min ((g j i).dim 3) ((g (j + 1) i).dim 1) ∧ (r (j + 1) i).dim 1 = min ((g j i).dim 3) ((g (j + 1) i).dim 1)) ∧
    (1 ≤ i → (r j i).dim 4 = min ((g j i).dim 4) ((g j (i - 1)).dim 2) ∧ (r j (i - 1)).dim 2 = min ((g j i).dim 4) ((g j (i - 1)).dim 2)) := by
  obtain ⟨r1, e1, v1, l1, d1⟩ := meet_ok (rows := Ly) (cols := Lx) (g := g) (j := j) (i := i) (k := 1) (j' := j - 1) (i' := i) (k' := 3) (1 ≤ j) h5 (by norm_num) (by norm_num)
    (by omega) (by omega) rfl
  obtain ⟨r2, e2, v2, l2, d2⟩ := meet_ok (rows := Ly) (cols := Lx) (g := r1) (j := j) (i := i) (k := 2) (j' := j) (i' := i + 1) (k' := 4) (own := (g j i).dim 2) (i + 1 < Lx) l1
    (by norm_num) (by norm_num) (by omega) (by omega) (by rw [d1, if_neg (by omega)])
  obtain ⟨r3, e3, v3, l3, d3⟩ := meet_ok (rows := Ly) (cols := Lx) (g := r2) (j := j) (i := i) (k := 3) (j' := j + 1) (i' := i) (k' := 1) (own := (g j i).dim 3) (j + 1 < Ly) l2
    (by norm_num) (by norm_num) (by omega) (by omega) (by rw [d2, if_neg (by omega), d1, if_neg (by omega)])
  obtain ⟨r4, e4, v4, l4, d4⟩ := meet_ok (rows := Ly) (cols := Lx) (g := r3) (j := j) (i := i) (k := 4) (j' := j) (i' := i - 1) (k' := 2) (own := (g j i).dim 4) (1 ≤ i) l3
    (by norm_num) (by norm_num) (by omega) (by omega) (by rw [d3, if_neg (by omega), d2, if_neg (by omega), d1, if_neg (by omega)])
  have f2 : (r1 j i).dim 2 = (g j i).dim 2 ∧ (r1 j (i + 1)).dim 4 = (g j (i + 1)).dim 4 :=
    ⟨by rw [d1, if_neg (by omega)], by rw [d1, if_neg (by omega)]⟩
  have f3 : (r2 j i).dim 3 = (g j i).dim 3 ∧ (r2 (j + 1) i).dim 1 = (g (j + 1) i).dim 1 :=
    ⟨by rw [d2, if_neg (by omega), d1, if_neg (by omega)], by rw [d2, if_neg (by omega), d1, if_neg (by omega)]⟩
  have f4 : (r3 j i).dim 4 = (g j i).dim 4 ∧ (r3 j (i - 1)).dim 2 = if 1 ≤ i then (g j (i - 1)).dim 2 else (r3 j (i - 1)).dim 2 := by
    refine ⟨by rw [d3, if_neg (by omega), d2, if_neg (by omega), d1, if_neg (by omega)], ?_⟩
    split_ifs with h
    · rw [d3, if_neg (by omega), d2, if_neg (by omega), d1, if_neg (by omega)]
    · rfl
  refine ⟨r4, ?_, fun a b => ⟨by rw [v4, v3, v2, v1], l4 a b⟩, ?_, ?_, ?_, ?_, ?_⟩
  · unfold fixNeighbours
    rw [decide_eq_true ⟨hj, hi⟩, guardPy_true, ok_bind, show ((g j i).shape.length == 5) = true by rw [h5]; rfl, guardPy_true, ok_bind]
    dsimp only
    rw [e1, ok_bind, e2, ok_bind, e3, ok_bind, e4]
  · intro a b m h
    unfold Shared at h
    rw [d4, if_neg (by omega), d3, if_neg (by omega), d2, if_neg (by omega), d1, if_neg (by omega)]
  · intro h
    constructor
    · rw [d4, if_neg (by omega), d3, if_neg (by omega), d2, if_neg (by omega), d1, if_pos (by omega)]
    · rw [d4, if_neg (by omega), d3, if_neg (by omega), d2, if_neg (by omega), d1, if_pos (by omega)]
  · intro h
    constructor
    · rw [d4, if_neg (by omega), d3, if_neg (by omega), d2, if_pos (by omega), f2.1, f2.2]
    · rw [d4, if_neg (by omega), d3, if_neg (by omega), d2, if_pos (by omega), f2.1, f2.2]
  · intro h
    constructor
    · rw [d4, if_neg (by omega), d3, if_pos (by omega), f3.1, f3.2]
    · rw [d4, if_neg (by omega), d3, if_pos (by omega), f3.1, f3.2]
  · intro h
    have f5 := f4.2
    rw [if_pos h] at f5
    constructor
    · rw [d4, if_pos (by omega), f4.1, f5]
    · rw [d4, if_pos (by omega), f4.1, f5]

theorem ext_dims {A B : ND ℂ} (hA : A.shape.length = 5) (hB : B.shape.length = 5) (hv : A.val = B.val) (hd : ∀ m, A.dim m = B.dim m) : A = B := by
  have : A.shape = B.shape := by
    apply List.ext_getElem (by rw [hA, hB])
    intro m h1 h2
    have := hd m
    unfold ND.dim at this
    rwa [List.getD_eq_getElem _ _ h1, List.getD_eq_getElem _ _ h2] at this
  cases A
  cases B
  simp_all

/-- **C135**: if the bonds of the site fit already, nothing changes. -/
theorem fixNeighbours_same (h5 : ∀ a b, (g a b).shape.length = 5) (hi : i < Lx) (hj : j < Ly) (hf : Fits Lx Ly g) : fixNeighbours Ly Lx Lx Ly g i j = .ok g := by
  obtain ⟨r, e, hv, hu, h1, h2, h3, h4⟩ := fixNeighbours_spec h5 hi hj
  rw [e]
  congr 1
  funext a b
  refine ext_dims (hv a b).2 (h5 a b) (hv a b).1 fun m => ?_
  by_cases hs : Shared Lx Ly i j a b m
  swap
  · exact hu a b m hs
  have q1 : 1 ≤ j → (g (j - 1) i).dim 3 = (g j i).dim 1 := fun h => by
    have := hf.1 (j - 1) i (by omega) hi
    rwa [show j - 1 + 1 = j by omega] at this
  have q4 : 1 ≤ i → (g j (i - 1)).dim 2 = (g j i).dim 4 := fun h => by
    have := hf.2 j (i - 1) hj (by omega)
    rwa [show i - 1 + 1 = i by omega] at this
  rcases hs with ⟨rfl, rfl, ⟨rfl, h⟩ | ⟨rfl, h⟩ | ⟨rfl, h⟩ | ⟨rfl, h⟩⟩ | ⟨rfl, rfl, rfl⟩ | ⟨rfl, rfl, rfl, h⟩ | ⟨rfl, rfl, rfl, h⟩ | ⟨rfl, rfl, rfl⟩
  · rw [(h1 h).1, q1 h, min_self]
  · rw [(h2 h).1, hf.2 _ _ hj h, min_self]
  · rw [(h3 h).1, hf.1 _ _ h hi, min_self]
  · rw [(h4 h).1, q4 h, min_self]
  · have := (h1 (by omega)).2
    rw [Nat.add_sub_cancel] at this
    rw [this, ← hf.1 _ _ hj hi, min_self]
  · rw [(h2 h).2, hf.2 _ _ hj h, min_self]
  · rw [(h3 h).2, hf.1 _ _ h hi, min_self]
  · have := (h4 (by omega)).2
    rw [Nat.add_sub_cancel] at this
    rw [this, ← hf.2 _ _ hj hi, min_self]

/-- **C135**: if only the bonds of the site do not fit, for instance after its tensor has been replaced, the network fits afterwards. -/
theorem fixNeighbours_fits (h5 : ∀ a b, (g a b).shape.length = 5) (hi : i < Lx) (hj : j < Ly)
    (h1 : ∀ a b, a + 1 < Ly → b < Lx → ¬ (a = j ∧ b = i) → ¬ (a + 1 = j ∧ b = i) → (g a b).dim 3 = (g (a + 1) b).dim 1)
    (h2 : ∀ a b, a < Ly → b + 1 < Lx → ¬ (a = j ∧ b = i) → ¬ (a = j ∧ b + 1 = i) → (g a b).dim 2 = (g a (b + 1)).dim 4) :
    ∃ r, fixNeighbours Ly Lx Lx Ly g i j = .ok r ∧ Fits Lx Ly r := by
  obtain ⟨r, e, -, hu, k1, k2, k3, k4⟩ := fixNeighbours_spec h5 hi hj
  refine ⟨r, e, fun a b ha hb => ?_, fun a b ha hb => ?_⟩
  · by_cases c1 : a = j ∧ b = i
    · obtain ⟨rfl, rfl⟩ := c1
      rw [(k3 ha).1, (k3 ha).2]
    by_cases c2 : a + 1 = j ∧ b = i
    · obtain ⟨rfl, rfl⟩ := c2
      obtain ⟨q1, q2⟩ := k1 (by omega)
      rw [Nat.add_sub_cancel] at q1 q2
      rw [q1, q2]
    rw [hu a b 3 (by unfold Shared; omega), hu (a + 1) b 1 (by unfold Shared; omega), h1 a b ha hb c1 c2]
  · by_cases c1 : a = j ∧ b = i
    · obtain ⟨rfl, rfl⟩ := c1
      rw [(k2 hb).1, (k2 hb).2]
    by_cases c2 : a = j ∧ b + 1 = i
    · obtain ⟨rfl, rfl⟩ := c2
      obtain ⟨q1, q2⟩ := k4 (by omega)
      rw [Nat.add_sub_cancel] at q1 q2
      rw [q1, q2]
    rw [hu a b 2 (by unfold Shared; omega), hu a (b + 1) 4 (by unfold Shared; omega), h2 a b ha hb c1 c2]

/-- **C135** (violated): `fPEPS(data)` sets `Lx` to the number of rows and `Ly` to the number of columns.  With more rows than columns every site of the
last column raises `IndexError` … -/
theorem fixNeighbours_tall (h5 : ∀ a b, (g a b).shape.length = 5) (hc : 0 < cols) (hr : cols < rows) (hj : j < rows) :
    fixNeighbours rows cols rows cols g (cols - 1) j = .error .indexError := by
  obtain ⟨r1, e1, v1, l1, d1⟩ := meet_ok (rows := rows) (cols := cols) (g := g) (j := j) (i := cols - 1) (k := 1) (j' := j - 1) (i' := cols - 1) (k' := 3)
    (1 ≤ j) h5 (by norm_num) (by norm_num) (by omega) (by omega) rfl
  unfold fixNeighbours
  rw [decide_eq_true ⟨hj, by omega⟩, guardPy_true, ok_bind, show ((g j (cols - 1)).shape.length == 5) = true by rw [h5]; rfl, guardPy_true, ok_bind]
  dsimp only
  rw [e1, ok_bind, if_pos (by omega)]
  unfold meet
  rw [decide_eq_false (by omega)]
  rfl

/-- … and with more columns than rows so does every site of the last row. -/
theorem fixNeighbours_wide (h5 : ∀ a b, (g a b).shape.length = 5) (hr : 0 < rows) (hc : rows < cols) (hi : i < cols) :
    fixNeighbours rows cols rows cols g i (rows - 1) = .error .indexError := by
  obtain ⟨r1, e1, v1, l1, d1⟩ := meet_ok (rows := rows) (cols := cols) (g := g) (j := rows - 1) (i := i) (k := 1) (j' := rows - 1 - 1) (i' := i) (k' := 3)
    (1 ≤ rows - 1) h5 (by norm_num) (by norm_num) (by omega) (by omega) rfl
  obtain ⟨r2, e2, v2, l2, d2⟩ := meet_ok (rows := rows) (cols := cols) (g := r1) (j := rows - 1) (i := i) (k := 2) (j' := rows - 1) (i' := i + 1) (k' := 4)
    (own := (g (rows - 1) i).dim 2) (i + 1 < rows) l1 (by norm_num) (by norm_num) (by omega) (by omega) (by rw [d1, if_neg (by omega)])
  unfold fixNeighbours
  rw [decide_eq_true ⟨by omega, hi⟩, guardPy_true, ok_bind, show ((g (rows - 1) i).shape.length == 5) = true by rw [h5]; rfl, guardPy_true, ok_bind]
  dsimp only
  rw [e1, ok_bind, e2, ok_bind, if_pos (by omega)]
  unfold meet
  rw [decide_eq_false (by omega)]
  rfl

/-! ### the hypotheses are met -/

/-- a network with bonds of dimension two but for the tensor in the middle of a 3 × 3 square, which has four different dimensions -/
def fixGrid : ℕ → ℕ → ND ℂ := fun a b => ⟨if a = 1 ∧ b = 1 then [2, 1, 2, 3, 4] else [2, 2, 2, 2, 2], fun _ => 1⟩

theorem fixGrid_five (a b : ℕ) : (fixGrid a b).shape.length = 5 := by
  unfold fixGrid
  dsimp only
  split_ifs <;> rfl

theorem fixGrid_dim {a b m : ℕ} (hm : m < 5) (h : ¬ (a = 1 ∧ b = 1)) : (fixGrid a b).dim m = 2 := by
  unfold fixGrid ND.dim
  dsimp only
  rw [if_neg h]
  interval_cases m <;> rfl

example : ¬ Fits 3 3 fixGrid := fun h => by
  have := h.1 0 1 (by omega) (by omega)
  rw [fixGrid_dim (by omega) (by omega)] at this
  simp [fixGrid, ND.dim] at this

example : ∃ r, fixNeighbours 3 3 3 3 fixGrid 1 1 = .ok r ∧ Fits 3 3 r :=
  fixNeighbours_fits fixGrid_five (by omega) (by omega)
    (fun a b _ _ h1 h2 => by rw [fixGrid_dim (by omega) h1, fixGrid_dim (by omega) h2])
    (fun a b _ _ h1 h2 => by rw [fixGrid_dim (by omega) h1, fixGrid_dim (by omega) h2])

example := fixNeighbours_tall fixGrid_five (rows := 3) (cols := 2) (j := 0) (by omega) (by omega) (by omega)
example := fixNeighbours_wide fixGrid_five (rows := 2) (cols := 3) (i := 0) (by omega) (by omega) (by omega)

end Xmps.FPEPS
