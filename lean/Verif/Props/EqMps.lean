import Verif.Model.EqMps
import Verif.Spec.Mps

/-!
# C136: `==` of chains and unit cells

Specification: two lists of tensors are near if they have the same length, the same shapes, and entries that differ by at most `1e-8 + 1e-5 |b|`.
-/

namespace Xmps.Spec

/-- the tolerance of `numpy.allclose` -/
def NearNum (a b : ℂ) : Prop := ‖a - b‖ ≤ 1 / 10 ^ 8 + 1 / 10 ^ 5 * ‖b‖

/-- entries of two tensors of one shape -/
def NearND (A B : ND ℂ) : Prop := ∀ idx, InB A.shape idx → NearNum (A.val idx) (B.val idx)

end Xmps.Spec

namespace Xmps.EqMps

open Spec

theorem bdim_self (sh : List ℕ) : List.zipWith bdim sh sh = sh := by
  induction sh with
  | nil => rfl
  | cons n sh ih => rw [List.zipWith_cons_cons, ih]; simp [bdim]

theorem bval_self : ∀ (sh : List ℕ) (v : List ℕ → ℂ) (idx : List ℕ), InB sh idx → bval ⟨sh, v⟩ idx = v idx := by
  intro sh v idx h
  unfold bval
  dsimp only
  congr 1
  induction sh generalizing idx with
  | nil => cases idx with
    | nil => rfl
    | cons _ _ => exact absurd h (by simp [InB])
  | cons n sh ih => cases idx with
    | nil => exact absurd h (by simp [InB])
    | cons i idx =>
      rw [InB_cons] at h
      rw [List.zipWith_cons_cons, ih idx h.2]
      by_cases hn : n = 1
      · rw [if_pos hn, show i = 0 by omega]
      · rw [if_neg hn]

open Classical in
/-- tensors of one shape -/
theorem close_same {A B : ND ℂ} (h : A.shape = B.shape) : close A B = .ok (decide (NearND A B)) := by
  obtain ⟨sh, v⟩ := A
  obtain ⟨sh', w⟩ := B
  dsimp only at h
  subst h
  unfold close
  rw [if_pos]
  · congr 1
    apply decide_eq_decide.2
    dsimp only
    rw [bdim_self]
    refine forall_congr' fun idx => forall_congr' fun hi => ?_
    rw [bval_self sh v idx hi, bval_self sh w idx hi]
    rfl
  · refine ⟨rfl, fun p hp => Or.inl ?_⟩
    dsimp only at hp
    obtain ⟨k, hk, rfl⟩ := List.getElem_of_mem hp
    simp

/-- **C136**: for tensors of the same shapes `==` does not raise, and says whether the entries are near. -/
theorem eq_spec : ∀ {x y : List (ND ℂ)}, x.map (·.shape) = y.map (·.shape) → ∃ b, eq x y = .ok b ∧ (b = true ↔ List.Forall₂ NearND x y)
  | [], [], _ => ⟨true, rfl, by simp⟩
  | [], _ :: _, h => by simp at h
  | _ :: _, [], h => by simp at h
  | A :: x, B :: y, h => by
    classical
    simp only [List.map_cons, List.cons.injEq] at h
    obtain ⟨b, e, hb⟩ := eq_spec h.2
    unfold eq at e
    obtain ⟨l, e1, e2⟩ := bind_eq_ok e
    cases e2
    refine ⟨decide (NearND A B) && l.all id, ?_, ?_⟩
    · unfold eq
      rw [List.zip_cons_cons, List.mapM_cons]
      dsimp only
      rw [close_same h.1, ok_bind, e1, ok_bind]
      rfl
    · rw [Bool.and_eq_true, decide_eq_true_iff, hb, List.forall₂_cons]

theorem near_refl (a : ℂ) : NearNum a a := by
  unfold NearNum
  rw [sub_self, norm_zero]
  positivity

/-- **C136** (violated): of lists of different lengths only the common beginning is compared, so a chain is equal to every longer one that begins with it,
and to the empty one. -/
theorem eq_prefix (x y : List (ND ℂ)) : eq x (x ++ y) = .ok true ∧ eq (x ++ y) x = .ok true := by
  have hz : x.zip (x ++ y) = x.zip x ∧ (x ++ y).zip x = x.zip x := by
    induction x with
    | nil => simp
    | cons A x ih => simp [ih.1, ih.2]
  have hs : eq x x = .ok true := by
    obtain ⟨b, e, hb⟩ := eq_spec (x := x) (y := x) rfl
    rw [e, hb.2 (List.forall₂_same.2 fun A _ idx _ => near_refl _)]
  unfold eq at hs ⊢
  rw [hz.1, hz.2]
  exact ⟨hs, hs⟩

/-- `!=` is the negation -/
theorem ne_spec {x y : List (ND ℂ)} (h : x.map (·.shape) = y.map (·.shape)) : ∃ b, ne x y = .ok b ∧ (b = true ↔ ¬ List.Forall₂ NearND x y) := by
  obtain ⟨b, e, hb⟩ := eq_spec h
  refine ⟨!b, by unfold ne; rw [e, ok_bind], ?_⟩
  rw [← hb]
  cases b <;> simp

/-- an array of ones -/
def ones (sh : List ℕ) : ND ℂ := ⟨sh, fun _ => 1⟩

open Classical in
theorem close_ones {s t : List ℕ} (h : s.length = t.length ∧ ∀ p ∈ s.zip t, p.1 = p.2 ∨ p.1 = 1 ∨ p.2 = 1) : close (ones s) (ones t) = .ok true := by
  unfold close
  refine (if_pos h).trans ?_
  refine congrArg Except.ok (decide_eq_true ?_)
  intro idx _
  exact near_refl 1

/-- **C136** (violated): shapes are broadcast, so two chains that are different states can be equal: all tensors of both have the entries 1, but one has a bond
of dimension one and the other of dimension two, and their amplitudes are 1 and 2. -/
theorem eq_broadcast : eq [ones [2, 1, 1], ones [2, 1, 1]] [ones [2, 1, 2], ones [2, 2, 1]] = .ok true ∧
    psi [ones [2, 1, 1], ones [2, 1, 1]] [0, 0] = 1 ∧ psi [ones [2, 1, 2], ones [2, 2, 1]] [0, 0] = 2 := by
  refine ⟨?_, ?_, ?_⟩
  · unfold eq
    simp only [List.zip_cons_cons, List.zip_nil_right, List.mapM_cons, List.mapM_nil]
    rw [close_ones (by simp), close_ones (by simp)]
    rfl
  · simp [psi, ones, ND.dim, pathProd]
  · simp [psi, ones, ND.dim, pathProd]

open Classical in
/-- **C136** (violated): which tensors with a bond of dimension one are equal to which with a bond of dimension `n`: the one entry of each outcome is compared
with all `n` of the other, on either side. -/
theorem eq_broadcast_iff {d n : ℕ} {A B : ND ℂ} (hA : A.shape = [d, 1, 1]) (hB : B.shape = [d, 1, n]) :
    eq [A] [B] = .ok (decide (∀ s < d, ∀ k < n, NearNum (A.val [s, 0, 0]) (B.val [s, 0, k]))) ∧
    eq [B] [A] = .ok (decide (∀ s < d, ∀ k < n, NearNum (B.val [s, 0, k]) (A.val [s, 0, 0]))) := by
  have hbA : ∀ s k, s < d → bval A [s, 0, k] = A.val [s, 0, 0] := by
    intro s k hs
    unfold bval
    rw [hA]
    simp only [List.zipWith_cons_cons, List.zipWith_nil_right, if_true]
    by_cases hd : d = 1
    · rw [if_pos hd, show s = 0 by omega]
    · rw [if_neg hd]
  have hbB : ∀ s k, s < d → k < n → bval B [s, 0, k] = B.val [s, 0, k] := by
    intro s k hs hk
    have := bval_self B.shape B.val [s, 0, k] (by rw [hB]; simp [InB, hs, hk])
    exact this
  have hz : List.zipWith bdim A.shape B.shape = [d, 1, n] ∧ List.zipWith bdim B.shape A.shape = [d, 1, n] := by
    rw [hA, hB]
    by_cases hn : n = 1 <;> simp [bdim, hn]
  have hall : ∀ P : List ℕ → Prop, (∀ idx, InB [d, 1, n] idx → P idx) ↔ ∀ s < d, ∀ k < n, P [s, 0, k] := by
    intro P
    constructor
    · intro h s hs k hk
      exact h _ (by simp [InB, hs, hk])
    · intro h idx hi
      match idx, hi with
      | [s, j, k], hi =>
        simp only [InB_cons] at hi
        obtain ⟨h1, h2, h3, -⟩ := hi
        rw [show j = 0 by omega]
        exact h s h1 k h3
      | [], hi => simp [InB] at hi
      | [_], hi => simp [InB] at hi
      | [_, _], hi => simp [InB] at hi
      | _ :: _ :: _ :: _ :: _, hi => simp [InB] at hi
  have one : ∀ C D : ND ℂ, ∀ b, close C D = .ok b → eq [C] [D] = .ok b := by
    intro C D b h
    unfold eq
    simp only [List.zip_cons_cons, List.zip_nil_right, List.mapM_cons, List.mapM_nil]
    rw [h]
    cases b <;> rfl
  constructor
  · refine one _ _ _ ?_
    unfold close
    rw [if_pos (by rw [hA, hB]; simp), hz.1]
    congr 1
    apply decide_eq_decide.2
    rw [hall]
    refine forall_congr' fun s => forall_congr' fun hs => forall_congr' fun k => forall_congr' fun hk => ?_
    rw [hbA s k hs, hbB s k hs hk]
    rfl
  · refine one _ _ _ ?_
    unfold close
    rw [if_pos (by rw [hA, hB]; simp), hz.2]
    congr 1
    apply decide_eq_decide.2
    rw [hall]
    refine forall_congr' fun s => forall_congr' fun hs => forall_congr' fun k => forall_congr' fun hk => ?_
    rw [hbA s k hs, hbB s k hs hk]
    rfl

example := eq_broadcast_iff (d := 2) (n := 3) (A := ones [2, 1, 1]) (B := ones [2, 1, 3]) rfl rfl

/-- **C136** (violated): bonds of different dimensions greater than one raise `ValueError`. -/
theorem eq_raises {d m n : ℕ} (hm : 1 < m) (hn : 1 < n) (hmn : m ≠ n) {A B : ND ℂ} (hA : A.shape = [d, 1, m]) (hB : B.shape = [d, 1, n]) (x y : List (ND ℂ)) :
    eq (A :: x) (B :: y) = .error .valueError := by
  unfold eq
  rw [List.zip_cons_cons, List.mapM_cons]
  dsimp only
  have : close A B = .error .valueError := by
    unfold close
    rw [if_neg]
    rintro ⟨-, h⟩
    have := h (m, n) (by rw [hA, hB]; simp)
    dsimp only at this
    omega
  rw [this]
  rfl

/-- **C136** (violated): `==` is not symmetric; the tolerance depends on the second tensor. -/
theorem eq_asymmetric : ∃ A B : ND ℂ, A.shape = [1, 1, 1] ∧ B.shape = [1, 1, 1] ∧ eq [A] [B] = .ok true ∧ eq [B] [A] = .ok false := by
  refine ⟨ones [1, 1, 1], ⟨[1, 1, 1], fun _ => ((100000001 / 99999000 : ℝ) : ℂ)⟩, rfl, rfl, ?_, ?_⟩
  · obtain ⟨b, e, hb⟩ := eq_spec (x := [ones [1, 1, 1]]) (y := [⟨[1, 1, 1], fun _ => ((100000001 / 99999000 : ℝ) : ℂ)⟩]) rfl
    rw [e, hb.2]
    refine List.Forall₂.cons (fun idx _ => ?_) List.Forall₂.nil
    show ‖(1 : ℂ) - ((100000001 / 99999000 : ℝ) : ℂ)‖ ≤ _ + _ * ‖((100000001 / 99999000 : ℝ) : ℂ)‖
    rw [← Complex.ofReal_one, ← Complex.ofReal_sub, Complex.norm_real, Complex.norm_real, Real.norm_eq_abs, Real.norm_eq_abs]
    norm_num [abs_le]
  · obtain ⟨b, e, hb⟩ := eq_spec (y := [ones [1, 1, 1]]) (x := [⟨[1, 1, 1], fun _ => ((100000001 / 99999000 : ℝ) : ℂ)⟩]) rfl
    rw [e]
    congr 1
    rw [← Bool.not_eq_true, hb]
    intro h
    rw [List.forall₂_cons] at h
    have := h.1 [0, 0, 0] (by simp [InB])
    have : ‖((100000001 / 99999000 : ℝ) : ℂ) - (1 : ℂ)‖ ≤ 1 / 10 ^ 8 + 1 / 10 ^ 5 * ‖(1 : ℂ)‖ := this
    rw [← Complex.ofReal_one, ← Complex.ofReal_sub, Complex.norm_real, Complex.norm_real, Real.norm_eq_abs, Real.norm_eq_abs] at this
    norm_num [abs_le] at this

example := eq_raises (d := 2) (m := 2) (n := 3) (by norm_num) (by norm_num) (by norm_num) (A := ones [2, 1, 2]) (B := ones [2, 1, 3]) rfl rfl [] []

end Xmps.EqMps
