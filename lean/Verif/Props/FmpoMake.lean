import Verif.Model.FmpoMake
import Verif.Props.Fmpo

/-!
# C138: making and turning rows of tensors

Specification: a random row is a chain of `L` tensors that fit (`FMPO.Holds`); the trivial row is neutral for the product; a quarter turn moves the legs
round (`Spec.Turned`), and is undone by the turn back.
-/

namespace Xmps.Spec

/-- `B` is `A` with its legs up, right, down, left moved on by one: what was left is now up -/
def Turned (A B : ND ℂ) : Prop := ∃ u r d l, A.shape = [u, r, d, l] ∧ B.shape = [l, u, r, d] ∧
  ∀ i < u, ∀ j < r, ∀ k < d, ∀ m < l, B.val [m, i, j, k] = A.val [i, j, k, m]

end Xmps.Spec

namespace Xmps.FMPO

open Finset Xmps.Spec Xmps.Ncon

/-! ### random rows -/

/-- a chain continues inside -/
theorem inner_chain (rnd : ℕ → List ℕ → ℂ) (d X : ℕ) : ∀ n k, MpoChain (List.replicate (n + 1) d) (List.replicate (n + 1) d)
    ((List.replicate n [d, X, d, X] ++ [[d, 1, d, X]]).mapIdx fun i sh => (⟨sh, rnd (i + k)⟩ : ND ℂ)) X 1
  | 0, _ => ⟨1, rfl, rfl⟩
  | n + 1, k => by
    have h := inner_chain rnd d X n (k + 1)
    rw [List.replicate_succ (n := n + 1), List.replicate_succ (a := [d, X, d, X]), List.cons_append, List.mapIdx_cons]
    refine ⟨X, rfl, ?_⟩
    have e : ∀ i, i + 1 + k = i + (k + 1) := fun i => by omega
    simp only [e]
    exact h

/-- **C138**: `random(L, d, X)` with at least two sites is a chain of `L` tensors, with outer bonds of dimension one. -/
theorem random_holds (rnd : ℕ → List ℕ → ℂ) (d X : ℕ) {L : ℕ} (hL : 2 ≤ L) :
    (random rnd L d X).Holds (List.replicate L d) (List.replicate L d) 1 := by
  obtain ⟨n, rfl⟩ := Nat.exists_eq_add_of_le' hL
  refine ⟨?_, ?_, ?_⟩
  · have h := inner_chain rnd d X n 1
    unfold random createStructure
    rw [Nat.add_sub_cancel, List.map_const', List.length_range, List.append_assoc, List.singleton_append, List.mapIdx_cons, List.replicate_succ]
    exact ⟨X, rfl, h⟩
  · simp [random, createStructure]
  · simp [random, createStructure]

/-- **C138** (violated): for a single site (and for none) `random` makes two tensors, although its `L` says otherwise. -/
theorem random_short (rnd : ℕ → List ℕ → ℂ) (d X : ℕ) {L : ℕ} (hL : L < 2) :
    (random rnd L d X).data.length = 2 ∧ (random rnd L d X).L = L := by
  refine ⟨?_, rfl⟩
  simp [random, createStructure]
  omega

/-! ### the trivial row -/

/-- an array with one entry, which is one -/
def unit4 : ND ℂ := ⟨[1, 1, 1, 1], fun _ => 1⟩

/-- the trivial row -/
theorem trivial_data (A : FMPO) {L : ℕ} (hL : 2 ≤ L) : (trivial A L).data = List.replicate L unit4 := by
  obtain ⟨n, rfl⟩ := Nat.exists_eq_add_of_le' hL
  simp only [trivial, createStructure, Nat.add_sub_cancel, List.map_const', List.length_range, List.map_append, List.map_cons, List.map_nil, List.map_replicate]
  rw [List.append_assoc, List.singleton_append, show n + 2 = (n + 1) + 1 from rfl, List.replicate_succ, List.replicate_succ']
  rfl

/-- **C138** (violated): the trivial row of a single site (or of none) has two tensors. -/
theorem trivial_short (A : FMPO) {L : ℕ} (hL : L < 2) : (trivial A L).data = [unit4, unit4] := by
  simp only [trivial, createStructure, show L - 2 = 0 by omega]
  rfl

theorem unit_mulTensor (O : SetOrder) {W : ND ℂ} {u m l : ℕ} (hW : W.shape = [u, m, 1, l]) : ∃ R, mulTensor O unit4 W = .ok R ∧ R ≈ W := by
  obtain ⟨R, h1, h2, h3⟩ := mulTensor_ok O (W := unit4) (W' := W) (k := 1) (m := 1) (d := 1) (l := 1) rfl hW
  refine ⟨R, h1, by rw [h2, hW, mul_one, mul_one], ?_⟩
  intro idx hi
  rw [h2, mul_one, mul_one] at hi
  match idx, hi with
  | [i, b, j, a], ⟨q1, q2, q3, q4, _⟩ =>
    obtain rfl : j = 0 := by omega
    have := h3 i q1 b q2 0 one_pos 0 one_pos a q4 0 one_pos
    simpa [unit4] using this

theorem mulTensor_unit (O : SetOrder) {W : ND ℂ} {d m l : ℕ} (hW : W.shape = [1, m, d, l]) : ∃ R, mulTensor O W unit4 = .ok R ∧ R ≈ W := by
  obtain ⟨R, h1, h2, h3⟩ := mulTensor_ok O (W := W) (W' := unit4) (k := 1) (u := 1) (m' := 1) (l' := 1) hW rfl
  refine ⟨R, h1, by rw [h2, hW, one_mul, one_mul], ?_⟩
  intro idx hi
  rw [h2, one_mul, one_mul] at hi
  match idx, hi with
  | [i, b, j, a], ⟨q1, q2, q3, q4, _⟩ =>
    obtain rfl : i = 0 := by omega
    have := h3 0 one_pos 0 one_pos b q2 j q3 0 one_pos a q4
    simpa [unit4] using this

/-- **C138**: the trivial row times a row that has nothing below it is that row. -/
theorem trivial_mul (O : SetOrder) (A B : FMPO) {L : ℕ} (hL : 2 ≤ L) (hB : B.data.length = L) (hs : ∀ W ∈ B.data, ∃ u m l, W.shape = [u, m, 1, l]) :
    ∃ C, mul O (trivial A L) B = .ok C ∧ List.Forall₂ (· ≈ ·) C.data B.data ∧ C.L = L ∧ C.X = B.X := by
  have key : ∀ Ws : List (ND ℂ), (∀ W ∈ Ws, ∃ u m l, W.shape = [u, m, 1, l]) →
      ∃ Rs, ((List.replicate Ws.length unit4).zip Ws).mapM (fun (W, W') => mulTensor O W W') = .ok Rs ∧ List.Forall₂ (· ≈ ·) Rs Ws := by
    intro Ws
    induction Ws with
    | nil => exact fun _ => ⟨[], rfl, .nil⟩
    | cons W Ws ih =>
      intro h
      obtain ⟨u, m, l, hW⟩ := h W List.mem_cons_self
      obtain ⟨R, r1, r2⟩ := unit_mulTensor O hW
      obtain ⟨Rs, s1, s2⟩ := ih fun V hV => h V (List.mem_cons_of_mem _ hV)
      exact ⟨R :: Rs, by simp only [List.length_cons, List.replicate_succ, List.zip_cons_cons, List.mapM_cons, r1, ok_bind, s1]; rfl, .cons r2 s2⟩
  obtain ⟨Rs, s1, s2⟩ := key B.data hs
  refine ⟨⟨Rs, Rs.length, 1, 1 * B.X⟩, ?_, s2, ?_, one_mul _⟩
  · unfold mul
    rw [trivial_data A hL, ← hB, s1]
    rfl
  · rw [← hB]
    exact s2.length_eq

/-- **C138**: a row that has nothing above it times the trivial row is that row. -/
theorem mul_trivial (O : SetOrder) (A B : FMPO) {L : ℕ} (hL : 2 ≤ L) (hB : B.data.length = L) (hs : ∀ W ∈ B.data, ∃ m d l, W.shape = [1, m, d, l]) :
    ∃ C, mul O B (trivial A L) = .ok C ∧ List.Forall₂ (· ≈ ·) C.data B.data ∧ C.L = L ∧ C.d = B.d ∧ C.X = B.X := by
  have key : ∀ Ws : List (ND ℂ), (∀ W ∈ Ws, ∃ m d l, W.shape = [1, m, d, l]) →
      ∃ Rs, (Ws.zip (List.replicate Ws.length unit4)).mapM (fun (W, W') => mulTensor O W W') = .ok Rs ∧ List.Forall₂ (· ≈ ·) Rs Ws := by
    intro Ws
    induction Ws with
    | nil => exact fun _ => ⟨[], rfl, .nil⟩
    | cons W Ws ih =>
      intro h
      obtain ⟨m, d, l, hW⟩ := h W List.mem_cons_self
      obtain ⟨R, r1, r2⟩ := mulTensor_unit O hW
      obtain ⟨Rs, s1, s2⟩ := ih fun V hV => h V (List.mem_cons_of_mem _ hV)
      exact ⟨R :: Rs, by simp only [List.length_cons, List.replicate_succ, List.zip_cons_cons, List.mapM_cons, r1, ok_bind, s1]; rfl, .cons r2 s2⟩
  obtain ⟨Rs, s1, s2⟩ := key B.data hs
  refine ⟨⟨Rs, Rs.length, B.d, B.X * 1⟩, ?_, s2, ?_, rfl, mul_one _⟩
  · unfold mul
    rw [trivial_data A hL, ← hB, s1]
    rfl
  · rw [← hB]
    exact s2.length_eq

/-! ### quarter turns -/

theorem init_ok {data : List (ND ℂ)} (hne : data ≠ []) (h : ∀ A ∈ data, A.shape.length = 4) :
    ∃ R, init data = .ok R ∧ R.data = data ∧ R.L = data.length := by
  have key : ∀ l : List (ND ℂ), (∀ A ∈ l, A.shape.length = 4) → l.mapM (fun x => if x.shape.tail = [] then (.error .valueError : Py ℕ) else .ok (x.shape.tail.foldl max 0)) =
      .ok (l.map fun x => x.shape.tail.foldl max 0) := by
    intro l
    induction l with
    | nil => exact fun _ => rfl
    | cons A l ih =>
      intro h
      have hA : A.shape.tail ≠ [] := by
        intro h0
        have h1 := h A List.mem_cons_self
        have h2 := congrArg List.length h0
        rw [List.length_tail, h1] at h2
        simp at h2
      rw [List.mapM_cons, if_neg hA, ok_bind, ih fun B hB => h B (List.mem_cons_of_mem _ hB)]
      rfl
  match data, hne, h with
  | A :: l, _, h =>
    have hA := h A List.mem_cons_self
    match hs : A.shape, hA with
    | u :: sh, _ =>
      refine ⟨⟨A :: l, (A :: l).length, u, ((A :: l).map fun x => x.shape.tail.foldl max 0).foldl max 0⟩, ?_, rfl, rfl⟩
      · unfold init maxBond
        rw [key _ h]
        simp only [pyGet_cons_zero, hs, ok_bind, List.map_cons, reduceCtorEq, if_false]

theorem turn_list : ∀ {Ws : List (ND ℂ)}, (∀ W ∈ Ws, W.shape.length = 4) →
    ∃ Vs, Ws.mapM (·.transpose [3, 0, 1, 2]) = .ok Vs ∧ List.Forall₂ Turned Ws Vs
  | [], _ => ⟨[], rfl, .nil⟩
  | W :: Ws, h => by
    obtain ⟨Vs, e, hV⟩ := turn_list fun V hV => h V (List.mem_cons_of_mem _ hV)
    have h4 := h W List.mem_cons_self
    obtain ⟨u, r, d, l, hW⟩ := List.length_eq_four.1 h4
    have ht : W.transpose [3, 0, 1, 2] = .ok (W.transposeR [3, 0, 1, 2]) := ND.transpose_ok (by rw [ND.rank, h4]; decide)
    refine ⟨W.transposeR [3, 0, 1, 2] :: Vs, by rw [List.mapM_cons, ht, ok_bind, e]; rfl, .cons ⟨u, r, d, l, hW, ?_, ?_⟩ hV⟩
    · simp [ND.transposeR, ND.dim, hW]
    · intro i _ j _ k _ m _
      simp [ND.transposeR, hW, ND.rank, List.range_succ, List.idxOf_cons]

theorem unturn_list : ∀ {Ws : List (ND ℂ)}, (∀ W ∈ Ws, W.shape.length = 4) →
    ∃ Vs, Ws.mapM (·.transpose [1, 2, 3, 0]) = .ok Vs ∧ List.Forall₂ Turned Vs Ws
  | [], _ => ⟨[], rfl, .nil⟩
  | W :: Ws, h => by
    obtain ⟨Vs, e, hV⟩ := unturn_list fun V hV => h V (List.mem_cons_of_mem _ hV)
    have h4 := h W List.mem_cons_self
    obtain ⟨l, u, r, d, hW⟩ := List.length_eq_four.1 h4
    have ht : W.transpose [1, 2, 3, 0] = .ok (W.transposeR [1, 2, 3, 0]) := ND.transpose_ok (by rw [ND.rank, h4]; decide)
    refine ⟨W.transposeR [1, 2, 3, 0] :: Vs, by rw [List.mapM_cons, ht, ok_bind, e]; rfl, .cons ⟨u, r, d, l, ?_, hW, ?_⟩ hV⟩
    · simp [ND.transposeR, ND.dim, hW]
    · intro i _ j _ k _ m _
      simp [ND.transposeR, hW, ND.rank, List.range_succ, List.idxOf_cons]

/-- tensors with the same turned tensor are the same -/
theorem turned_inj {A B C : ND ℂ} (hA : Turned A C) (hB : Turned B C) : A ≈ B := by
  obtain ⟨u, r, d, l, a1, a2, a3⟩ := hA
  obtain ⟨u', r', d', l', b1, b2, b3⟩ := hB
  rw [a2] at b2
  simp only [List.cons.injEq, and_true] at b2
  obtain ⟨rfl, rfl, rfl, rfl⟩ := b2
  refine ⟨by rw [a1, b1], ?_⟩
  intro idx hi
  rw [a1] at hi
  match idx, hi with
  | [i, j, k, m], ⟨q1, q2, q3, q4, _⟩ => rw [← a3 i q1 j q2 k q3 m q4, ← b3 i q1 j q2 k q3 m q4]

theorem turned_len {A B : ND ℂ} (h : Turned A B) : A.shape.length = 4 ∧ B.shape.length = 4 := by
  obtain ⟨u, r, d, l, h1, h2, -⟩ := h
  rw [h1, h2]
  exact ⟨rfl, rfl⟩

theorem forall₂_right {R : ND ℂ → ND ℂ → Prop} {l m : List (ND ℂ)} (h : List.Forall₂ R l m) : ∀ B ∈ m, ∃ A ∈ l, R A B := by
  induction h with
  | nil => simp
  | cons h _ ih =>
    intro B hB
    rcases List.mem_cons.1 hB with rfl | hB
    · exact ⟨_, List.mem_cons_self, h⟩
    · obtain ⟨A, hA, hR⟩ := ih B hB
      exact ⟨A, List.mem_cons_of_mem _ hA, hR⟩

/-- **C138**: `rotate_90` turns every tensor, and `unrotate_90` turns it back. -/
theorem rotate_unrotate {A : FMPO} (hne : A.data ≠ []) (h : ∀ W ∈ A.data, W.shape.length = 4) :
    ∃ R S, rotate90 A = .ok R ∧ List.Forall₂ Turned A.data R.data ∧ R.L = A.data.length ∧
      unrotate90 R = .ok S ∧ List.Forall₂ (· ≈ ·) S.data A.data ∧ S.L = A.data.length := by
  obtain ⟨Vs, e, hV⟩ := turn_list h
  have hV4 : ∀ V ∈ Vs, V.shape.length = 4 := fun V hv => by
    obtain ⟨W, -, ht⟩ := forall₂_right hV V hv
    exact (turned_len ht).2
  have hVne : Vs ≠ [] := by
    rintro rfl
    exact hne (List.forall₂_nil_right_iff.1 hV)
  obtain ⟨R, e1, e2, e3⟩ := init_ok hVne hV4
  obtain ⟨Us, e', hU⟩ := unturn_list hV4
  have hU4 : ∀ V ∈ Us, V.shape.length = 4 := fun V hv => by
    obtain ⟨W, -, ht⟩ := forall₂_right hU.flip V hv
    exact (turned_len ht).1
  have hUne : Us ≠ [] := by
    rintro rfl
    exact hVne (List.forall₂_nil_left_iff.1 hU)
  obtain ⟨S, f1, f2, f3⟩ := init_ok hUne hU4
  refine ⟨R, S, by unfold rotate90; rw [e, ok_bind, e1], by rw [e2]; exact hV, by rw [e3, hV.length_eq], by unfold unrotate90; rw [e2, e', ok_bind, f1], ?_, by
    rw [f3, hU.length_eq, hV.length_eq]⟩
  rw [f2]
  clear e e' e1 e2 e3 f1 f2 f3 hV4 hU4 hVne hUne h hne
  generalize A.data = Ws at hV
  induction hV generalizing Us with
  | nil => rw [List.forall₂_nil_right_iff.1 hU]; exact .nil
  | cons hh _ ih =>
    obtain ⟨a, u, ha, hu, rfl⟩ := List.forall₂_cons_right_iff.1 hU
    exact .cons (turned_inj ha hh) (ih u hu)

/-! ### the hypotheses are met -/

/-- a row of two tensors with nothing below -/
noncomputable def topRow : FMPO := ⟨[⟨[2, 3, 1, 1], fun idx => (ravel [2, 3, 1, 1] idx : ℂ)⟩, ⟨[2, 1, 1, 3], fun idx => (ravel [2, 1, 1, 3] idx : ℂ)⟩], 2, 2, 3⟩

/-- a row of two tensors with nothing above -/
noncomputable def bottomRow : FMPO := ⟨[⟨[1, 3, 2, 1], fun idx => (ravel [1, 3, 2, 1] idx : ℂ)⟩, ⟨[1, 1, 2, 3], fun idx => (ravel [1, 1, 2, 3] idx : ℂ)⟩], 2, 1, 3⟩

example := random_holds (fun k _ => (k : ℂ)) 2 4 (L := 5) (by norm_num)
example := random_short (fun k _ => (k : ℂ)) 2 4 (L := 1) (by norm_num)
example := trivial_short exMpo (L := 1) (by norm_num)
example (O : SetOrder) := trivial_mul O exMpo topRow (L := 2) le_rfl rfl (by simp [topRow])
example (O : SetOrder) := mul_trivial O exMpo bottomRow (L := 2) le_rfl rfl (by simp [bottomRow])
example := rotate_unrotate (A := exMpo) (by simp [exMpo]) (by simp [exMpo])

end Xmps.FMPO
