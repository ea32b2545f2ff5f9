import Verif.Model.PepsEq
import Verif.Props.EqMps

/-!
# C137: `==` of PEPS

Specification: the same centre, the same attributes `X` and `d`, the same numbers of rows and of tensors in each row, the same shapes, entries that are near
(`NearND`).
-/

namespace Xmps.Spec

/-- the tensors of two networks are the same up to the tolerance -/
def SameNet (x y : List (List (ND ℂ))) : Prop := List.Forall₂ (List.Forall₂ fun A B => A.shape = B.shape ∧ NearND A B) x y

/-- tensors of five legs with dimensions below `99999` -/
def Ordinary (x : List (List (ND ℂ))) : Prop := ∀ row ∈ x, ∀ A ∈ row, A.shape.length = 5 ∧ ∀ n ∈ A.shape, n < 99999

end Xmps.Spec

namespace Xmps.FPEPS

open Spec Xmps.EqMps

theorem intClose_iff {m n : ℤ} (hn : |n| < 99999) : IntClose m n ↔ m = n := by
  unfold IntClose
  constructor
  · intro h
    have h1 : |(n : ℝ)| ≤ 99998 := by
      have : |n| ≤ 99998 := by omega
      exact_mod_cast this
    have h2 : |(m : ℝ) - n| < 1 := by
      refine lt_of_le_of_lt h ?_
      nlinarith
    have h3 : |m - n| < 1 := by exact_mod_cast h2
    have := Int.abs_lt_one_iff.1 h3
    omega
  · rintro rfl
    rw [sub_self, abs_zero]
    positivity

theorem natClose_iff {m n : ℕ} (hn : n < 99999) : IntClose m n ↔ m = n := by
  rw [intClose_iff (by rw [abs_of_nonneg (by omega)]; omega)]
  omega

theorem shapes_close : ∀ {s t : List ℕ}, s.length = t.length → (∀ n ∈ t, n < 99999) → ((∀ p ∈ s.zip t, IntClose p.1 p.2) ↔ s = t)
  | [], [], _, _ => by simp
  | [], _ :: _, h, _ => by simp at h
  | _ :: _, [], h, _ => by simp at h
  | m :: s, n :: t, h, ht => by
    have := shapes_close (s := s) (t := t) (by simpa using h) fun k hk => ht k (List.mem_cons_of_mem _ hk)
    rw [List.zip_cons_cons, List.forall_mem_cons, this, List.cons.injEq]
    dsimp only
    rw [natClose_iff (ht n List.mem_cons_self)]

/-- the loop says whether nothing was different before and all pairs are the same -/
theorem eqLoop_spec : ∀ (l : List (ND ℂ × ND ℂ)) (e : Bool), (∀ p ∈ l, p.1.shape.length = p.2.shape.length ∧ ∀ n ∈ p.2.shape, n < 99999) →
    ∃ b, eqLoop e l = .ok b ∧ (b = true ↔ e = true ∧ ∀ p ∈ l, p.1.shape = p.2.shape ∧ NearND p.1 p.2)
  | [], e, _ => ⟨e, rfl, by simp⟩
  | (A, B) :: l, e, h => by
    classical
    obtain ⟨h1, h2⟩ := h (A, B) List.mem_cons_self
    have hl : ∀ p ∈ l, p.1.shape.length = p.2.shape.length ∧ ∀ n ∈ p.2.shape, n < 99999 := fun p hp => h p (List.mem_cons_of_mem _ hp)
    dsimp only at h1 h2
    have hc := shapes_close h1 h2
    unfold eqLoop
    rw [if_neg (not_not.2 h1)]
    by_cases hs : A.shape = B.shape
    swap
    · refine ⟨false, by rw [if_pos fun h' => hs (hc.1 h')], ?_⟩
      simp [hs]
    rw [if_neg (not_not.2 (hc.2 hs))]
    cases e
    · obtain ⟨b, e1, e2⟩ := eqLoop_spec l false hl
      refine ⟨b, by rw [if_neg (by simp), e1], ?_⟩
      rw [e2]
      simp
    · obtain ⟨b, e1, e2⟩ := eqLoop_spec l (decide (NearND A B)) hl
      refine ⟨b, by rw [if_pos rfl, close_same hs, ok_bind, e1], ?_⟩
      rw [e2, List.forall_mem_cons, decide_eq_true_iff]
      simp [hs]

theorem zip_same : ∀ {r r' : List (ND ℂ)}, r.length = r'.length →
    ((∀ p ∈ r.zip r', p.1.shape = p.2.shape ∧ NearND p.1 p.2) ↔ List.Forall₂ (fun A B => A.shape = B.shape ∧ NearND A B) r r')
  | [], [], _ => by simp
  | [], _ :: _, h => by simp at h
  | _ :: _, [], h => by simp at h
  | A :: r, B :: r', h => by
    rw [List.zip_cons_cons, List.forall_mem_cons, zip_same (by simpa using h), List.forall₂_cons]

theorem grid_same : ∀ {x y : List (List (ND ℂ))}, List.Forall₂ (fun r r' => r.length = r'.length) x y →
    ((∀ p ∈ (x.zip y).flatMap fun p => p.1.zip p.2, p.1.shape = p.2.shape ∧ NearND p.1 p.2) ↔ SameNet x y)
  | [], [], _ => by simp [SameNet]
  | r :: x, r' :: y, h => by
    rw [List.forall₂_cons] at h
    have := grid_same h.2
    unfold SameNet at this ⊢
    rw [List.zip_cons_cons, List.flatMap_cons, List.forall_mem_append, this, zip_same h.1, List.forall₂_cons]
  | [], _ :: _, h => by cases h
  | _ :: _, [], h => by cases h

theorem pairs_ok {x y : List (List (ND ℂ))} (hx : Ordinary x) (hy : Ordinary y) :
    ∀ p ∈ (x.zip y).flatMap fun p => p.1.zip p.2, p.1.shape.length = p.2.shape.length ∧ ∀ n ∈ p.2.shape, n < 99999 := by
  rintro ⟨A, B⟩ hp
  rw [List.mem_flatMap] at hp
  obtain ⟨⟨r, r'⟩, h1, h2⟩ := hp
  obtain ⟨a1, a2⟩ := List.of_mem_zip h1
  obtain ⟨b1, b2⟩ := List.of_mem_zip h2
  obtain ⟨c1, -⟩ := hx r a1 A b1
  obtain ⟨c3, c4⟩ := hy r' a2 B b2
  exact ⟨by rw [c1, c3], c4⟩

/-- what `==` decides on networks of any sizes: the tensors that both have are the same -/
theorem eq_common {x y : FPEPS} (hx : Ordinary x.data) (hy : Ordinary y.data) (hX : y.X < 99999) (hd : y.d < 99999)
    (ho : ∀ q ∈ y.oc, |q.1| < 99999 ∧ |q.2| < 99999) :
    ∃ b, eq x y = .ok b ∧ (b = true ↔ x.oc = y.oc ∧ x.X = y.X ∧ x.d = y.d ∧
      ∀ p ∈ (x.data.zip y.data).flatMap fun p => p.1.zip p.2, p.1.shape = p.2.shape ∧ NearND p.1 p.2) := by
  classical
  have key : ∀ e : Bool, ∃ b, eqLoop (e && decide (IntClose x.X y.X) && decide (IntClose x.d y.d)) ((x.data.zip y.data).flatMap fun p => p.1.zip p.2) = .ok b ∧
      (b = true ↔ e = true ∧ x.X = y.X ∧ x.d = y.d ∧
        ∀ p ∈ (x.data.zip y.data).flatMap fun p => p.1.zip p.2, p.1.shape = p.2.shape ∧ NearND p.1 p.2) := by
    intro e
    obtain ⟨b, h1, h2⟩ := eqLoop_spec _ (e && decide (IntClose x.X y.X) && decide (IntClose x.d y.d)) (pairs_ok hx hy)
    refine ⟨b, h1, ?_⟩
    rw [h2, Bool.and_eq_true, Bool.and_eq_true, decide_eq_true_iff, decide_eq_true_iff, natClose_iff hX, natClose_iff hd, and_assoc, and_assoc]
  unfold eq
  cases hxo : x.oc with
  | none =>
    cases hyo : y.oc with
    | none =>
      obtain ⟨b, h1, h2⟩ := key true
      exact ⟨b, h1, by rw [h2]; simp⟩
    | some q => exact ⟨false, rfl, by simp⟩
  | some p =>
    cases hyo : y.oc with
    | none =>
      obtain ⟨b, h1, h2⟩ := key false
      exact ⟨b, h1, by rw [h2]; simp⟩
    | some q =>
      obtain ⟨b, h1, h2⟩ := key (decide (IntClose p.1 q.1 ∧ IntClose p.2 q.2))
      obtain ⟨q1, q2⟩ := ho q hyo
      refine ⟨b, h1, ?_⟩
      rw [h2, decide_eq_true_iff, intClose_iff q1, intClose_iff q2, Option.some.injEq, Prod.ext_iff]

/-- **C137**: on networks of the same size `==` does not raise and says whether the centres, the attributes and the shapes are the same and the entries near. -/
theorem eq_same_size {x y : FPEPS} (hx : Ordinary x.data) (hy : Ordinary y.data) (hX : y.X < 99999) (hd : y.d < 99999)
    (ho : ∀ q ∈ y.oc, |q.1| < 99999 ∧ |q.2| < 99999) (hs : List.Forall₂ (fun r r' => r.length = r'.length) x.data y.data) :
    ∃ b, eq x y = .ok b ∧ (b = true ↔ x.oc = y.oc ∧ x.X = y.X ∧ x.d = y.d ∧ SameNet x.data y.data) := by
  obtain ⟨b, h1, h2⟩ := eq_common hx hy hX hd ho
  exact ⟨b, h1, by rw [h2, grid_same hs]⟩

/-- **C137** (violated): rows that only one of the networks has are not compared; with the same attributes, a network is equal to the one that goes on below. -/
theorem eq_rows {x : FPEPS} (rows : List (List (ND ℂ))) (Lx Ly : ℕ) (hx : Ordinary x.data) (hr : Ordinary rows) (hX : x.X < 99999) (hd : x.d < 99999)
    (ho : ∀ q ∈ x.oc, |q.1| < 99999 ∧ |q.2| < 99999) : eq x { x with data := x.data ++ rows, Lx := Lx, Ly := Ly } = .ok true := by
  obtain ⟨b, h1, h2⟩ := eq_common (x := x) (y := { x with data := x.data ++ rows, Lx := Lx, Ly := Ly }) hx (by
    intro row h
    rcases List.mem_append.1 h with h | h
    · exact hx row h
    · exact hr row h) hX hd ho
  rw [h1, h2.2]
  refine ⟨rfl, rfl, rfl, ?_⟩
  have hz : x.data.zip (x.data ++ rows) = x.data.zip x.data := by
    generalize x.data = l
    induction l with
    | nil => simp
    | cons A l ih => simp [ih]
  dsimp only
  rw [hz, grid_same (List.forall₂_same.2 fun _ _ => rfl)]
  exact List.forall₂_same.2 fun r _ => List.forall₂_same.2 fun A _ => ⟨rfl, fun idx _ => near_refl _⟩

/-! ### the hypotheses are met -/

/-- a single tensor -/
def eqNet : FPEPS := ⟨[[ones [2, 1, 1, 1, 1]]], 1, 1, 2, 1, some (0, 0)⟩

theorem eqNet_ordinary : Ordinary eqNet.data := by
  intro row h A hA
  simp only [eqNet, List.mem_singleton] at h
  subst h
  rw [List.mem_singleton] at hA
  subst hA
  exact ⟨rfl, by simp [ones]⟩

example := eq_same_size eqNet_ordinary eqNet_ordinary (by simp [eqNet]) (by simp [eqNet]) (by simp [eqNet]) (List.forall₂_same.2 fun _ _ => rfl)
example := eq_rows eqNet.data 2 1 eqNet_ordinary eqNet_ordinary (by simp [eqNet]) (by simp [eqNet]) (by simp [eqNet])

end Xmps.FPEPS
