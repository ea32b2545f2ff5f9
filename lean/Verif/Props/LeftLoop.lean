import Verif.Model.LeftLoop
import Verif.Props.Transfer

/-!
# C139: the three loops of `left_transfer` are one function

Specification: `Spec.pullBack`, as in C41.
-/

namespace Xmps.LeftLoop

open Xmps.Spec

variable {K : Type}

theorem sites_eq (j i : ℕ) : sites j i = (List.range' j (i - j)).reverse := by
  unfold sites
  refine List.ext_getElem (by simp) fun k h1 h2 => ?_
  simp only [List.length_map, List.length_range] at h1
  simp only [List.getElem_map, List.getElem_range, List.getElem_reverse, List.getElem_range', List.length_range']
  omega

theorem loop_snoc {α : Type} [AddCommMonoid K] [Mul K] [Star K] (f : α → List (ND K) → Py (List (ND K))) (g : List α → List (ND K) → Py (List (ND K)))
    (h0 : ∀ Ls, g [] Ls = .ok Ls) (h1 : ∀ m ms Ls, g (m :: ms) Ls = (f m Ls >>= g ms)) :
    ∀ ms m Ls, g (ms ++ [m]) Ls = (g ms Ls >>= f m)
  | [], m, Ls => by
    rw [List.nil_append, h1, h0, ok_bind]
    cases f m Ls with
    | error e => rfl
    | ok v => rw [ok_bind, h0]
  | k :: ms, m, Ls => by
    rw [List.cons_append, h1, h1]
    cases f k Ls with
    | error e => rfl
    | ok v => rw [ok_bind, ok_bind, loop_snoc f g h0 h1 ms m v]

variable [AddCommMonoid K] [Mul K] [Star K]

/-- **C139**: the loop that inserts in front is the recursion of the model of C41, errors included. -/
theorem ltInner_eq (op : ND K) (As : List (ND K)) (j i : ℕ) : ltInner op As j i = FMPS.leftTransferList op As j (i - j) := by
  unfold ltInner
  generalize i - j = k
  induction k generalizing j with
  | zero => rfl
  | succ k ih =>
    rw [List.range'_succ, List.reverse_cons, loop_snoc (fun m Ls => do
      let A ← pyGet As m
      let L ← pyGet Ls 0
      let W ← FMPS.transferStep A L
      .ok (W :: Ls)) (loopInsert As) (fun _ => rfl) (fun m ms Ls => by
        rw [loopInsert]
        cases pyGet As m <;> [rfl; skip]
        cases pyGet Ls 0 <;> [rfl; skip]
        rename_i A L
        simp only [ok_bind]
        cases FMPS.transferStep A L <;> rfl), ih]
    rfl

/-- the loop that appends goes through the same states, turned round -/
theorem loops_same (As : List (ND K)) : ∀ ms (Ls : List (ND K)), (loopAppend As ms Ls.reverse >>= fun R => .ok R.reverse) = loopInsert As ms Ls
  | [], Ls => by rw [loopAppend, ok_bind, List.reverse_reverse, loopInsert]
  | m :: ms, Ls => by
    rw [loopAppend, loopInsert]
    have hlast : pyGetI Ls.reverse (-1) = pyGet Ls 0 := by
      cases Ls with
      | nil => rfl
      | cons L l =>
        rw [List.reverse_cons]
        simp [pyGetI]
    rw [hlast]
    cases pyGet As m <;> [rfl; skip]
    cases pyGet Ls 0 <;> [rfl; skip]
    rename_i A L
    simp only [ok_bind]
    cases FMPS.transferStep A L <;> [rfl; skip]
    rename_i W
    simp only [ok_bind]
    rw [← loops_same As ms (W :: Ls), List.reverse_cons]

/-- **C139**: the compiled loop, the one used and the one inside the method return the same on all arguments, errors included. -/
theorem lt_eq_inner (op : ND K) (As : List (ND K)) (j i : ℕ) : lt op As j i = ltInner op As j i := by
  unfold lt ltInner
  rw [sites_eq, ← loops_same]
  rfl

/-- **C139**: they are `left_transfer` of the model of C41. -/
theorem lt_eq (x : FMPS K) (op : ND K) (j i : ℕ) : lt op x.data j i = x.leftTransfer op j i := by
  rw [lt_eq_inner, ltInner_eq]
  rfl

/-- **C139**: the loops pull an operator on the bond before site `i` back to the bonds before the sites `j, …, i`; `n - j` is the position in the list. -/
theorem lt_spec {K : Type} [CommSemiring K] [StarRing K] {x : FMPS K} {ds : List ℕ} (hx : x.Holds ds) {op : ND K} {j i r : ℕ} {rest : List ℕ}
    (hji : j ≤ i) (hi : i ≤ ds.length) (hr : MpsChain (ds.take i) (x.data.take i) 1 r) (hop : op.shape = r :: r :: rest) :
    ∃ Ls, lt op x.data j i = .ok Ls ∧ ∀ n, j ≤ n → n ≤ i → ∃ T q, pyGetI Ls ((n : ℤ) - j) = .ok T ∧
      MpsChain (ds.take n) (x.data.take n) 1 q ∧ T.shape = q :: q :: rest ∧ ∀ a < q, ∀ b < q, ∀ t, InB rest t →
        T.val (a :: b :: t) = pullBack ((ds.take i).drop n) ((x.data.take i).drop n) r (fun c c' => op.val (c :: c' :: t)) a b := by
  rw [lt_eq]
  exact FMPS.leftTransfer_spec hx hji hi hr hop

/-! ### the hypotheses are met -/

example := lt_spec exSwap_holds (op := (onesND [2, 2, 5] : ND ℂ)) (j := 0) (i := 2) (r := 2) (rest := [5]) (by omega) (by simp) ⟨1, rfl, 2, rfl, rfl⟩ rfl
example := lt_eq_inner (onesND [2, 2] : ND ℂ) [] 0 3

end Xmps.LeftLoop
