import Verif.Lemmas.BrokenNet
import Verif.Lemmas.Expect
import Verif.Model.DAdtFull

/-! # The links of `dA_dt` with a full Hamiltonian -/

namespace Xmps

open Finset Xmps.Spec Xmps.Ncon

theorem set_mid {α : Type} (X Y : List α) (a b : α) {n : ℕ} (h : X.length = n) : (X ++ a :: Y).set n b = X ++ b :: Y := by
  subst h
  simp

theorem pyGet_mid {α : Type} (X Y : List α) (a : α) {n : ℕ} (h : X.length = n) : pyGet (X ++ a :: Y) n = .ok a := by
  subst h
  simp [pyGet]

theorem chainL_snoc : ∀ (ss : List ℤ) (s : ℤ) (bs : List ℤ) (b b' : ℤ), bs.length = ss.length →
    chainL (ss ++ [s]) (bs ++ [b, b']) = chainL ss (bs ++ [b]) ++ [[s, b, b']]
  | [], s, [], b, b', _ => rfl
  | t :: ss, s, [c], b, b', h => by
    obtain rfl : ss = [] := by simpa using h
    rfl
  | t :: ss, s, c :: c' :: bs, b, b', h => by
    have ih := chainL_snoc ss s (c' :: bs) b b' (by simpa using h)
    simp only [List.cons_append, chainL] at ih ⊢
    rw [ih]
  | [], _, _ :: _, _, _, h => by simp at h
  | _ :: _, _, [], _, _, h => by simp at h

theorem pyLast_snoc {α : Type} (X : List α) (a : α) : FMPS.pyLast (X ++ [a]) = .ok a := by
  simp [FMPS.pyLast, pyGetI, pyGet]

theorem linksOp_parts {L : ℕ} (hL : 0 < L) : FMPS.linksOp L =
    (List.range' 1 L).map (fun (n : ℕ) => [(n : ℤ), 2 * L + n, 2 * L + n + 1]) ++ ((List.range' 1 (2 * L)).map (fun (n : ℕ) => (n : ℤ)) ::
      chainL ((List.range' 1 L).map fun (n : ℕ) => (L + n : ℤ))
        ((2 * L + 1 : ℤ) :: (List.range' 2 (L - 1)).map (fun (n : ℕ) => (3 * L + n : ℤ)) ++ [(3 * L + 1 : ℤ)])) := by
  have h1 := linksOp_eq hL
  have h2 : FMPS.linksOp L = FMPS.linksOp L := rfl
  conv_rhs at h2 => unfold FMPS.linksOp
  rw [h2] at h1
  have := (List.append_inj' h1 (by rw [chainL_length (by simp; omega)]; simp)).2
  rw [h2, this, List.append_assoc]
  rfl

theorem endOf_range' : ∀ (a n : ℕ), endOf a (List.range' (a + 1) n) = a + n
  | a, 0 => rfl
  | a, n + 1 => by
    rw [List.range'_succ, endOf, endOf_range' (a + 1) n]
    omega

theorem range'_cut {L n : ℕ} (hn : n < L) (a : ℕ) : List.range' a L = List.range' a n ++ (a + n) :: List.range' (a + n + 1) (L - n - 1) := by
  obtain ⟨k, rfl⟩ : ∃ k, L = n + (k + 1) := ⟨L - n - 1, by omega⟩
  rw [← List.range'_append, show n + (k + 1) - n - 1 = k by omega, List.range'_succ, one_mul]

/-- the links of `B(n)` -/
theorem fullLinks_eq {L n : ℕ} (hn : n < L) : FMPS.fullLinks L n = .ok
    (chainL ((List.range' 1 n).map fun (k : ℕ) => (k : ℤ)) ((2 * L + 1 : ℤ) :: (List.range' 2 n).map fun (k : ℕ) => (2 * L + k : ℤ)) ++
      ([-1, -2, (n : ℤ) + 1, endOf (2 * L + 1 : ℤ) ((List.range' 2 n).map fun (k : ℕ) => (2 * L + k : ℤ))] ::
        (chainL ((List.range' (n + 2) (L - n - 1)).map fun (k : ℕ) => (k : ℤ)) (-3 :: (List.range' (n + 3) (L - n - 1)).map fun (k : ℕ) => (2 * L + k : ℤ)) ++
          (((List.range' 1 n).map (fun (k : ℕ) => (k : ℤ)) ++ ((n : ℤ) + 1) :: (List.range' (n + 2) (L - n - 1)).map (fun (k : ℕ) => (k : ℤ)) ++
            (List.range' 1 L).map fun (k : ℕ) => (L + k : ℤ)) ::
            chainL ((List.range' 1 L).map fun (k : ℕ) => (L + k : ℤ)) ((2 * L + 1 : ℤ) :: (List.range' 2 (L - 1)).map (fun (k : ℕ) => (3 * L + k : ℤ)) ++
              [endOf (-3) ((List.range' (n + 3) (L - n - 1)).map fun (k : ℕ) => (2 * L + k : ℤ))]))))) := by
  have hend : endOf (2 * L + 1 : ℤ) ((List.range' 2 n).map fun (k : ℕ) => (2 * L + k : ℤ)) = 2 * L + (n + 1) := by
    have := endOf_map (fun k : ℕ => (2 * L + k : ℤ)) 1 (List.range' 2 n)
    rw [endOf_range' 1 n] at this
    simp only [Nat.cast_add, Nat.cast_one] at this
    rw [this]
    ring
  have hphys : (List.range' 1 (2 * L)).map (fun (k : ℕ) => (k : ℤ)) =
      (List.range' 1 n).map (fun (k : ℕ) => (k : ℤ)) ++ ((n : ℤ) + 1) :: (List.range' (n + 2) (L - n - 1)).map (fun (k : ℕ) => (k : ℤ)) ++
            (List.range' 1 L).map fun (k : ℕ) => (L + k : ℤ) := by
    rw [two_mul, ← List.range'_append, List.map_append, range'_cut hn 1, List.map_append, List.map_cons]
    congr 1
    · rw [show 1 + n = n + 1 by omega]
      simp
    · rw [← range'_cut hn 1, show 1 + 1 * L = L + 1 by omega, ← List.map_add_range', List.map_map]
      refine List.map_congr_left fun k _ => ?_
      simp
  have hM1 := chainL_map (fun k : ℕ => (k : ℤ)) (fun k : ℕ => (2 * L + k : ℤ)) n 1
  rw [List.range'_succ (n := n), List.map_cons, show (2 * (L : ℤ) + ((1 : ℕ) : ℤ)) = 2 * L + 1 by simp] at hM1
  have hg : (fun k : ℕ => [(k : ℤ), 2 * L + k, 2 * L + ((k + 1 : ℕ) : ℤ)]) = fun k : ℕ => [(k : ℤ), 2 * L + k, 2 * L + k + 1] := by
    funext k
    push_cast
    rw [add_assoc]
  rw [hg] at hM1
  unfold FMPS.fullLinks
  rw [linksOp_parts (by omega), range'_cut hn 1, List.map_append, List.map_cons, List.append_assoc, List.cons_append, ← range'_cut hn 1, hM1, hphys, hend]
  have hl1 : (chainL ((List.range' 1 n).map fun (k : ℕ) => (k : ℤ)) ((2 * L + 1 : ℤ) :: (List.range' 2 n).map fun (k : ℕ) => (2 * L + k : ℤ))).length = n := by
    rw [chainL_length (by simp)]
    simp
  dsimp only
  rw [pyGet_mid _ _ _ hl1, ok_bind, set_mid _ _ _ _ hl1]
  set X := chainL ((List.range' 1 n).map fun (k : ℕ) => (k : ℤ)) ((2 * L + 1 : ℤ) :: (List.range' 2 n).map fun (k : ℕ) => (2 * L + k : ℤ))
  have hfirst : [-1, -2] ++ [((1 + n : ℕ) : ℤ), 2 * (L : ℤ) + ((1 + n : ℕ) : ℤ), 2 * (L : ℤ) + ((1 + n : ℕ) : ℤ) + 1].take 2 = [-1, -2, (n : ℤ) + 1, 2 * L + (n + 1)] := by
    simp only [List.take, List.cons_append, List.nil_append]
    push_cast
    rw [add_comm (1 : ℤ)]
  rw [hfirst]
  by_cases hnL : n = L - 1
  · rw [if_pos hnL]
    obtain rfl : L = n + 1 := by omega
    rw [show n + 1 - n - 1 = 0 by omega]
    simp only [List.range'_zero, List.map_nil, List.nil_append, endOf, chainL]
    obtain ⟨bs, b, hb⟩ : ∃ bs b, (2 * ((n + 1 : ℕ) : ℤ) + 1) :: (List.range' 2 (n + 1 - 1)).map (fun (k : ℕ) => (3 * ((n + 1 : ℕ) : ℤ) + k : ℤ)) = bs ++ [b] := by
      rcases List.eq_nil_or_concat ((2 * ((n + 1 : ℕ) : ℤ) + 1) :: (List.range' 2 (n + 1 - 1)).map (fun (k : ℕ) => (3 * ((n + 1 : ℕ) : ℤ) + k : ℤ))) with h | ⟨bs, b, h⟩
      · simp at h
      · exact ⟨bs, b, by rw [h]; simp⟩
    have hbl : bs.length = n := by
      have := congrArg List.length hb
      simp at this
      omega
    have hT : (List.range' 1 (n + 1)).map (fun (k : ℕ) => (((n + 1 : ℕ) : ℤ) + k : ℤ)) = (List.range' 1 n).map (fun (k : ℕ) => (((n + 1 : ℕ) : ℤ) + k : ℤ)) ++ [((n + 1 : ℕ) : ℤ) + ((1 + n : ℕ) : ℤ)] := by
      rw [List.range'_1_concat, List.map_append]
      rfl
    rw [hb, hT, List.append_assoc bs [b], List.append_assoc bs [b], List.singleton_append, List.singleton_append,
      chainL_snoc _ _ _ _ _ (by simp [hbl]), chainL_snoc _ _ _ _ _ (by simp [hbl])]
    set Y := chainL ((List.range' 1 n).map (fun (k : ℕ) => (((n + 1 : ℕ) : ℤ) + k : ℤ))) (bs ++ [b])
    simp only [← List.cons_append, ← List.append_assoc]
    rw [pyLast_snoc, ok_bind, set_mid _ _ _ _ (by simp)]
    simp
  · rw [if_neg hnL]
    obtain ⟨k, hk⟩ : ∃ k, L - n - 1 = k + 1 := ⟨L - n - 2, by omega⟩
    rw [hk, List.range'_succ, List.map_cons, List.cons_append]
    have h1 : ∀ (a b : List ℤ) (Y : List (List ℤ)), pyGet (X ++ a :: b :: Y) (n + 1) = .ok b := by
      intro a b Y
      rw [show X ++ a :: b :: Y = (X ++ [a]) ++ b :: Y by simp]
      exact pyGet_mid _ _ _ (by simp [hl1])
    have h2 : ∀ (a b b' : List ℤ) (Y : List (List ℤ)), (X ++ a :: b :: Y).set (n + 1) b' = X ++ a :: b' :: Y := by
      intro a b b' Y
      rw [show X ++ a :: b :: Y = (X ++ [a]) ++ b :: Y by simp, set_mid _ _ _ _ (by simp [hl1])]
      simp
    rw [h1, ok_bind]
    simp only [pyGet, List.getElem?_cons_zero, List.getElem?_cons_succ]
    rw [ok_bind, ok_bind, h2]
    have hM2 := chainL_map (fun k : ℕ => (k : ℤ)) (fun k : ℕ => (2 * L + k : ℤ)) k (n + 3)
    rw [hg] at hM2
    have hbk : endOf (-3) ((List.range' (n + 3) (k + 1)).map fun (k : ℕ) => (2 * L + k : ℤ)) = 3 * L + 1 := by
      rw [List.range'_succ, List.map_cons, endOf]
      have := endOf_map (fun k : ℕ => (2 * L + k : ℤ)) (n + 3) (List.range' (n + 3 + 1) k)
      rw [endOf_range' (n + 3) k] at this
      rw [this]
      omega
    rw [hbk]
    have hS2 : chainL ((List.range' (n + 2) (k + 1)).map fun (k : ℕ) => (k : ℤ)) (-3 :: (List.range' (n + 3) (k + 1)).map fun (k : ℕ) => (2 * L + k : ℤ)) =
        [((1 + n + 1 : ℕ) : ℤ), -3, 2 * (L : ℤ) + ((1 + n + 1 : ℕ) : ℤ) + 1] ::
          (List.range' (1 + n + 1 + 1) k).map (fun (n : ℕ) => [(n : ℤ), 2 * L + n, 2 * L + n + 1]) := by
      rw [show 1 + n + 1 + 1 = n + 3 by omega, hM2, List.range'_succ, List.range'_succ (s := n + 3), List.map_cons, List.map_cons, chainL]
      congr 1
      simp only [List.cons.injEq, and_true, true_and]
      push_cast
      constructor <;> ring
    rw [hS2]
    rfl

end Xmps
