import Verif.Lemmas.PepsWalk

/-!
# Contracting a chain of doubled tensors from both ends

`W j l l' r r'`: entry of the `j`-th doubled tensor for the bonds `l, r` of one layer and `l', r'` of the other.
-/

namespace Xmps.FPEPS

open Finset Spec

section
variable {α : Type} [DecidableEq α]

theorem sum_pairs_delta (S : Finset α) (F G : α × α → ℂ) (k : ℂ) (h : ∀ a ∈ S, ∀ b ∈ S, G (a, b) = if a = b then k else 0) :
    ∑ z ∈ S ×ˢ S, F z * G z = (∑ r ∈ S, F (r, r)) * k := by
  rw [Finset.sum_product, sum_mul]
  refine sum_congr rfl fun a ha => ?_
  rw [sum_eq_single_of_mem a ha]
  · rw [h a ha a ha, if_pos rfl]
  · intro b hb hne
    rw [h a ha b hb, if_neg (Ne.symm hne), mul_zero]

theorem walk_right : ∀ {m : ℕ} (T : Fin m → α × α → α × α → ℂ) (S : Fin (m + 1) → Finset α) (D : Fin m → ℂ) (x1 : α),
    S (Fin.last m) = {x1} →
    (∀ j, ∀ l ∈ S j.castSucc, ∀ l' ∈ S j.castSucc, ∑ r ∈ S j.succ, T j (l, l') (r, r) = if l = l' then D j else 0) →
    ∀ l ∈ S 0, ∀ l' ∈ S 0,
      walk (List.ofFn fun j : Fin m => (T j, S j.succ ×ˢ S j.succ)) (l, l') = if l = l' then ∏ j, D j else 0
  | 0, T, S, D, x1, h1, _, l, hl, l', hl' => by
    have e : S 0 = {x1} := h1
    rw [e, mem_singleton] at hl hl'
    subst hl hl'
    simp [walk]
  | m + 1, T, S, D, x1, h1, h2, l, hl, l', hl' => by
    have ih := walk_right (fun j : Fin m => T j.succ) (fun j => S j.succ) (fun j => D j.succ) x1 h1
      fun j l hl l' hl' => h2 j.succ l hl l' hl'
    rw [List.ofFn_succ]
    show ∑ z ∈ S (Fin.succ 0) ×ˢ S (Fin.succ 0), T 0 (l, l') z * walk (List.ofFn fun j : Fin m => (T j.succ, S j.succ.succ ×ˢ S j.succ.succ)) z = _
    rw [sum_pairs_delta _ _ _ _ ih, h2 0 l hl l' hl', Fin.prod_univ_succ]
    split_ifs <;> simp

theorem walk_left : ∀ {m : ℕ} (T : Fin m → α × α → α × α → ℂ) (S : Fin (m + 1) → Finset α) (D : Fin m → ℂ) (x1 : α) (c : Fin m),
    S (Fin.last m) = {x1} →
    (∀ j, c < j → ∀ l ∈ S j.castSucc, ∀ l' ∈ S j.castSucc, ∑ r ∈ S j.succ, T j (l, l') (r, r) = if l = l' then D j else 0) →
    (∀ j, j < c → ∀ r ∈ S j.succ, ∀ r' ∈ S j.succ, ∑ l ∈ S j.castSucc, T j (l, l) (r, r') = if r = r' then D j else 0) →
    ∑ l ∈ S 0, walk (List.ofFn fun j : Fin m => (T j, S j.succ ×ˢ S j.succ)) (l, l) =
      (∏ j, if j = c then 1 else D j) * ∑ l ∈ S c.castSucc, ∑ r ∈ S c.succ, T c (l, l) (r, r)
  | 0, _, _, _, _, c, _, _, _ => c.elim0
  | m + 1, T, S, D, x1, c, h1, h2, h3 => by
    rw [List.ofFn_succ]
    show ∑ l ∈ S 0, ∑ z ∈ S (Fin.succ 0) ×ˢ S (Fin.succ 0), T 0 (l, l) z * walk (List.ofFn fun j : Fin m => (T j.succ, S j.succ.succ ×ˢ S j.succ.succ)) z = _
    rcases Fin.eq_zero_or_eq_succ c with rfl | ⟨c, rfl⟩
    · have hr := walk_right (fun j : Fin m => T j.succ) (fun j => S j.succ) (fun j => D j.succ) x1 h1
        fun j l hl l' hl' => h2 j.succ (Fin.succ_pos _) l hl l' hl'
      rw [mul_sum]
      refine sum_congr rfl fun l _ => ?_
      rw [sum_pairs_delta _ _ _ _ hr, Fin.prod_univ_succ, mul_comm]
      simp
    · have ih := walk_left (fun j : Fin m => T j.succ) (fun j => S j.succ) (fun j => D j.succ) x1 c h1
        (fun j hj l hl l' hl' => h2 j.succ (Fin.succ_lt_succ_iff.2 hj) l hl l' hl')
        (fun j hj r hr r' hr' => h3 j.succ (Fin.succ_lt_succ_iff.2 hj) r hr r' hr')
      rw [sum_comm, sum_congr rfl fun z _ => by rw [← sum_mul, mul_comm],
        sum_pairs_delta _ _ (fun z => ∑ l ∈ S 0, T 0 (l, l) z) (D 0) fun a ha b hb => h3 0 (Fin.succ_pos _) a ha b hb, ih, Fin.prod_univ_succ,
        if_neg (Fin.succ_ne_zero _).symm, mul_comm, mul_assoc]
      simp only [Fin.succ_inj]
      rfl

theorem sum_piFinset_pairs {m : ℕ} (S : Fin m → Finset α) (F : (Fin m → α × α) → ℂ) :
    ∑ p ∈ Fintype.piFinset (fun j => S j ×ˢ S j), F p = ∑ b ∈ Fintype.piFinset S, ∑ b' ∈ Fintype.piFinset S, F fun j => (b j, b' j) := by
  rw [← Finset.sum_product']
  refine Finset.sum_nbij' (fun p => (fun j => (p j).1, fun j => (p j).2)) (fun q j => (q.1 j, q.2 j)) ?_ ?_ ?_ ?_ ?_
  · intro p hp
    simp only [Fintype.mem_piFinset, mem_product] at hp ⊢
    exact ⟨fun j => (hp j).1, fun j => (hp j).2⟩
  · intro q hq
    simp only [Fintype.mem_piFinset, mem_product] at hq ⊢
    exact fun j => ⟨hq.1 j, hq.2 j⟩
  · intro p _; rfl
  · intro q _; rfl
  · intro p _; rfl

/-- the doubled chain contracted from both ends onto the tensor in the middle -/
theorem sandwich {m : ℕ} (W : Fin m → α → α → α → α → ℂ) (S : Fin (m + 1) → Finset α) (D : Fin m → ℂ) (x0 x1 : α) (c : Fin m)
    (h0 : S 0 = {x0}) (h1 : S (Fin.last m) = {x1})
    (hr : ∀ j, c < j → ∀ l ∈ S j.castSucc, ∀ l' ∈ S j.castSucc, ∑ r ∈ S j.succ, W j l l' r r = if l = l' then D j else 0)
    (hl : ∀ j, j < c → ∀ r ∈ S j.succ, ∀ r' ∈ S j.succ, ∑ l ∈ S j.castSucc, W j l l r r' = if r = r' then D j else 0) :
    ∑ b ∈ Fintype.piFinset S, ∑ b' ∈ Fintype.piFinset S, ∏ j, W j (b j.castSucc) (b' j.castSucc) (b j.succ) (b' j.succ) =
      (∏ j, if j = c then 1 else D j) * ∑ l ∈ S c.castSucc, ∑ r ∈ S c.succ, W c l l r r := by
  have k := walk_left (fun j p q => W j p.1 p.2 q.1 q.2) S D x1 c h1 hr hl
  have w := walk_path (fun j p q => W j p.1 p.2 q.1 q.2) (fun j => S j ×ˢ S j)
  rw [sum_piFinset_pairs] at w
  refine w.trans (Eq.trans ?_ k)
  simp [h0]

end

end Xmps.FPEPS
