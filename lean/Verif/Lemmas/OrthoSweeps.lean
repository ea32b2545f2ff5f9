import Verif.Lemmas.OrthoSteps

/-! # The orthogonalisation sweeps -/

namespace Xmps

open Finset Xmps.Spec

variable {K : Type} [CommSemiring K] [StarRing K]

omit [CommSemiring K] [StarRing K] in
theorem PosDims.cons {A : ND K} {As : List (ND K)} : PosDims (A :: As) ↔ (∀ n ∈ A.shape, 0 < n) ∧ PosDims As := by
  simp [PosDims]

omit [CommSemiring K] [StarRing K] in
theorem PosDims.append {As Bs : List (ND K)} : PosDims (As ++ Bs) ↔ PosDims As ∧ PosDims Bs := by
  simp only [PosDims, List.mem_append]
  constructor
  · intro h
    exact ⟨fun A hA => h A (Or.inl hA), fun A hA => h A (Or.inr hA)⟩
  · rintro ⟨h1, h2⟩ A (hA | hA)
    · exact h1 A hA
    · exact h2 A hA

omit [CommSemiring K] [StarRing K] in
theorem posDims3 {A : ND K} {a b c : ℕ} (h : A.shape = [a, b, c]) : (∀ n ∈ A.shape, 0 < n) ↔ 0 < a ∧ 0 < b ∧ 0 < c := by
  simp [h]

/-- `k` steps of `left_orthogonalise` from the head of `rest`, not reaching the last site. -/
theorem left_sweep {qr : ND K → Py (ND K × ND K)} (hqr : QRLaw qr) : ∀ (k : ℕ) (x : FMPS K) (pre rest : List (ND K))
    (ds : List ℕ) (l r : ℕ), x.data = pre ++ rest → x.L = pre.length + rest.length → MpsChain ds rest l r →
    PosDims rest → k < rest.length →
    ∃ qs rest', (List.range' pre.length k).foldlM (FMPS.leftStep qr) x = .ok { x with data := pre ++ (qs ++ rest') } ∧
      qs.length = k ∧ MpsChain ds (qs ++ rest') l r ∧ (∀ A ∈ qs, LeftIso A) ∧ PosDims (qs ++ rest') ∧
      rest'.tail = (rest.drop k).tail ∧
      ∀ ss, InB ds ss → ∀ a < l, ∀ b, amp (qs ++ rest') ss a b = amp rest ss a b
  | 0, x, pre, rest, ds, l, r, hx, hL, hc, hp, hk => by
    refine ⟨[], rest, ?_, rfl, hc, by simp, hp, by simp, fun _ _ _ _ _ => rfl⟩
    simp only [List.range'_zero, List.foldlM_nil, List.nil_append, py_pure, ← hx]
  | k + 1, x, pre, [], ds, l, r, hx, hL, hc, hp, hk => by simp at hk
  | k + 1, x, pre, [A], ds, l, r, hx, hL, hc, hp, hk => by simp at hk
  | k + 1, x, pre, A :: B :: post, [], l, r, hx, hL, hc, hp, hk => by simp at hc
  | k + 1, x, pre, A :: B :: post, [d], l, r, hx, hL, hc, hp, hk => by obtain ⟨_, _, hc⟩ := hc; simp at hc
  | k + 1, x, pre, A :: B :: post, d :: d' :: ds, l, r, hx, hL, hc, hp, hk => by
    obtain ⟨n, hA, m, hB, hc⟩ := hc
    rw [PosDims.cons, PosDims.cons, posDims3 hA, posDims3 hB] at hp
    obtain ⟨⟨hd, hl, hn⟩, ⟨hd', _, hm⟩, hp⟩ := hp
    obtain ⟨A', B', k', hstep, hk0, -, hA', hB', hi, R, h1, h2⟩ :=
      leftStep_mid hqr hx (by simp at hL; omega) hA hB hd hl hn
    have hc' : MpsChain (d' :: ds) (B' :: post) k' r := ⟨m, hB', hc⟩
    obtain ⟨qs, rest', e, hlen, hch, his, hpd, htl, hamp⟩ := left_sweep hqr k { x with data := pre ++ A' :: B' :: post }
      (pre ++ [A']) (B' :: post) (d' :: ds) k' r (by simp) (by simp at hL ⊢; omega) hc'
      (PosDims.cons.2 ⟨(posDims3 hB').2 ⟨hd', hk0, hm⟩, hp⟩) (by simpa using hk)
    refine ⟨A' :: qs, rest', ?_, by simp [hlen], ⟨k', hA', hch⟩, ?_, ?_, ?_, ?_⟩
    · rw [List.range'_succ, List.foldlM_cons, hstep, ok_bind]
      have e2 : (pre ++ [A']).length = pre.length + 1 := by simp
      rw [e2] at e
      rw [e]
      simp
    · intro T hT
      rcases List.mem_cons.1 hT with rfl | hT
      · exact hi
      · exact his T hT
    · exact PosDims.cons.2 ⟨(posDims3 hA').2 ⟨hd, hl, hk0⟩, hpd⟩
    · rw [htl]
      cases k with
      | zero => simp
      | succ k => simp
    · intro ss hs a ha b
      rw [amp_bond hA hB hA' hB' hc h1 h2 hs ha b]
      match ss, hs with
      | s :: ss, hs =>
        simp only [List.cons_append, amp_cons (As := qs ++ rest'), amp_cons (As := B' :: post)]
        refine Finset.sum_congr rfl fun c hc => ?_
        rw [hamp ss hs.2 c (by simpa [dim2 hA'] using hc) b]

/-- `k` steps of `right_orthogonalise` from the end of `rest`, not reaching the first site. -/
theorem right_sweep {rq : ND K → Py (ND K × ND K)} (hrq : RQLaw rq) : ∀ (k : ℕ) (x : FMPS K) (rest post : List (ND K))
    (ds : List ℕ) (l r : ℕ), x.data = rest ++ post → MpsChain ds rest l r →
    PosDims rest → k < rest.length →
    ∃ rest' qs, (List.range' (rest.length - k) k).reverse.foldlM (FMPS.rightStep rq) x =
        .ok { x with data := rest' ++ qs ++ post } ∧
      qs.length = k ∧ MpsChain ds (rest' ++ qs) l r ∧ (∀ A ∈ qs, RightIso A) ∧ PosDims (rest' ++ qs) ∧
      rest'.dropLast = (rest.take (rest.length - k)).dropLast ∧
      ∀ ss, InB ds ss → ∀ a < l, ∀ b, amp (rest' ++ qs) ss a b = amp rest ss a b
  | 0, x, rest, post, ds, l, r, hx, hc, hp, hk => by
    refine ⟨rest, [], ?_, rfl, by simpa using hc, by simp, by simpa using hp, by simp, fun _ _ _ _ _ => by simp⟩
    simp only [List.range'_zero, List.reverse_nil, List.foldlM_nil, List.append_nil, py_pure, ← hx]
  | k + 1, x, rest, post, ds, l, r, hx, hc, hp, hk => by
    obtain ⟨pre, A, B, rfl⟩ : ∃ pre A B, rest = pre ++ [A, B] := by
      rcases List.eq_nil_or_concat rest with rfl | ⟨u, B, rfl⟩
      · simp at hk
      rcases List.eq_nil_or_concat u with rfl | ⟨v, A, rfl⟩
      · simp at hk
      exact ⟨v, A, B, by simp⟩
    obtain ⟨ds0, d, d', rfl, hl0⟩ : ∃ ds0 d d', ds = ds0 ++ [d, d'] ∧ pre.length = ds0.length := by
      have hl := hc.length_eq
      rcases List.eq_nil_or_concat ds with rfl | ⟨u, d', rfl⟩
      · simp at hl
      rcases List.eq_nil_or_concat u with rfl | ⟨v, d, rfl⟩
      · simp at hl
      exact ⟨v, d, d', by simp, by simpa using hl⟩
    obtain ⟨u, hpre, n, hA, m, hB, hmr⟩ := (mpsChain_append hl0).1 hc
    have hmr : m = r := hmr
    subst hmr
    rw [PosDims.append, PosDims.cons, PosDims.cons, posDims3 hA, posDims3 hB] at hp
    obtain ⟨hp0, ⟨hd, hl, hn⟩, ⟨hd', _, hm⟩, _⟩ := hp
    obtain ⟨A', B', k', hstep, hk0, -, hA', hB', hi, R, h1, h2⟩ :=
      rightStep_mid hrq (x := x) (pre := pre) (post := post) (by simp [hx]) hA hB hd' hn hm
    have hc' : MpsChain (ds0 ++ [d]) (pre ++ [A']) l k' := (mpsChain_append hl0).2 ⟨u, hpre, k', hA', rfl⟩
    obtain ⟨rest', qs, e, hlen, hch, his, hpd, htl, hamp⟩ := right_sweep hrq k { x with data := pre ++ A' :: B' :: post }
      (pre ++ [A']) (B' :: post) (ds0 ++ [d]) l k' (by simp) hc'
      (PosDims.append.2 ⟨hp0, PosDims.cons.2 ⟨(posDims3 hA').2 ⟨hd, hl, hk0⟩, by simp [PosDims]⟩⟩) (by simp at hk ⊢; omega)
    have hl1 : (rest' ++ qs).length = (ds0 ++ [d]).length := hch.length_eq
    have hlen0 : (pre ++ [A, B]).length - (k + 1) = (pre ++ [A']).length - k := by simp
    refine ⟨rest', qs ++ [B'], ?_, by simp [hlen], ?_, ?_, ?_, ?_, ?_⟩
    · rw [hlen0, List.range'_concat, List.reverse_append, List.reverse_singleton, List.singleton_append, List.foldlM_cons]
      have e1 : (pre ++ [A']).length - k + 1 * k = pre.length + 1 := by simp at hk ⊢; omega
      rw [e1, hstep, ok_bind, e]
      simp
    · have := (mpsChain_append (ds := ds0 ++ [d]) (As := rest' ++ qs) (ds' := [d']) (As' := [B']) (l := l) (r := m)
        hl1).2 ⟨k', hch, m, hB', rfl⟩
      simpa using this
    · intro T hT
      rcases List.mem_append.1 hT with hT | hT
      · exact his T hT
      · rw [List.mem_singleton.1 hT]; exact hi
    · rw [← List.append_assoc]
      exact PosDims.append.2 ⟨hpd, PosDims.cons.2 ⟨(posDims3 hB').2 ⟨hd', hk0, hm⟩, by simp [PosDims]⟩⟩
    · rw [htl, hlen0]
      rw [List.dropLast_eq_take, List.dropLast_eq_take, List.take_take, List.take_take, List.length_take, List.length_take,
        List.take_append_of_le_length (by simp), List.take_append_of_le_length (by simp)]
      congr 1
      simp
      omega
    · intro ss hs a ha b
      have hs' : InB ((ds0 ++ [d]) ++ [d']) ss := by simpa using hs
      obtain ⟨s1, s2, rfl, hs1, hs2⟩ := hs'.split2
      rw [← List.append_assoc, amp_append hch hs1.length_eq a b ha]
      rw [Finset.sum_congr rfl fun c _ => by rw [hamp s1 hs1 a ha c]]
      rw [← amp_append hc' hs1.length_eq a b ha, List.append_assoc]
      refine amp_prefix (ds1 := ds0) (ds2 := [d, d']) (m := u) hpre ?_ hs ha b
      intro ss hs a ha b
      exact (amp_bond hA' hB' hA hB (ds := []) (post := []) (r' := m) (R := R) rfl h1 h2 hs ha b)
end Xmps
