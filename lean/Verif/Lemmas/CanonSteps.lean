import Verif.Lemmas.OrthoSweeps
import Verif.Model.Canonicalise

/-! # One step of the SVD sweeps -/

namespace Xmps

open Finset Xmps.Spec

section
variable {K : Type}

theorem catRows_ok {A : ND K} {d l r : ℕ} (hA : A.shape = [d, l, r]) (hd : 0 < d) :
    ∃ M, catRows A = .ok M ∧ M.shape = [d * l, r] ∧
      ∀ s a c, a < l → M.val [s * l + a, c] = A.val [s, a, c] := by
  obtain ⟨d, rfl⟩ : ∃ e, d = e + 1 := ⟨d - 1, by omega⟩
  refine ⟨_, by simp [catRows, hA]; rfl, rfl, ?_⟩
  intro s a c ha
  have h1 : (s * l + a) / l = s := by
    rw [Nat.add_comm, Nat.add_mul_div_right _ _ (by omega), Nat.div_eq_of_lt ha, Nat.zero_add]
  have h2 : (s * l + a) % l = a := by rw [Nat.add_comm, Nat.add_mul_mod_self_right, Nat.mod_eq_of_lt ha]
  simp [h1, h2]

theorem catCols_ok {A : ND K} {d l r : ℕ} (hA : A.shape = [d, l, r]) (hd : 0 < d) :
    ∃ M, catCols A = .ok M ∧ M.shape = [l, d * r] ∧
      ∀ s a c, c < r → M.val [a, s * r + c] = A.val [s, a, c] := by
  obtain ⟨d, rfl⟩ : ∃ e, d = e + 1 := ⟨d - 1, by omega⟩
  refine ⟨_, by simp [catCols, hA]; rfl, rfl, ?_⟩
  intro s a c hc
  have h1 : (s * r + c) / r = s := by
    rw [Nat.add_comm, Nat.add_mul_div_right _ _ (by omega), Nat.div_eq_of_lt hc, Nat.zero_add]
  have h2 : (s * r + c) % r = c := by rw [Nat.add_comm, Nat.add_mul_mod_self_right, Nat.mod_eq_of_lt hc]
  simp [h1, h2]

theorem chopRows_ok {M : ND K} {d l n : ℕ} (hM : M.shape = [d * l, n]) (hd : 0 < d) :
    ∃ A, chopRows M d = .ok A ∧ A.shape = [d, l, n] ∧ ∀ s a c, A.val [s, a, c] = M.val [s * l + a, c] := by
  have e : d * l / d = l := Nat.mul_div_cancel_left _ hd
  refine ⟨⟨[d, d * l / d, n], fun
      | [s, a, c] => M.val [s * (d * l / d) + a, c]
      | idx => M.val idx⟩, ?_, by simp [e], ?_⟩
  · simp [chopRows, hM, hd.ne']
    rfl
  · intro s a c
    simp [e]

theorem chopCols_ok {M : ND K} {d m r : ℕ} (hM : M.shape = [m, d * r]) (hd : 0 < d) :
    ∃ A, chopCols M d = .ok A ∧ A.shape = [d, m, r] ∧ ∀ s a c, A.val [s, a, c] = M.val [a, s * r + c] := by
  have e : d * r / d = r := Nat.mul_div_cancel_left _ hd
  refine ⟨⟨[d, m, d * r / d], fun
      | [s, a, c] => M.val [a, s * (d * r / d) + c]
      | idx => M.val idx⟩, ?_, by simp [e], ?_⟩
  · simp [chopCols, hM, hd.ne']
    rfl
  · intro s a c
    simp [e]

theorem ND.eta {A : ND K} {sh : List ℕ} (h : A.shape = sh) : (⟨sh, A.val⟩ : ND K) = A := by
  subst h; rfl

theorem truncateA_ok [Zero K] {A S V : ND K} {d l n r : ℕ} (hA : A.shape = [d, l, n]) (hS : S.shape = [n, n])
    (hV : V.shape = [n, r]) (D : Option ℕ) (minD : Bool) :
    ∃ k ≤ n, truncateA A S V D minD = (⟨[d, l, k], A.val⟩, ⟨[k, k], S.val⟩, ⟨[k, r], V.val⟩) ∧
      (∀ D0, D = some D0 → k = min D0 n) ∧ (D = none → minD = false → k = n) ∧
      (D = none → minD = true → k = min (diagRank S) n) := by
  match D, minD with
  | none, false => exact ⟨n, le_rfl, by simp [truncateA, ND.eta hA, ND.eta hS, ND.eta hV], by simp, by simp, by simp⟩
  | none, true => exact ⟨min (diagRank S) n, by omega, by simp [truncateA, ND.head, hA, hS, hV, ND.dim], by simp, by simp, by simp⟩
  | some D, _ => exact ⟨min D n, by omega, by simp [truncateA, ND.head, hA, hS, hV, ND.dim], by simp, by simp, by simp⟩

theorem truncateB_ok [Zero K] {U S B : ND K} {d l n r : ℕ} (hU : U.shape = [l, n]) (hS : S.shape = [n, n])
    (hB : B.shape = [d, n, r]) (D : Option ℕ) (minD : Bool) :
    ∃ k ≤ n, truncateB U S B D minD = (⟨[l, k], U.val⟩, ⟨[k, k], S.val⟩, ⟨[d, k, r], B.val⟩) ∧
      (∀ D0, D = some D0 → k = min D0 n) ∧ (D = none → minD = false → k = n) ∧
      (D = none → minD = true → k = min (diagRank S) n) := by
  match D, minD with
  | none, false => exact ⟨n, le_rfl, by simp [truncateB, ND.eta hU, ND.eta hS, ND.eta hB], by simp, by simp, by simp⟩
  | none, true => exact ⟨min (diagRank S) n, by omega, by simp [truncateB, ND.head, hU, hS, hB, ND.dim], by simp, by simp, by simp⟩
  | some D, _ => exact ⟨min D n, by omega, by simp [truncateB, ND.head, hU, hS, hB, ND.dim], by simp, by simp, by simp⟩

end

/-- a downward closed set of numbers below `n` is an initial segment -/
theorem filter_range_card (P : ℕ → Prop) [DecidablePred P] (h : ∀ i j, i < j → P j → P i) : ∀ n,
    (range n).filter P = range ((range n).filter P).card
  | 0 => by simp
  | n + 1 => by
    by_cases hn : P n
    · have : (range (n + 1)).filter P = range (n + 1) := by
        rw [Finset.filter_true_of_mem]
        intro i hi
        rcases Nat.lt_or_eq_of_le (Nat.lt_succ_iff.1 (by simpa using hi)) with hi | rfl
        · exact h i n hi hn
        · exact hn
      rw [this, card_range]
    · have : (range (n + 1)).filter P = (range n).filter P := by
        rw [Finset.range_add_one, Finset.filter_insert, if_neg hn]
      rw [this]
      exact filter_range_card P h n

/-- where the non-zero diagonal entries come first, those past the rank vanish and those before do not -/
theorem diagRank_spec {w : List ℂ} (h : ∀ i j, i < j → w.getD i 0 = 0 → w.getD j 0 = 0) :
    diagRank (diagND w) ≤ w.length ∧ (∀ i < diagRank (diagND w), w.getD i 0 ≠ 0) ∧
      ∀ i, diagRank (diagND w) ≤ i → w.getD i 0 = 0 := by
  classical
  have e : diagRank (diagND w) = ((range w.length).filter fun i => w.getD i 0 ≠ 0).card := by
    unfold diagRank
    have : min ((diagND w).dim 0) ((diagND w).dim 1) = w.length := by simp [diagND, ND.dim]
    rw [this]
    congr 1
    refine Finset.filter_congr_decidable _ _ _ |>.trans ?_
    refine Finset.filter_congr fun i _ => ?_
    simp [diagND]
  have hf := filter_range_card (fun i => w.getD i 0 ≠ 0) (fun i j hij hj h0 => hj (h i j hij h0)) w.length
  rw [← e] at hf
  refine ⟨?_, ?_, ?_⟩
  · rw [e]
    exact (Finset.card_filter_le _ _).trans (by simp)
  · intro i hi
    have : i ∈ (range w.length).filter fun i => w.getD i 0 ≠ 0 := by rw [hf]; simpa using hi
    exact (Finset.mem_filter.1 this).2
  · intro i hi
    by_contra h0
    have hl : i < w.length := by
      by_contra hl
      exact h0 (by rw [List.getD_eq_default _ _ (by omega)])
    have : i ∈ (range w.length).filter fun i => w.getD i 0 ≠ 0 := Finset.mem_filter.2 ⟨by simpa using hl, h0⟩
    rw [hf] at this
    simp at this
    omega

theorem diagC_val (S : List ℝ) (i j : ℕ) : (diagC S).val [i, j] = if i = j then ((S.getD i 0 : ℝ) : ℂ) else 0 := by
  simp only [diagC, diagND]
  split
  · by_cases h : i < S.length
    · simp [h]
    · simp [h]
  · rfl

theorem diagC_shape (S : List ℝ) : (diagC S).shape = [S.length, S.length] := by simp [diagC, diagND]

theorem diagC_rank {S : List ℝ} (hpos : ∀ x ∈ S, 0 ≤ x) (hs : S.Pairwise (· ≥ ·)) :
    diagRank (diagC S) ≤ S.length ∧ ∀ i, diagRank (diagC S) ≤ i → S.getD i 0 = 0 := by
  have := diagRank_spec (w := S.map Complex.ofReal) ?_
  · refine ⟨by simpa [diagC] using this.1, fun i hi => ?_⟩
    have h := this.2.2 i hi
    by_cases hl : i < S.length
    · simpa [hl] using h
    · simp [hl]
  · intro i j hij h0
    by_cases hj : j < S.length
    · have hi : i < S.length := by omega
      simp [hi, hj] at h0 ⊢
      have h1 := List.pairwise_iff_getElem.1 hs i j hi hj hij
      have h2 := hpos S[j] (List.getElem_mem hj)
      linarith
    · simp [hj]

/-- The SVD step at one site, left sweep. -/
theorem svd_site_left {svd : Svd} (hsvd : SVDLaw svd) {T : ND ℂ} {d l r : ℕ} (hT : T.shape = [d, l, r])
    (hd : 0 < d) (hl : 0 < l) (hr : 0 < r) (D : Option ℕ) (minD : Bool) :
    ∃ M U S V A A' S' V' SV k, catRows T = .ok M ∧ svd M = .ok (U, S, V) ∧ chopRows U d = .ok A ∧
      truncateA A (diagC S) V D minD = (A', S', V') ∧ S'.matmul V' = .ok SV ∧
      A'.shape = [d, l, k] ∧ SV.shape = [k, r] ∧ LeftIso A' ∧ k ≤ min (d * l) r ∧
      (∀ e < k, ∀ c < r, SV.val [e, c] = ∑ s ∈ range d, ∑ a ∈ range l, star (A'.val [s, a, e]) * T.val [s, a, c]) ∧
      (D = none → ∀ s < d, ∀ a < l, ∀ c < r, T.val [s, a, c] = ∑ e ∈ range k, A'.val [s, a, e] * SV.val [e, c]) ∧
      (∀ D0, D = some D0 → k = min D0 (min (d * l) r)) ∧ (D = none → minD = false → k = min (d * l) r) := by
  obtain ⟨M, hM, hMs, hMv⟩ := catRows_ok hT hd
  obtain ⟨U, S, V, hU, hUs, hSl, hVs, hoU, hoV, hpos, hsort, hv⟩ := hsvd M (d * l) r hMs (Nat.mul_pos hd hl) hr
  obtain ⟨A, hA, hAs, hAv⟩ := chopRows_ok hUs hd
  have hSs : (diagC S).shape = [min (d * l) r, min (d * l) r] := by rw [diagC_shape, hSl]
  obtain ⟨k, hk, htr, hD1, hD2, hD3⟩ := truncateA_ok hAs hSs hVs D minD
  obtain ⟨SV, hSV, hSVs, hSVv⟩ := ND.matmul22 (A := ⟨[k, k], (diagC S).val⟩) (B := ⟨[k, r], V.val⟩) rfl rfl
  have hSVv' : ∀ e < k, ∀ c, SV.val [e, c] = (S.getD e 0 : ℝ) * V.val [e, c] := by
    intro e he c
    rw [hSVv]
    simp only [diagC_val, ite_mul, zero_mul]
    simp [he]
  have h0 : U.dim 0 = d * l := by simp [ND.dim, hUs]
  have h1 : U.dim 1 = min (d * l) r := by simp [ND.dim, hUs]
  have hlt : ∀ s < d, ∀ a < l, s * l + a < d * l := by
    intro s hs a ha
    calc s * l + a < s * l + l := by omega
      _ = (s + 1) * l := by ring
      _ ≤ d * l := Nat.mul_le_mul_right _ hs
  refine ⟨M, U, S, V, A, _, _, _, SV, k, hM, hU, hA, htr, hSV, rfl, hSVs, ?_, hk, ?_, ?_, hD1, hD2⟩
  · intro c hc c' hc'
    simp only [ND.dim, List.getD_cons_succ, List.getD_cons_zero] at hc hc' ⊢
    rw [← hoU c (by omega) c' (by omega), h0, sum_range_mul]
    refine Finset.sum_congr rfl fun s _ => Finset.sum_congr rfl fun a _ => ?_
    rw [hAv, hAv]
  · intro e he c hc
    rw [hSVv' e he]
    have e1 : ∑ i ∈ range (d * l), star (U.val [i, e]) * M.val [i, c] = (S.getD e 0 : ℝ) * V.val [e, c] := by
      rw [Finset.sum_congr rfl fun i hi => by rw [hv i (by simpa using hi) c hc, Finset.mul_sum]]
      rw [Finset.sum_comm]
      rw [Finset.sum_congr rfl fun f hf => show _ = if e = f then (S.getD e 0 : ℝ) * V.val [e, c] else 0 by
        have := hoU e (by omega) f (by rw [h1]; simpa using hf)
        rw [h0] at this
        rw [Finset.sum_congr rfl fun i _ => show _ = (star (U.val [i, e]) * U.val [i, f]) * ((S.getD f 0 : ℝ) * V.val [f, c]) by ring]
        rw [← Finset.sum_mul, this]
        split
        · next h => rw [h, one_mul]
        · simp]
      rw [Finset.sum_ite_eq, if_pos (by simp; omega)]
    rw [← e1, sum_range_mul]
    refine Finset.sum_congr rfl fun s _ => Finset.sum_congr rfl fun a ha => ?_
    rw [hAv, hMv _ _ _ (by simpa using ha)]
  · intro hD s hs a ha c hc
    rw [← hMv s a c ha, hv _ (hlt s hs a ha) c hc]
    have hz : ∀ e, k ≤ e → e < min (d * l) r → S.getD e 0 = 0 := by
      intro e he he'
      cases minD with
      | false => have := hD2 hD rfl; omega
      | true =>
        have := hD3 hD rfl
        have hr := diagC_rank hpos hsort
        exact hr.2 e (by rw [hSl] at hr; omega)
    rw [← Finset.sum_subset (Finset.range_mono hk) (fun e he he' => by
      rw [hz e (by simpa using he') (by simpa using he)]; simp)]
    refine Finset.sum_congr rfl fun e he => ?_
    rw [hAv, hSVv' e (by simpa using he)]
    ring

/-- The SVD step at one site, right sweep. -/
theorem svd_site_right {svd : Svd} (hsvd : SVDLaw svd) {T : ND ℂ} {d l r : ℕ} (hT : T.shape = [d, l, r])
    (hd : 0 < d) (hl : 0 < l) (hr : 0 < r) (D : Option ℕ) (minD : Bool) :
    ∃ M U S V B U' S' B' k, catCols T = .ok M ∧ svd M = .ok (U, S, V) ∧ chopCols V d = .ok B ∧
      truncateB U (diagC S) B D minD = (U', S', B') ∧ U'.shape = [l, k] ∧ S'.shape = [k, k] ∧
      B'.shape = [d, k, r] ∧ RightIso B' ∧ k ≤ min l (d * r) ∧
      (∀ e < k, ∀ a < l, (∑ f ∈ range k, U'.val [a, f] * S'.val [f, e]) =
        ∑ s ∈ range d, ∑ c ∈ range r, T.val [s, a, c] * star (B'.val [s, e, c])) ∧
      (D = none → ∀ s < d, ∀ a < l, ∀ c < r, T.val [s, a, c] =
        ∑ e ∈ range k, (∑ f ∈ range k, U'.val [a, f] * S'.val [f, e]) * B'.val [s, e, c]) ∧
      (∀ D0, D = some D0 → k = min D0 (min l (d * r))) ∧ (D = none → minD = false → k = min l (d * r)) := by
  obtain ⟨M, hM, hMs, hMv⟩ := catCols_ok hT hd
  obtain ⟨U, S, V, hU, hUs, hSl, hVs, hoU, hoV, hpos, hsort, hv⟩ := hsvd M l (d * r) hMs hl (Nat.mul_pos hd hr)
  obtain ⟨B, hB, hBs, hBv⟩ := chopCols_ok hVs hd
  have hSs : (diagC S).shape = [min l (d * r), min l (d * r)] := by rw [diagC_shape, hSl]
  obtain ⟨k, hk, htr, hD1, hD2, hD3⟩ := truncateB_ok hUs hSs hBs D minD
  have h0 : V.dim 0 = min l (d * r) := by simp [ND.dim, hVs]
  have h1 : V.dim 1 = d * r := by simp [ND.dim, hVs]
  have hlt : ∀ s < d, ∀ a < r, s * r + a < d * r := by
    intro s hs a ha
    calc s * r + a < s * r + r := by omega
      _ = (s + 1) * r := by ring
      _ ≤ d * r := Nat.mul_le_mul_right _ hs
  have hUS : ∀ a, ∀ e < k, (∑ f ∈ range k, U.val [a, f] * (diagC S).val [f, e]) = U.val [a, e] * (S.getD e 0 : ℝ) := by
    intro a e he
    simp only [diagC_val, mul_ite, mul_zero]
    simp [he]
  refine ⟨M, U, S, V, B, _, _, _, k, hM, hU, hB, htr, rfl, rfl, rfl, ?_, hk, ?_, ?_, hD1, hD2⟩
  · intro c hc c' hc'
    simp only [ND.dim, List.getD_cons_succ, List.getD_cons_zero] at hc hc' ⊢
    rw [← hoV c (by omega) c' (by omega), h1, sum_range_mul]
    refine Finset.sum_congr rfl fun s _ => Finset.sum_congr rfl fun a _ => ?_
    rw [hBv, hBv]
  · intro e he a ha
    rw [hUS a e he]
    have e1 : ∑ j ∈ range (d * r), M.val [a, j] * star (V.val [e, j]) = U.val [a, e] * (S.getD e 0 : ℝ) := by
      rw [Finset.sum_congr rfl fun j hj => by rw [hv a ha j (by simpa using hj), Finset.sum_mul]]
      rw [Finset.sum_comm]
      rw [Finset.sum_congr rfl fun f hf => show _ = if f = e then U.val [a, e] * (S.getD e 0 : ℝ) else 0 by
        have := hoV f (by rw [h0]; simpa using hf) e (by omega)
        rw [h1] at this
        rw [Finset.sum_congr rfl fun j _ => show _ = (U.val [a, f] * (S.getD f 0 : ℝ)) * (V.val [f, j] * star (V.val [e, j])) by ring]
        rw [← Finset.mul_sum, this]
        split
        · next h => rw [h, mul_one]
        · simp]
      rw [Finset.sum_ite_eq', if_pos (by simp; omega)]
    rw [← e1, sum_range_mul]
    refine Finset.sum_congr rfl fun s _ => Finset.sum_congr rfl fun c hc => ?_
    rw [hBv, hMv _ _ _ (by simpa using hc)]
  · intro hD s hs a ha c hc
    rw [← hMv s a c hc, hv a ha _ (hlt s hs c hc)]
    have hz : ∀ e, k ≤ e → e < min l (d * r) → S.getD e 0 = 0 := by
      intro e he he'
      cases minD with
      | false => have := hD2 hD rfl; omega
      | true =>
        have := hD3 hD rfl
        have hr := diagC_rank hpos hsort
        exact hr.2 e (by rw [hSl] at hr; omega)
    rw [← Finset.sum_subset (Finset.range_mono hk) (fun e he he' => by
      rw [hz e (by simpa using he') (by simpa using he)]; simp)]
    refine Finset.sum_congr rfl fun e he => ?_
    rw [hUS a e (by simpa using he), hBv]

end Xmps
