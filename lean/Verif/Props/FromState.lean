import Verif.Model.FromState
import Verif.Props.ExpectHistory
import Verif.Lemmas.CanonSteps

/-!
# C18: `left_from_state` and `right_from_state`
-/

namespace Xmps

open Finset Spec

/-- the entry at a flat position, column-major -/
def ND.atF (A : ND ℂ) (k : ℕ) : ℂ := A.val (unravelF A.shape k)

/-- the entry at a flat position, row-major -/
def ND.atC (A : ND ℂ) (k : ℕ) : ℂ := A.val (unravel A.shape k)

theorem ravelF_replicate_lt {m d : ℕ} {s : List ℕ} (h : InB (List.replicate m d) s) :
    ravelF (List.replicate m d) s < d ^ m := by simpa using ravelF_lt h

theorem leftSplit_ok {svd : Svd} (hsvd : SVDLaw svd) {d m l : ℕ} (hd : 0 < d) (hl : 0 < l) {Psi : ND ℂ}
    (hsz : Psi.size = l * d ^ (m + 1)) :
    ∃ A P S, FMPS.leftSplit svd d m Psi = .ok (A, P, S) ∧ A.shape = [d, l, min (d * l) (d ^ m)] ∧ LeftIso A ∧
      P.shape = [min (d * l) (d ^ m), d ^ m] ∧
      ∀ s < d, ∀ a < l, ∀ j < d ^ m, Psi.atF (a + l * (s + d * j)) =
        ∑ e ∈ range (min (d * l) (d ^ m)), A.val [s, a, e] * P.atF (e + min (d * l) (d ^ m) * j) := by
  set k := min (d * l) (d ^ m) with hk
  have hdm : 0 < d ^ m := Nat.pow_pos hd
  have e1 : FMPS.otherExtent Psi (d ^ m) = .ok (d * l) := by
    rw [FMPS.otherExtent, if_neg hdm.ne', hsz, show l * d ^ (m + 1) = d * l * d ^ m by ring, Nat.mul_div_cancel _ hdm]
  have e2 : Psi.reshapeF [d * l, d ^ m] = .ok (Psi.reshapeFR [d * l, d ^ m]) := by
    have : Psi.size = [d * l, d ^ m].prod := by rw [hsz]; simp; ring
    simp [ND.reshapeF, this]
  obtain ⟨U, S, V, e3, hU, hS, hV, hUo, hVo, -, -, hM⟩ := hsvd (Psi.reshapeFR [d * l, d ^ m]) (d * l) (d ^ m) rfl
    (Nat.mul_pos hd hl) hdm
  rw [← hk] at hU hS hV hM
  obtain ⟨A, e4, hA, hAv⟩ := chopRows_ok hU hd
  obtain ⟨P, e5, hP, hPv⟩ := ND.matmul22 (A := diagC S) (B := V) (by rw [diagC_shape, hS]) hV
  refine ⟨A, P, diagC S, ?_, hA, ?_, hP, ?_⟩
  · unfold FMPS.leftSplit
    rw [e1, ok_bind, e2, ok_bind, e3, ok_bind]
    simp only
    rw [e4, ok_bind, e5, ok_bind]
  · intro c hc c' hc'
    rw [dim2 hA] at hc hc'
    have := hUo c (by simpa [ND.dim, hU] using hc) c' (by simpa [ND.dim, hU] using hc')
    rw [← this, dim0 hA, dim1 hA]
    simp only [hAv]
    rw [show U.dim 0 = d * l by simp [ND.dim, hU], sum_range_mul]
  · intro s hs a ha j hj
    have hi : s * l + a < d * l := by
      calc s * l + a < s * l + l := by omega
        _ = (s + 1) * l := by ring
        _ ≤ d * l := Nat.mul_le_mul_right _ hs
    have h1 := hM (s * l + a) hi j hj
    have h2 : (Psi.reshapeFR [d * l, d ^ m]).val [s * l + a, j] = Psi.atF (a + l * (s + d * j)) := by
      simp only [ND.reshapeFR, ND.atF, ravelF_cons, ravelF_nil]
      congr 2
      ring
    rw [← h2, h1]
    refine Finset.sum_congr rfl fun e he => ?_
    have he : e < k := by simpa using he
    have h3 : P.atF (e + k * j) = P.val [e, j] := by
      have : unravelF P.shape (e + k * j) = [e, j] := by
        rw [hP]
        have := unravelF_ravelF (s := [k, d ^ m]) (is := [e, j]) (by simp [InB, he, hj])
        simpa using this
      rw [ND.atF, this]
    rw [h3, hPv, hAv]
    simp only [diagC_val, ite_mul, zero_mul, Finset.sum_ite_eq, mem_range, he, if_true]
    ring

theorem leftSplits_ok {svd : Svd} (hsvd : SVDLaw svd) {d : ℕ} (hd : 0 < d) : ∀ (m l : ℕ) (Psi : ND ℂ), 0 < l →
    Psi.size = l * d ^ m → ∃ As P Ls r, FMPS.leftSplits svd d m Psi = .ok (As, P, Ls) ∧
      MpsChain (List.replicate m d) As l r ∧ (∀ A ∈ As, LeftIso A) ∧ PosDims As ∧ (0 < m → r = 1) ∧ Ls.length = m ∧
      ∀ s, InB (List.replicate m d) s → ∀ a < l, Psi.atF (a + l * ravelF (List.replicate m d) s) =
        ∑ e ∈ range r, amp As s a e * P.atF e
  | 0, l, Psi, hl, hsz => by
    refine ⟨[], Psi, [], l, rfl, rfl, by simp, by intro A hA; simp at hA, by simp, rfl, ?_⟩
    intro s hs a ha
    have : s = [] := by simpa [InB] using List.length_eq_zero_iff.1 (by simpa using hs.length_eq)
    subst this
    simp [amp_nil, ha]
  | m + 1, l, Psi, hl, hsz => by
    obtain ⟨A, P, S, e1, hA, hiso, hP, hv⟩ := leftSplit_ok hsvd hd hl hsz
    set k := min (d * l) (d ^ m) with hk
    have hk0 : 0 < k := lt_min (Nat.mul_pos hd hl) (Nat.pow_pos hd)
    obtain ⟨As, P', Ls, r, e2, hch, hisos, hpos, hr, hLs, hv'⟩ := leftSplits_ok hsvd hd m k P hk0 (by
      rw [ND.size, hP]; simp)
    refine ⟨A :: As, P', S :: Ls, r, ?_, ⟨k, hA, hch⟩, ?_, ?_, ?_, by simp [hLs], ?_⟩
    · unfold FMPS.leftSplits
      rw [e1, ok_bind]
      simp only
      rw [e2, ok_bind]
    · intro B hB
      rcases List.mem_cons.1 hB with rfl | hB
      · exact hiso
      · exact hisos B hB
    · rw [PosDims.cons, posDims3 hA]
      exact ⟨⟨hd, hl, hk0⟩, hpos⟩
    · intro _
      rcases Nat.eq_zero_or_pos m with rfl | hm
      · have : As = [] := List.length_eq_zero_iff.1 (by simpa using hch.length_eq)
        subst this
        have h : k = r := hch
        rw [← h, hk, pow_zero]
        exact min_eq_right (Nat.mul_pos hd hl)
      · exact hr hm
    · intro s hs a ha
      match s, hs with
      | s :: ss, hs =>
        obtain ⟨hs, hss⟩ := hs
        rw [List.replicate_succ, ravelF_cons, hv s hs a ha _ (ravelF_replicate_lt hss)]
        simp only [amp_cons, dim2 hA, Finset.sum_mul]
        rw [Finset.sum_comm]
        refine Finset.sum_congr rfl fun e he => ?_
        rw [hv' ss hss e (by simpa using he), Finset.mul_sum]
        exact Finset.sum_congr rfl fun _ _ => by ring

theorem foldl_max_spec : ∀ (l : List ℕ) (a : ℕ), a ≤ l.foldl max a ∧ (∀ b ∈ l, b ≤ l.foldl max a) ∧ (l.foldl max a = a ∨ l.foldl max a ∈ l)
  | [], a => by simp
  | c :: l, a => by
    obtain ⟨h1, h2, h3⟩ := foldl_max_spec l (max a c)
    refine ⟨(le_max_left _ _).trans h1, ?_, ?_⟩
    · intro b hb
      rcases List.mem_cons.1 hb with rfl | hb
      · exact (le_max_right _ _).trans h1
      · exact h2 b hb
    · rw [List.foldl_cons]
      rcases h3 with h3 | h3
      · rw [h3]
        rcases max_choice a c with h | h
        · exact Or.inl h
        · exact Or.inr (by rw [h]; simp)
      · exact Or.inr (List.mem_cons_of_mem _ h3)

theorem maxRight_max {As : List (ND ℂ)} (hne : As ≠ []) :
    (∀ A ∈ As, A.dim 2 ≤ FMPS.maxRight As) ∧ ∃ A ∈ As, A.dim 2 = FMPS.maxRight As := by
  obtain ⟨-, h2, h3⟩ := foldl_max_spec (As.map fun A => A.dim 2) 0
  have h2' : ∀ A ∈ As, A.dim 2 ≤ FMPS.maxRight As := fun A hA => h2 _ (List.mem_map_of_mem hA)
  refine ⟨h2', ?_⟩
  rcases h3 with h3 | h3
  · obtain ⟨A, As, rfl⟩ := List.exists_cons_of_ne_nil hne
    refine ⟨A, by simp, ?_⟩
    have h4 := h2' A (by simp)
    have h5 : FMPS.maxRight (A :: As) = 0 := h3
    omega
  · obtain ⟨A, hA, e⟩ := List.mem_map.1 h3
    exact ⟨A, hA, e⟩

/-- **C18, left**: the tensors are left isometries with matching bonds, the object is normalised and
the given tensor is `w` times its state, `|w|` being the norm of the given tensor. -/
theorem FMPS.leftFromState_spec {svd : Svd} (hsvd : SVDLaw svd) {d L : ℕ} (hd : 0 < d) (hL : 0 < L) {state : ND ℂ}
    (hs : state.shape = List.replicate L d) :
    ∃ x Ls, ∃ w : ℂ, FMPS.leftFromState svd state = .ok (x, Ls) ∧ x.Holds (List.replicate L d) ∧ PosDims x.data ∧
      (∀ A ∈ x.data, LeftIso A) ∧ braket (List.replicate L d) x.data x.data = 1 ∧
      (∀ s, InB (List.replicate L d) s → state.val s = w * psi x.data s) ∧
      star w * w = sumIdx (List.replicate L d) (fun s => star (state.val s) * state.val s) ∧
      Ls.length = L ∧ ((∀ A ∈ x.data, A.dim 2 ≤ x.D) ∧ ∃ A ∈ x.data, A.dim 2 = x.D) ∧ ((∃ s, InB (List.replicate L d) s ∧ state.val s ≠ 0) → x.Honest (List.replicate L d)) := by
  obtain ⟨As, P, Ls, r, e, hch, hiso, hpos, hr, hLs, hv⟩ := leftSplits_ok hsvd hd L 1 state one_pos (by
    rw [ND.size, hs]; simp)
  obtain rfl := hr hL
  have hne : As ≠ [] := by
    rintro rfl
    have := hch.length_eq
    simp at this
    omega
  have hget : pyGet state.shape 0 = .ok d := by
    rw [hs]
    obtain ⟨n, rfl⟩ := Nat.exists_eq_succ_of_ne_zero hL.ne'
    rfl
  have hrank : state.rank = L := by rw [ND.rank, hs]; simp
  have hb := braket_leftIso hch hne hiso
  have hpsi : ∀ s, InB (List.replicate L d) s → state.val s = P.atF 0 * psi As s := by
    intro s hin
    have := hv s hin 0 one_pos
    rw [Finset.sum_range_one, one_mul, zero_add, ND.atF, hs, unravelF_ravelF hin] at this
    rw [this, psi_eq_amp hch hne hin.length_eq, mul_comm]
  have hx : (⟨As, L, d, FMPS.maxRight As, false, true, some L, none⟩ : FMPS ℂ).Holds (List.replicate L d) :=
    ⟨hch, by simp; omega, by simp, by
      obtain ⟨n, rfl⟩ := Nat.exists_eq_succ_of_ne_zero hL.ne'
      rfl⟩
  refine ⟨_, Ls, P.atF 0, ?_, hx, hpos, hiso, hb, hpsi, ?_, hLs, maxRight_max hne, ?_⟩
  · unfold FMPS.leftFromState
    rw [hget, ok_bind]
    simp only [hrank]
    rw [e, ok_bind]
  · rw [sumIdx_congr (g := fun s => star (P.atF 0) * P.atF 0 * (star (psi As s) * psi As s)) fun s hin => by
      rw [hpsi s hin, star_mul']; ring]
    rw [sumIdx_mul_left]
    have : sumIdx (List.replicate L d) (fun s => star (psi As s) * psi As s) = 1 := hb
    rw [this, mul_one]
  · rintro ⟨s, hin, hne⟩
    refine ⟨hx, hpos, ⟨s, hin, fun h0 => hne (by rw [hpsi s hin]; simp [h0])⟩, ?_, by simp⟩
    intro c hc hlt
    cases hc
    simp at hlt

theorem rightSplit_ok {svd : Svd} (hsvd : SVDLaw svd) {d n r : ℕ} (hd : 0 < d) (hr : 0 < r) {Psi : ND ℂ}
    (hsz : Psi.size = d ^ (n + 1) * r) :
    ∃ P B S, FMPS.rightSplit svd d n Psi = .ok (P, B, S) ∧ B.shape = [d, min (d ^ n) (d * r), r] ∧ RightIso B ∧
      P.shape = [d ^ n, min (d ^ n) (d * r)] ∧
      ∀ j < d ^ n, ∀ s < d, ∀ c < r, Psi.atC ((j * d + s) * r + c) =
        ∑ e ∈ range (min (d ^ n) (d * r)), P.atC (j * min (d ^ n) (d * r) + e) * B.val [s, e, c] := by
  set k := min (d ^ n) (d * r) with hk
  have hdm : 0 < d ^ n := Nat.pow_pos hd
  have e1 : FMPS.otherExtent Psi (d ^ n) = .ok (d * r) := by
    rw [FMPS.otherExtent, if_neg hdm.ne', hsz, show d ^ (n + 1) * r = d * r * d ^ n by ring, Nat.mul_div_cancel _ hdm]
  have e2 : Psi.reshape [d ^ n, d * r] = .ok (Psi.reshapeR [d ^ n, d * r]) := by
    have : Psi.size = [d ^ n, d * r].prod := by rw [hsz]; simp; ring
    simp [ND.reshape, this]
  obtain ⟨U, S, V, e3, hU, hS, hV, hUo, hVo, -, -, hM⟩ := hsvd (Psi.reshapeR [d ^ n, d * r]) (d ^ n) (d * r) rfl hdm
    (Nat.mul_pos hd hr)
  rw [← hk] at hU hS hV hM
  obtain ⟨B, e4, hB, hBv⟩ := chopCols_ok hV hd
  obtain ⟨P, e5, hP, hPv⟩ := ND.matmul22 (A := U) (B := diagC S) (n := k) hU (by rw [diagC_shape, hS])
  refine ⟨P, B, diagC S, ?_, hB, ?_, hP, ?_⟩
  · unfold FMPS.rightSplit
    rw [e1, ok_bind, e2, ok_bind, e3, ok_bind]
    simp only
    rw [e5, ok_bind, e4, ok_bind]
  · intro c hc c' hc'
    rw [dim1 hB] at hc hc'
    have := hVo c (by simpa [ND.dim, hV] using hc) c' (by simpa [ND.dim, hV] using hc')
    rw [← this, dim0 hB, dim2 hB]
    simp only [hBv]
    rw [show V.dim 1 = d * r by simp [ND.dim, hV], sum_range_mul]
  · intro j hj s hs c hc
    have hi : s * r + c < d * r := by
      calc s * r + c < s * r + r := by omega
        _ = (s + 1) * r := by ring
        _ ≤ d * r := Nat.mul_le_mul_right _ hs
    have h1 := hM j hj (s * r + c) hi
    have h2 : (Psi.reshapeR [d ^ n, d * r]).val [j, s * r + c] = Psi.atC ((j * d + s) * r + c) := by
      simp only [ND.reshapeR, ND.atC, ravel_cons, ravel_nil, List.prod_cons, List.prod_nil]
      congr 2
      ring
    rw [← h2, h1]
    refine Finset.sum_congr rfl fun e he => ?_
    have he : e < k := by simpa using he
    have h3 : P.atC (j * k + e) = P.val [j, e] := by
      have : unravel P.shape (j * k + e) = [j, e] := by
        rw [hP]
        have := unravel_ravel (s := [d ^ n, k]) (is := [j, e]) (by simp [InB, he, hj])
        simpa using this
      rw [ND.atC, this]
    rw [h3, hPv, hBv]
    rw [Finset.sum_congr rfl fun f hf => by rw [diagC_val, mul_ite, mul_zero]]
    simp only [Finset.sum_ite_eq', mem_range, he, if_true]

theorem rightSplits_ok {svd : Svd} (hsvd : SVDLaw svd) {d : ℕ} (hd : 0 < d) : ∀ (n r : ℕ) (Psi : ND ℂ), 0 < r →
    Psi.size = d ^ n * r → ∃ As P Ls l, FMPS.rightSplits svd d n Psi = .ok (As, P, Ls) ∧
      MpsChain (List.replicate n d) As l r ∧ (∀ A ∈ As, RightIso A) ∧ PosDims As ∧ (0 < n → l = 1) ∧ Ls.length = n ∧
      ∀ s, InB (List.replicate n d) s → ∀ c < r, Psi.atC (ravel (List.replicate n d) s * r + c) =
        ∑ e ∈ range l, P.atC e * amp As s e c
  | 0, r, Psi, hr, hsz => by
    refine ⟨[], Psi, [], r, rfl, rfl, by simp, by intro A hA; simp at hA, by simp, rfl, ?_⟩
    intro s hs c hc
    have : s = [] := by simpa [InB] using List.length_eq_zero_iff.1 (by simpa using hs.length_eq)
    subst this
    simp [amp_nil, hc]
  | n + 1, r, Psi, hr, hsz => by
    obtain ⟨P, B, S, e1, hB, hiso, hP, hv⟩ := rightSplit_ok hsvd hd hr hsz
    set k := min (d ^ n) (d * r) with hk
    have hk0 : 0 < k := lt_min (Nat.pow_pos hd) (Nat.mul_pos hd hr)
    obtain ⟨As, P', Ls, l, e2, hch, hisos, hpos, hl, hLs, hv'⟩ := rightSplits_ok hsvd hd n k P hk0 (by
      rw [ND.size, hP]; simp)
    have hsplit : List.replicate (n + 1) d = List.replicate n d ++ [d] := List.replicate_succ'
    have hchB : MpsChain [d] [B] k r := ⟨r, hB, rfl⟩
    refine ⟨As ++ [B], P', Ls ++ [S], l, ?_, ?_, ?_, ?_, ?_, by simp [hLs], ?_⟩
    · unfold FMPS.rightSplits
      rw [e1, ok_bind]
      simp only
      rw [e2, ok_bind]
    · rw [hsplit]
      exact (mpsChain_append hch.length_eq).2 ⟨k, hch, hchB⟩
    · intro A hA
      rcases List.mem_append.1 hA with hA | hA
      · exact hisos A hA
      · rw [List.mem_singleton.1 hA]; exact hiso
    · intro A hA
      rcases List.mem_append.1 hA with hA | hA
      · exact hpos A hA
      · rw [List.mem_singleton.1 hA]
        exact (posDims3 hB).2 ⟨hd, hk0, hr⟩
    · intro _
      rcases Nat.eq_zero_or_pos n with rfl | hn
      · have : As = [] := List.length_eq_zero_iff.1 (by simpa using hch.length_eq)
        subst this
        have h : l = k := hch
        rw [h, hk, pow_zero]
        exact min_eq_left (Nat.mul_pos hd hr)
      · exact hl hn
    · intro s hs c hc
      rw [hsplit] at hs ⊢
      obtain ⟨s1, t, s2, rfl, hs1, ht, hs2⟩ := hs.split
      obtain rfl : s2 = [] := List.length_eq_zero_iff.1 (by simpa using hs2.length_eq)
      have hr1 : ravel (List.replicate n d) s1 < d ^ n := by simpa using ravel_lt hs1
      have hrav : ravel (List.replicate n d ++ [d]) (s1 ++ [t]) = ravel (List.replicate n d) s1 * d + t := by
        rw [ravel_append _ _ hs1.length_eq]
        simp
      rw [hrav, hv _ hr1 t ht c hc]
      calc _ = ∑ f ∈ range k, ∑ e ∈ range l, P'.atC e * amp As s1 e f * B.val [t, f, c] := by
            refine Finset.sum_congr rfl fun f hf => ?_
            rw [hv' s1 hs1 f (by simpa using hf), Finset.sum_mul]
        _ = ∑ e ∈ range l, ∑ f ∈ range k, P'.atC e * amp As s1 e f * B.val [t, f, c] := Finset.sum_comm
        _ = _ := by
            refine Finset.sum_congr rfl fun e he => ?_
            rw [amp_append hch hs1.length_eq e c (by simpa using he), Finset.mul_sum]
            refine Finset.sum_congr rfl fun f _ => ?_
            rw [amp_single _ _ _ _ (by rw [dim2 hB]; exact hc), mul_assoc]

/-- **C18, right**: the tensors are right isometries with matching bonds, the object is normalised and
the given tensor is `w` times its state, `|w|` being the norm of the given tensor. -/
theorem FMPS.rightFromState_spec {svd : Svd} (hsvd : SVDLaw svd) {d L : ℕ} (hd : 0 < d) (hL : 0 < L) {state : ND ℂ}
    (hs : state.shape = List.replicate L d) :
    ∃ x Ls, ∃ w : ℂ, FMPS.rightFromState svd state = .ok (x, Ls) ∧ x.Holds (List.replicate L d) ∧ PosDims x.data ∧
      (∀ A ∈ x.data, RightIso A) ∧ braket (List.replicate L d) x.data x.data = 1 ∧
      (∀ s, InB (List.replicate L d) s → state.val s = w * psi x.data s) ∧
      star w * w = sumIdx (List.replicate L d) (fun s => star (state.val s) * state.val s) ∧
      Ls.length = L ∧ ((∀ A ∈ x.data, A.dim 2 ≤ x.D) ∧ ∃ A ∈ x.data, A.dim 2 = x.D) ∧ ((∃ s, InB (List.replicate L d) s ∧ state.val s ≠ 0) → x.Honest (List.replicate L d)) := by
  obtain ⟨As, P, Ls, l, e, hch, hiso, hpos, hl, hLs, hv⟩ := rightSplits_ok hsvd hd L 1 state one_pos (by
    rw [ND.size, hs]; simp)
  obtain rfl := hl hL
  have hne : As ≠ [] := by
    rintro rfl
    have := hch.length_eq
    simp at this
    omega
  have hget : pyGet state.shape 0 = .ok d := by
    rw [hs]
    obtain ⟨n, rfl⟩ := Nat.exists_eq_succ_of_ne_zero hL.ne'
    rfl
  have hrank : state.rank = L := by rw [ND.rank, hs]; simp
  have hb := braket_rightIso hch hne hiso
  have hpsi : ∀ s, InB (List.replicate L d) s → state.val s = P.atC 0 * psi As s := by
    intro s hin
    have := hv s hin 0 one_pos
    rw [Finset.sum_range_one, mul_one, add_zero, ND.atC, hs, unravel_ravel hin] at this
    rw [this, psi_eq_amp hch hne hin.length_eq]
  have hx : (⟨As, L, d, FMPS.maxRight As, false, true, some 0, none⟩ : FMPS ℂ).Holds (List.replicate L d) :=
    ⟨hch, by simp; omega, by simp, by
      obtain ⟨n, rfl⟩ := Nat.exists_eq_succ_of_ne_zero hL.ne'
      rfl⟩
  refine ⟨_, Ls, P.atC 0, ?_, hx, hpos, hiso, hb, hpsi, ?_, hLs, maxRight_max hne, ?_⟩
  · unfold FMPS.rightFromState
    rw [hget, ok_bind]
    simp only [hrank]
    rw [e, ok_bind]
  · rw [sumIdx_congr (g := fun s => star (P.atC 0) * P.atC 0 * (star (psi As s) * psi As s)) fun s hin => by
      rw [hpsi s hin, star_mul']; ring]
    rw [sumIdx_mul_left]
    have : sumIdx (List.replicate L d) (fun s => star (psi As s) * psi As s) = 1 := hb
    rw [this, mul_one]
  · rintro ⟨s, hin, hne⟩
    refine ⟨hx, hpos, ⟨s, hin, fun h0 => hne (by rw [hpsi s hin]; simp [h0])⟩, ?_, by simp⟩
    intro c hc hlt
    cases hc
    exact ⟨⟨by rw [hch.length_eq]; exact hlt, by simp, fun A hA => hiso A (List.mem_of_mem_drop hA)⟩, hb⟩

/-- a two-site state with complex entries -/
example {svd : Svd} (hsvd : SVDLaw svd) := FMPS.leftFromState_spec hsvd (d := 2) (L := 2) (by omega) (by omega)
  (state := ⟨[2, 2], fun | [s, t] => (s + 1 : ℂ) + t * Complex.I | _ => 0⟩) rfl
example {svd : Svd} (hsvd : SVDLaw svd) := FMPS.rightFromState_spec hsvd (d := 2) (L := 2) (by omega) (by omega)
  (state := ⟨[2, 2], fun | [s, t] => (s + 1 : ℂ) + t * Complex.I | _ => 0⟩) rfl

end Xmps
