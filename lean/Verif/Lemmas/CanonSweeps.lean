import Verif.Lemmas.CanonSteps

/-! # The SVD sweeps -/

namespace Xmps

open Finset Xmps.Spec

theorem pyGet_append_mid {α : Type} (pre : List α) (a : α) (post : List α) : pyGet (pre ++ a :: post) pre.length = .ok a := by
  simp [pyGet]

theorem pyGet_append_mid1 {α : Type} (pre : List α) (a b : α) (post : List α) :
    pyGet (pre ++ a :: b :: post) (pre.length + 1) = .ok b := by
  rw [show pre ++ a :: b :: post = (pre ++ [a]) ++ b :: post by simp]
  rw [show pre.length + 1 = (pre ++ [a]).length by simp]
  exact pyGet_append_mid _ _ _

theorem set_append_mid {α : Type} (pre : List α) (a a' : α) (post : List α) :
    (pre ++ a :: post).set pre.length a' = pre ++ a' :: post := by simp

theorem set_append_mid1 {α : Type} (pre : List α) (a b b' : α) (post : List α) :
    (pre ++ a :: b :: post).set (pre.length + 1) b' = pre ++ a :: b' :: post := by
  rw [show pre ++ a :: b :: post = (pre ++ [a]) ++ b :: post by simp]
  rw [show pre.length + 1 = (pre ++ [a]).length by simp]
  rw [set_append_mid]
  simp

/-- One step of the left sweep away from the last site. -/
theorem leftSvdStep_mid {svd : Svd} (hsvd : SVDLaw svd) {x : FMPS ℂ} {pre post : List (ND ℂ)} {A B : ND ℂ}
    {d l n d' r : ℕ} (hx : x.data = pre ++ A :: B :: post) (hxd : x.d = d)
    (hA : A.shape = [d, l, n]) (hB : B.shape = [d', n, r]) (hd : 0 < d) (hl : 0 < l) (hn : 0 < n)
    (D : Option ℕ) (minD : Bool) :
    ∃ A' B' k, x.leftSvdStep svd D minD pre.length = .ok { x with data := pre ++ A' :: B' :: post } ∧
      k ≤ min (d * l) n ∧ A'.shape = [d, l, k] ∧ B'.shape = [d', k, r] ∧ LeftIso A' ∧
      (∀ D0, D = some D0 → k = min D0 (min (d * l) n)) ∧ (D = none → minD = false → k = min (d * l) n) ∧
      ∃ R : ℕ → ℕ → ℂ, (D = none → ∀ s < d, ∀ a < l, ∀ c < n, A.val [s, a, c] = ∑ e ∈ range k, A'.val [s, a, e] * R e c) ∧
        (∀ e < k, ∀ c < n, R e c = ∑ s ∈ range d, ∑ a ∈ range l, star (A'.val [s, a, e]) * A.val [s, a, c]) ∧
        ∀ s < d', ∀ e < k, ∀ c < r, B'.val [s, e, c] = ∑ f ∈ range n, R e f * B.val [s, f, c] := by
  obtain ⟨M, U, S, V, A0, A', S', V', SV, k, e1, e2, e3, e4, e5, hA's, hSVs, hi, hk, hv1, hv2, hD1, hD2⟩ :=
    svd_site_left hsvd hA hd hl hn D minD
  obtain ⟨B', hB', hB's, hB'v⟩ := ND.matmul23 hSVs hB
  refine ⟨A', B', k, ?_, hk, hA's, hB's, hi, hD1, hD2, fun e c => SV.val [e, c], hv2, hv1, fun s _ e _ c _ => hB'v s e c⟩
  unfold FMPS.leftSvdStep
  rw [hx, pyGet_append_mid, ok_bind, e1, ok_bind, e2, ok_bind]
  simp only
  rw [hxd, e3, ok_bind]
  simp only [e4]
  rw [e5, ok_bind, set_append_mid]
  rw [if_pos (by simp), pyGet_append_mid1, ok_bind, hB', ok_bind, set_append_mid1]

/-- The last step of the left sweep. -/
theorem leftSvdStep_last {svd : Svd} (hsvd : SVDLaw svd) {x : FMPS ℂ} {pre : List (ND ℂ)} {A : ND ℂ}
    {d l n : ℕ} (hx : x.data = pre ++ [A]) (hxd : x.d = d)
    (hA : A.shape = [d, l, n]) (hd : 0 < d) (hl : 0 < l) (hn : 0 < n) (D : Option ℕ) (minD : Bool) :
    ∃ A' R k, x.leftSvdStep svd D minD pre.length = .ok { x with data := pre ++ [A'], norm_ := some R } ∧
      k ≤ min (d * l) n ∧ A'.shape = [d, l, k] ∧ R.shape = [k, n] ∧ LeftIso A' ∧
      (∀ D0, D = some D0 → k = min D0 (min (d * l) n)) ∧ (D = none → minD = false → k = min (d * l) n) ∧
      (D = none → ∀ s < d, ∀ a < l, ∀ c < n, A.val [s, a, c] = ∑ e ∈ range k, A'.val [s, a, e] * R.val [e, c]) ∧
      (∀ e < k, ∀ c < n, R.val [e, c] = ∑ s ∈ range d, ∑ a ∈ range l, star (A'.val [s, a, e]) * A.val [s, a, c]) := by
  obtain ⟨M, U, S, V, A0, A', S', V', SV, k, e1, e2, e3, e4, e5, hA's, hSVs, hi, hk, hv1, hv2, hD1, hD2⟩ :=
    svd_site_left hsvd hA hd hl hn D minD
  refine ⟨A', SV, k, ?_, hk, hA's, hSVs, hi, hD1, hD2, hv2, hv1⟩
  unfold FMPS.leftSvdStep
  rw [hx, pyGet_append_mid, ok_bind, e1, ok_bind, e2, ok_bind]
  simp only
  rw [hxd, e3, ok_bind]
  simp only [e4]
  rw [e5, ok_bind, set_append_mid, if_neg (by simp)]

/-- `mixed_canonicalise` uses the same step away from the last site. -/
theorem mixedSvdStep_eq {svd : Svd} {x : FMPS ℂ} {D : Option ℕ} {m : ℕ} (h : m + 1 < x.data.length) :
    x.mixedSvdStep svd D m = x.leftSvdStep svd D true m := by
  unfold FMPS.mixedSvdStep FMPS.leftSvdStep
  simp only [List.length_set, h, if_true]

/-- One step of the right sweep away from the first site. -/
theorem rightSvdStep_mid {svd : Svd} (hsvd : SVDLaw svd) {x : FMPS ℂ} {pre post : List (ND ℂ)} {A B : ND ℂ}
    {d l n d' r : ℕ} (hx : x.data = pre ++ A :: B :: post) (hxd : x.d = d')
    (hA : A.shape = [d, l, n]) (hB : B.shape = [d', n, r]) (hd : 0 < d') (hn : 0 < n) (hr : 0 < r)
    (D : Option ℕ) (minD : Bool) :
    ∃ A' B' k, x.rightSvdStep svd D minD (pre.length + 1) = .ok { x with data := pre ++ A' :: B' :: post } ∧
      k ≤ min n (d' * r) ∧ A'.shape = [d, l, k] ∧ B'.shape = [d', k, r] ∧ RightIso B' ∧
      (∀ D0, D = some D0 → k = min D0 (min n (d' * r))) ∧ (D = none → minD = false → k = min n (d' * r)) ∧
      ∃ R : ℕ → ℕ → ℂ, (∀ s < d, ∀ a < l, ∀ c < k, A'.val [s, a, c] = ∑ e ∈ range n, A.val [s, a, e] * R e c) ∧
        (D = none → ∀ s < d', ∀ e < n, ∀ c < r, B.val [s, e, c] = ∑ f ∈ range k, R e f * B'.val [s, f, c]) := by
  obtain ⟨M, U, S, V, B0, U', S', B', k, e1, e2, e3, e4, hU', hS', hB's, hi, hk, hv1, hv2, hD1, hD2⟩ :=
    svd_site_right hsvd hB hd hn hr D minD
  obtain ⟨AU, hAU, hAUs, hAUv⟩ := ND.matmul32 hA hU'
  obtain ⟨A', hA', hA's, hA'v⟩ := ND.matmul32 hAUs hS'
  refine ⟨A', B', k, ?_, hk, hA's, hB's, hi, hD1, hD2, fun a e => ∑ f ∈ range k, U'.val [a, f] * S'.val [f, e], ?_, hv2⟩
  · unfold FMPS.rightSvdStep
    rw [hx, pyGet_append_mid1, ok_bind, e1, ok_bind, e2, ok_bind]
    simp only
    rw [hxd, e3, ok_bind]
    simp only [e4]
    rw [set_append_mid1, if_pos (by omega), Nat.add_sub_cancel, pyGet_append_mid, ok_bind, hAU, ok_bind, hA', ok_bind,
      set_append_mid]
  · intro s _ a _ c _
    rw [hA'v]
    simp only [hAUv, Finset.sum_mul, Finset.mul_sum]
    rw [Finset.sum_comm]
    refine Finset.sum_congr rfl fun e _ => Finset.sum_congr rfl fun f _ => ?_
    ring

/-- The last step of the right sweep, at site 0. -/
theorem rightSvdStep_last {svd : Svd} (hsvd : SVDLaw svd) {x : FMPS ℂ} {post : List (ND ℂ)} {A : ND ℂ}
    {d l n : ℕ} (hx : x.data = A :: post) (hxd : x.d = d)
    (hA : A.shape = [d, l, n]) (hd : 0 < d) (hl : 0 < l) (hn : 0 < n) (D : Option ℕ) (minD : Bool) :
    ∃ A' k, x.rightSvdStep svd D minD 0 = .ok { x with data := A' :: post } ∧
      k ≤ min l (d * n) ∧ A'.shape = [d, k, n] ∧ RightIso A' ∧
      (∀ D0, D = some D0 → k = min D0 (min l (d * n))) ∧ (D = none → minD = false → k = min l (d * n)) ∧
      ∃ R : ℕ → ℕ → ℂ, (D = none → ∀ s < d, ∀ a < l, ∀ c < n, A.val [s, a, c] = ∑ e ∈ range k, R a e * A'.val [s, e, c]) := by
  obtain ⟨M, U, S, V, B0, U', S', B', k, e1, e2, e3, e4, hU', hS', hB's, hi, hk, hv1, hv2, hD1, hD2⟩ :=
    svd_site_right hsvd hA hd hl hn D minD
  refine ⟨B', k, ?_, hk, hB's, hi, hD1, hD2, fun a e => ∑ f ∈ range k, U'.val [a, f] * S'.val [f, e], hv2⟩
  unfold FMPS.rightSvdStep
  have e0 : pyGet x.data 0 = .ok A := by simp [hx]
  rw [e0, ok_bind, e1, ok_bind, e2, ok_bind]
  simp only
  rw [hxd, e3, ok_bind]
  simp only [e4]
  rw [if_neg (by simp), hx]
  simp

theorem amp_ne_of_sum {n : ℕ} {f g : ℕ → ℂ} (h : ∑ e ∈ range n, f e * g e ≠ 0) : ∃ e < n, g e ≠ 0 := by
  by_contra hc
  push Not at hc
  exact h (Finset.sum_eq_zero fun e he => by rw [hc e (by simpa using he), mul_zero])

/-- the contraction of a new isometry with the old tensor moves to the next site -/
theorem env_step {A A' : ND ℂ} {B B' : ND ℂ} {post Cs : List (ND ℂ)} {d l n k d' r : ℕ} {ds : List ℕ} {R : ℕ → ℕ → ℂ}
    (hA : A.shape = [d, l, n]) (hA' : A'.shape = [d, l, k]) (hB : B.shape = [d', n, r]) (hB' : B'.shape = [d', k, r])
    (h1 : ∀ e < k, ∀ c < n, R e c = ∑ s ∈ range d, ∑ a ∈ range l, star (A'.val [s, a, e]) * A.val [s, a, c])
    (h2 : ∀ s < d', ∀ e < k, ∀ c < r, B'.val [s, e, c] = ∑ f ∈ range n, R e f * B.val [s, f, c]) (b c : ℕ) :
    ∑ a ∈ range l, sumIdx (d :: d' :: ds) (fun ss => star (amp (A' :: Cs) ss a c) * amp (A :: B :: post) ss a b) =
      ∑ e ∈ range k, sumIdx (d' :: ds) (fun ss => star (amp Cs ss e c) * amp (B' :: post) ss e b) := by
  have hB'amp : ∀ ss, InB (d' :: ds) ss → ∀ e < k, amp (B' :: post) ss e b = ∑ f ∈ range n, R e f * amp (B :: post) ss f b := by
    intro ss hs e he
    match ss, hs with
    | s :: ss, hs =>
      simp only [amp_cons, dim2 hB, dim2 hB', Finset.mul_sum]
      rw [Finset.sum_comm]
      refine Finset.sum_congr rfl fun g hg => ?_
      rw [h2 s hs.1 e he g (by simpa using hg), Finset.sum_mul]
      exact Finset.sum_congr rfl fun f _ => by ring
  have hL : ∀ a < l, sumIdx (d :: d' :: ds) (fun ss => star (amp (A' :: Cs) ss a c) * amp (A :: B :: post) ss a b) =
      sumIdx (d' :: ds) fun ss => ∑ e ∈ range k, ∑ f ∈ range n, star (amp Cs ss e c) *
        (∑ s ∈ range d, star (A'.val [s, a, e]) * A.val [s, a, f]) * amp (B :: post) ss f b := by
    intro a _
    rw [sumIdx_cons]
    rw [← sumIdx_finset_sum]
    refine sumIdx_congr fun ss _ => ?_
    simp only [amp_cons (As := Cs), amp_cons (As := B :: post), dim2 hA, dim2 hA', star_sum, star_mul']
    simp only [Finset.mul_sum, Finset.sum_mul]
    rw [Finset.sum_comm]
    rw [Finset.sum_congr rfl fun f _ => Finset.sum_comm]
    rw [Finset.sum_comm]
    refine Finset.sum_congr rfl fun e _ => Finset.sum_congr rfl fun f _ => Finset.sum_congr rfl fun s _ => ?_
    ring
  rw [Finset.sum_congr rfl fun a ha => hL a (by simpa using ha)]
  rw [← sumIdx_finset_sum, ← sumIdx_finset_sum]
  refine sumIdx_congr fun ss hs => ?_
  rw [Finset.sum_comm]
  refine Finset.sum_congr rfl fun e he => ?_
  rw [hB'amp ss hs e (by simpa using he), Finset.sum_comm, Finset.mul_sum]
  refine Finset.sum_congr rfl fun f hf => ?_
  rw [h1 e (by simpa using he) f (by simpa using hf), Finset.sum_comm]
  simp only [Finset.mul_sum, Finset.sum_mul]
  exact Finset.sum_congr rfl fun a _ => Finset.sum_congr rfl fun s _ => by ring

/-- `k` steps of the left SVD sweep from the head of `rest`, not reaching the last site. -/
theorem svd_left_sweep {svd : Svd} (hsvd : SVDLaw svd) (D : Option ℕ) (minD : Bool) (hD : ∀ D0, D = some D0 → 0 < D0) :
    ∀ (k : ℕ) (x : FMPS ℂ) (pre rest : List (ND ℂ))
    (ds : List ℕ) (l r : ℕ), x.data = pre ++ rest → (∀ t ∈ ds, t = x.d) → MpsChain ds rest l r →
    PosDims rest → k < rest.length →
    (D = none → ∃ ss a b, InB ds ss ∧ a < l ∧ amp rest ss a b ≠ 0) →
    ∃ qs rest' u, (List.range' pre.length k).foldlM (FMPS.leftSvdStep svd D minD) x = .ok { x with data := pre ++ (qs ++ rest') } ∧
      qs.length = k ∧ MpsChain (ds.take k) qs l u ∧ MpsChain (ds.drop k) rest' u r ∧
      (∀ A ∈ qs, LeftIso A) ∧ PosDims (qs ++ rest') ∧
      rest'.tail = (rest.drop k).tail ∧
      (∀ D0, D = some D0 → ∀ A ∈ qs, A.dim 2 ≤ D0) ∧
      (D = none → ∃ ss a b, InB (ds.drop k) ss ∧ a < u ∧ amp rest' ss a b ≠ 0) ∧
      (D = none → ∀ ss, InB ds ss → ∀ a < l, ∀ b, amp (qs ++ rest') ss a b = amp rest ss a b) ∧
      ∀ Cs b c, ∑ a ∈ range l, sumIdx ds (fun ss => star (amp (qs ++ Cs) ss a c) * amp rest ss a b) =
        ∑ e ∈ range u, sumIdx (ds.drop k) (fun ss => star (amp Cs ss e c) * amp rest' ss e b)
  | 0, x, pre, rest, ds, l, r, hx, hu, hc, hp, hk, hnz => by
    refine ⟨[], rest, l, ?_, rfl, by simp, by simpa using hc, by simp, hp, by simp, by simp, by simpa using hnz, fun _ _ _ _ _ _ => rfl, by simp⟩
    simp only [List.range'_zero, List.foldlM_nil, List.nil_append, py_pure, ← hx]
  | k + 1, x, pre, [], ds, l, r, hx, hu, hc, hp, hk, hnz => by simp at hk
  | k + 1, x, pre, [A], ds, l, r, hx, hu, hc, hp, hk, hnz => by simp at hk
  | k + 1, x, pre, A :: B :: post, [], l, r, hx, hu, hc, hp, hk, hnz => by simp at hc
  | k + 1, x, pre, A :: B :: post, [d], l, r, hx, hu, hc, hp, hk, hnz => by obtain ⟨_, _, hc⟩ := hc; simp at hc
  | k + 1, x, pre, A :: B :: post, d :: d' :: ds, l, r, hx, hu, hc, hp, hk, hnz => by
    obtain ⟨n, hA, m, hB, hc⟩ := hc
    rw [PosDims.cons, PosDims.cons, posDims3 hA, posDims3 hB] at hp
    obtain ⟨⟨hd, hl, hn⟩, ⟨hd', _, hm⟩, hp⟩ := hp
    have hdd : x.d = d := (hu d (by simp)).symm
    obtain ⟨A', B', k', hstep, hkle, hA', hB', hi, hD1, hD2, R, h1, h3, h2⟩ :=
      leftSvdStep_mid hsvd hx hdd hA hB hd hl hn D minD
    have hampA : D = none → ∀ ss, InB (d :: d' :: ds) ss → ∀ a < l, ∀ b,
        amp (A :: B :: post) ss a b = amp (A' :: B' :: post) ss a b := fun hDn ss hs a ha b =>
      amp_bond hA hB hA' hB' hc (h1 hDn) h2 hs ha b
    have hnz' : D = none → ∃ ss a b, InB (d' :: ds) ss ∧ a < k' ∧ amp (B' :: post) ss a b ≠ 0 := by
      intro hDn
      obtain ⟨ss, a, b, hs, ha, hne⟩ := hnz hDn
      rw [hampA hDn ss hs a ha b] at hne
      match ss, hs with
      | s :: ss, hs =>
        simp only [amp_cons (As := B' :: post), dim2 hA'] at hne
        obtain ⟨e, he, hne⟩ := amp_ne_of_sum hne
        exact ⟨ss, e, b, hs.2, he, hne⟩
    have hk0 : 0 < k' := by
      cases hDe : D with
      | none => obtain ⟨_, a, _, _, ha, _⟩ := hnz' hDe; omega
      | some D0 =>
        have h4 := hD1 D0 hDe
        have h5 := hD D0 hDe
        have h6 := Nat.mul_pos hd hl
        omega
    have hc' : MpsChain (d' :: ds) (B' :: post) k' r := ⟨m, hB', hc⟩
    obtain ⟨qs, rest', u, e, hlen, hch1, hch2, his, hpd, htl, hbd, hnz2, hamp, hov⟩ :=
      svd_left_sweep hsvd D minD hD k { x with data := pre ++ A' :: B' :: post }
      (pre ++ [A']) (B' :: post) (d' :: ds) k' r (by simp) (fun t ht => hu t (List.mem_cons_of_mem _ ht)) hc'
      (PosDims.cons.2 ⟨(posDims3 hB').2 ⟨hd', hk0, hm⟩, hp⟩) (by simpa using hk) hnz'
    refine ⟨A' :: qs, rest', u, ?_, by simp [hlen], ⟨k', hA', hch1⟩, hch2, ?_, ?_, ?_, ?_, hnz2, ?_, ?_⟩
    · rw [List.range'_succ, List.foldlM_cons, hstep, ok_bind]
      have e2 : (pre ++ [A']).length = pre.length + 1 := by simp
      rw [e2] at e
      rw [e]
      simp
    · intro T hT
      rcases List.mem_cons.1 hT with rfl | hT
      · exact hi
      · exact his T hT
    · exact PosDims.cons.2 ⟨(posDims3 hA').2 ⟨hd, hl, hk0⟩, hpd⟩
    · rw [htl]
      cases k with
      | zero => simp
      | succ k => simp
    · intro D0 hD0 T hT
      rcases List.mem_cons.1 hT with rfl | hT
      · rw [dim2 hA', hD1 D0 hD0]; omega
      · exact hbd D0 hD0 T hT
    · intro hDn ss hs a ha b
      rw [hampA hDn ss hs a ha b]
      match ss, hs with
      | s :: ss, hs =>
        simp only [List.cons_append, amp_cons (As := qs ++ rest'), amp_cons (As := B' :: post)]
        refine Finset.sum_congr rfl fun c hc => ?_
        rw [hamp hDn ss hs.2 c (by simpa [dim2 hA'] using hc) b]
    · intro Cs b c
      rw [List.cons_append, env_step hA hA' hB hB' h3 h2 b c]
      exact hov Cs b c

/-- `k` steps of the right SVD sweep from the end of `rest`, not reaching the first site. -/
theorem svd_right_sweep {svd : Svd} (hsvd : SVDLaw svd) (D : Option ℕ) (minD : Bool) (hD : ∀ D0, D = some D0 → 0 < D0) :
    ∀ (k : ℕ) (x : FMPS ℂ) (rest post : List (ND ℂ))
    (ds : List ℕ) (l r : ℕ), x.data = rest ++ post → (∀ t ∈ ds, t = x.d) → MpsChain ds rest l r →
    PosDims rest → k < rest.length →
    (D = none → ∃ ss a b, InB ds ss ∧ a < l ∧ b < r ∧ amp rest ss a b ≠ 0) →
    ∃ rest' qs u, (List.range' (rest.length - k) k).reverse.foldlM (FMPS.rightSvdStep svd D minD) x =
        .ok { x with data := rest' ++ qs ++ post } ∧
      qs.length = k ∧ MpsChain (ds.take (rest.length - k)) rest' l u ∧ MpsChain (ds.drop (rest.length - k)) qs u r ∧
      (∀ A ∈ qs, RightIso A) ∧ PosDims (rest' ++ qs) ∧
      rest'.dropLast = (rest.take (rest.length - k)).dropLast ∧
      (∀ D0, D = some D0 → ∀ A ∈ qs, A.dim 1 ≤ D0) ∧
      (D = none → ∃ ss a b, InB (ds.take (rest.length - k)) ss ∧ a < l ∧ b < u ∧ amp rest' ss a b ≠ 0) ∧
      (D = none → ∀ ss, InB ds ss → ∀ a < l, ∀ b < r, amp (rest' ++ qs) ss a b = amp rest ss a b)
  | 0, x, rest, post, ds, l, r, hx, hu, hc, hp, hk, hnz => by
    have hle : ds.length ≤ rest.length := hc.length_eq.ge
    refine ⟨rest, [], r, ?_, rfl, by simpa [List.take_of_length_le hle] using hc,
      by simp [List.drop_of_length_le hle], by simp, by simpa using hp, by simp, by simp,
      by simpa [List.take_of_length_le hle] using hnz, fun _ _ _ _ _ _ _ => by simp⟩
    simp only [List.range'_zero, List.reverse_nil, List.foldlM_nil, List.append_nil, py_pure, ← hx]
  | k + 1, x, rest, post, ds, l, r, hx, hu, hc, hp, hk, hnz => by
    obtain ⟨pre, A, B, rfl⟩ : ∃ pre A B, rest = pre ++ [A, B] := by
      rcases List.eq_nil_or_concat rest with rfl | ⟨u, B, rfl⟩
      · simp at hk
      rcases List.eq_nil_or_concat u with rfl | ⟨v, A, rfl⟩
      · simp at hk
      exact ⟨v, A, B, by simp⟩
    obtain ⟨ds0, d, d', rfl, hl0⟩ : ∃ ds0 d d', ds = ds0 ++ [d, d'] ∧ pre.length = ds0.length := by
      have hl := hc.length_eq
      rcases List.eq_nil_or_concat ds with rfl | ⟨u, d', rfl⟩
      · simp at hl
      rcases List.eq_nil_or_concat u with rfl | ⟨v, d, rfl⟩
      · simp at hl
      exact ⟨v, d, d', by simp, by simpa using hl⟩
    obtain ⟨u, hpre, n, hA, m, hB, hmr⟩ := (mpsChain_append hl0).1 hc
    have hmr : m = r := hmr
    subst hmr
    rw [PosDims.append, PosDims.cons, PosDims.cons, posDims3 hA, posDims3 hB] at hp
    obtain ⟨hp0, ⟨hd, hl, hn⟩, ⟨hd', _, hm⟩, _⟩ := hp
    have hdd : x.d = d' := (hu d' (by simp)).symm
    obtain ⟨A', B', k', hstep, hkle, hA', hB', hi, hD1, hD2, R, h1, h2⟩ :=
      rightSvdStep_mid hsvd (x := x) (pre := pre) (post := post) (by simp [hx]) hdd hA hB hd' hn hm D minD
    have hc' : MpsChain (ds0 ++ [d]) (pre ++ [A']) l k' := (mpsChain_append hl0).2 ⟨u, hpre, k', hA', rfl⟩
    have hampA : D = none → ∀ ss, InB (ds0 ++ [d, d']) ss → ∀ a < l, ∀ b,
        amp (pre ++ [A', B']) ss a b = amp (pre ++ [A, B]) ss a b := by
      intro hDn ss hs a ha b
      refine amp_prefix (ds1 := ds0) (ds2 := [d, d']) (m := u) hpre ?_ hs ha b
      intro ss hs a ha b
      exact (amp_bond hA' hB' hA hB (ds := []) (post := []) (r' := m) (R := R) rfl h1 (h2 hDn) hs ha b)
    have hnz' : D = none → ∃ ss a b, InB (ds0 ++ [d]) ss ∧ a < l ∧ b < k' ∧ amp (pre ++ [A']) ss a b ≠ 0 := by
      intro hDn
      obtain ⟨ss, a, b, hs, ha, hb, hne⟩ := hnz hDn
      rw [← hampA hDn ss hs a ha b] at hne
      have hs' : InB ((ds0 ++ [d]) ++ [d']) ss := by simpa using hs
      obtain ⟨s1, s2, rfl, hs1, hs2⟩ := hs'.split2
      rw [show pre ++ [A', B'] = (pre ++ [A']) ++ [B'] by simp, amp_append hc' hs1.length_eq a b ha] at hne
      simp only [mul_comm (amp (pre ++ [A']) s1 a _)] at hne
      obtain ⟨e, he, hne⟩ := amp_ne_of_sum hne
      exact ⟨s1, a, e, hs1, ha, he, hne⟩
    have hk0 : 0 < k' := by
      cases hDe : D with
      | none => obtain ⟨_, a, b, _, _, hb, _⟩ := hnz' hDe; omega
      | some D0 =>
        have h4 := hD1 D0 hDe
        have h5 := hD D0 hDe
        have h6 := Nat.mul_pos hd' hm
        omega
    obtain ⟨rest', qs, w, e, hlen, hch1, hch2, his, hpd, htl, hbd, hnz2, hamp⟩ :=
      svd_right_sweep hsvd D minD hD k { x with data := pre ++ A' :: B' :: post }
      (pre ++ [A']) (B' :: post) (ds0 ++ [d]) l k' (by simp) (fun t ht => hu t (by
        rcases List.mem_append.1 ht with h | h
        · exact List.mem_append_left _ h
        · exact List.mem_append_right _ (by simp at h ⊢; exact Or.inl h))) hc'
      (PosDims.append.2 ⟨hp0, PosDims.cons.2 ⟨(posDims3 hA').2 ⟨hd, hl, hk0⟩, by simp [PosDims]⟩⟩) (by simp at hk ⊢; omega)
      hnz'
    have hlen0 : (pre ++ [A, B]).length - (k + 1) = (pre ++ [A']).length - k := by simp
    have hdsl : (ds0 ++ [d]).length = (pre ++ [A']).length := by simp [hl0]
    have htake : (ds0 ++ [d, d']).take ((pre ++ [A, B]).length - (k + 1)) = (ds0 ++ [d]).take ((pre ++ [A']).length - k) := by
      rw [hlen0, show ds0 ++ [d, d'] = (ds0 ++ [d]) ++ [d'] by simp, List.take_append_of_le_length (by omega)]
    have hdrop : (ds0 ++ [d, d']).drop ((pre ++ [A, B]).length - (k + 1)) = (ds0 ++ [d]).drop ((pre ++ [A']).length - k) ++ [d'] := by
      rw [hlen0, show ds0 ++ [d, d'] = (ds0 ++ [d]) ++ [d'] by simp, List.drop_append_of_le_length (by omega)]
    rw [htake, hdrop]
    refine ⟨rest', qs ++ [B'], w, ?_, by simp [hlen], hch1, ?_, ?_, ?_, ?_, ?_, hnz2, ?_⟩
    · rw [hlen0, List.range'_concat, List.reverse_append, List.reverse_singleton, List.singleton_append, List.foldlM_cons]
      have e1 : (pre ++ [A']).length - k + 1 * k = pre.length + 1 := by simp at hk ⊢; omega
      rw [e1, hstep, ok_bind, e]
      simp
    · exact (mpsChain_append hch2.length_eq).2 ⟨k', hch2, m, hB', rfl⟩
    · intro T hT
      rcases List.mem_append.1 hT with hT | hT
      · exact his T hT
      · rw [List.mem_singleton.1 hT]; exact hi
    · rw [← List.append_assoc]
      exact PosDims.append.2 ⟨hpd, PosDims.cons.2 ⟨(posDims3 hB').2 ⟨hd', hk0, hm⟩, by simp [PosDims]⟩⟩
    · rw [htl, hlen0]
      rw [List.dropLast_eq_take, List.dropLast_eq_take, List.take_take, List.take_take, List.length_take, List.length_take,
        List.take_append_of_le_length (by simp), List.take_append_of_le_length (by simp)]
      congr 1
      simp
      omega
    · intro D0 hD0 T hT
      rcases List.mem_append.1 hT with hT | hT
      · exact hbd D0 hD0 T hT
      · rw [List.mem_singleton.1 hT, dim1 hB', hD1 D0 hD0]; omega
    · intro hDn ss hs a ha b hb
      have hs' : InB ((ds0 ++ [d]) ++ [d']) ss := by simpa using hs
      obtain ⟨s1, s2, rfl, hs1, hs2⟩ := hs'.split2
      have hch : MpsChain (ds0 ++ [d]) (rest' ++ qs) l k' := by
        have := (mpsChain_append hch1.length_eq).2 ⟨w, hch1, hch2⟩
        rwa [List.take_append_drop] at this
      rw [← List.append_assoc, amp_append hch hs1.length_eq a b ha]
      rw [Finset.sum_congr rfl fun c hc => by rw [hamp hDn s1 hs1 a ha c (by simpa using hc)]]
      rw [← amp_append hc' hs1.length_eq a b ha, List.append_assoc]
      exact hampA hDn _ hs a ha b

end Xmps
