import Verif.Lemmas.TwoSiteSvd
import Verif.Props.TwoSite

/-!
# C12 with a bond dimension given: `apply_two_site((op, (i, i+1)), which, D)`
-/

namespace Xmps

open Finset Spec Xmps.Ncon

theorem applyUnitary_svd {qr rq : ND ℂ → Py (ND ℂ × ND ℂ)} {svd : Svd} (hsvd : SVDLaw svd) (O : SetOrder)
    {A B U : ND ℂ} {d l m r D : ℕ} (hd : 0 < d) (hl : 0 < l) (hr : 0 < r) (hD : 0 < D) (hA : A.shape = [d, l, m]) (hB : B.shape = [d, m, r])
    (hU : U.shape = [d * d, d * d]) {W : ℕ → ℕ → ℕ → ℕ → ℂ} (hW : W = fun s t a c => ∑ s' ∈ range d, ∑ t' ∈ range d,
      U.val [s * d + t, s' * d + t'] * ∑ e ∈ range m, A.val [s', a, e] * B.val [t', e, c])
    (hnz : ∃ s < d, ∃ t < d, ∃ a < l, ∃ c < r, W s t a c ≠ 0) {which : Side} (hw : which ≠ .other) :
    ∃ A' B' k, ∃ v : ℝ, applyUnitary qr rq svd O A B U which (some D) = .ok (A', B') ∧ 0 < v ∧ 0 < k ∧ k ≤ D ∧
      A'.shape = [d, l, k] ∧ B'.shape = [d, k, r] ∧
      (which = .l → LeftIso A' ∧ ∑ t ∈ range d, ∑ e ∈ range k, ∑ c ∈ range r, star (B'.val [t, e, c]) * B'.val [t, e, c] = 1) ∧
      (which = .r → RightIso B' ∧ ∑ s ∈ range d, ∑ a ∈ range l, ∑ e ∈ range k, star (A'.val [s, a, e]) * A'.val [s, a, e] = 1) ∧
      (min (d * l) (d * r) ≤ D → ∀ s < d, ∀ t < d, ∀ a < l, ∀ c < r,
        ∑ e ∈ range k, A'.val [s, a, e] * B'.val [t, e, c] = (v : ℂ)⁻¹ * W s t a c) := by
  obtain ⟨G, e1, hG, hGv⟩ := groupTensors_ok O hA hB
  obtain ⟨T, e2, hT, hTv⟩ := gate_ok hU hG
  have key : ∀ s t, ∀ a < l, ∀ c < r, T.val [s * d + t, a, c] = W s t a c := by
    intro s t a ha c hc
    rw [hTv, sum_range_mul, hW]
    refine Finset.sum_congr rfl fun s' hs' => Finset.sum_congr rfl fun t' ht' => ?_
    rw [hGv s' (by simpa using hs') t' (by simpa using ht') a ha c hc]
  obtain ⟨s0, hs0, t0, ht0, a0, ha0, c0, hc0, h0⟩ := hnz
  obtain ⟨A', B', k, v, e3, hv, hk, hkD, hA', hB', h1, h2, h3⟩ := separateSvd_ok hsvd hd hl hr hD hT
    ⟨s0, hs0, t0, ht0, a0, ha0, c0, hc0, by rw [key s0 t0 a0 ha0 c0 hc0]; exact h0⟩ hw
  refine ⟨A', B', k, v, ?_, hv, hk, hkD, hA', hB', h1, h2, fun hf s hs t ht a ha c hc => by
    rw [h3 hf s hs t ht a ha c hc, key s t a ha c hc]⟩
  simp only [applyUnitary, e1, ok_bind, e2, e3]

theorem opExpect_one {As : List (ND ℂ)} {ds : List ℕ} {i : ℕ} (hi : i < ds.length) :
    opExpect ds As i 1 (fun s t => if s = t then 1 else 0) = braket ds As As := by
  unfold opExpect braket
  refine sumIdx_congr fun s hs => ?_
  obtain ⟨d, hd⟩ : ∃ d, ds[i]? = some d := ⟨ds[i], List.getElem?_eq_getElem hi⟩
  have e1 : (ds.drop i).take 1 = [d] := by
    rw [List.take_one_drop_eq_of_lt_length hi]
    simp [List.getElem?_eq_getElem hi] at hd
    simp [hd]
  have hlen : i < s.length := by rw [hs.length_eq]; exact hi
  have e2 : (s.drop i).take 1 = [s.getD i 0] := by
    rw [List.take_one_drop_eq_of_lt_length hlen]; simp [List.getD_eq_getElem?_getD, hlen]
  rw [e1, sumIdx_cons]
  simp only [sumIdx_nil, e2]
  rw [Finset.sum_eq_single (s.getD i 0)]
  · rw [if_pos rfl, one_mul]
    congr 2
    have : s.drop i = s.getD i 0 :: s.drop (i + 1) := by
      rw [List.drop_eq_getElem_cons hlen]; simp [List.getD_eq_getElem?_getD, hlen]
    rw [List.singleton_append, ← this, List.take_append_drop]
  · intro t _ ht
    rw [if_neg (by simpa using fun h => ht h.symm), zero_mul, mul_zero]
  · exact fun h => absurd (by simpa using hs.getD_lt hd) h

namespace FMPS

/-- **C12, C04 with a bond dimension**: a gate on neighbouring sites that does not annihilate the
state, with `D` given.  The new bond is at most `D`; the tensor named by `which` is an isometry; if the
pair held the orthogonality centre, the new state is normalised and its centre is the other tensor of
the pair.  If `D` is at least the rank bound the state is that of the gate divided by a positive
number. -/
theorem applyTwoSite_svd (qr rq : ND ℂ → Py (ND ℂ × ND ℂ)) {svd : Svd} (hsvd : SVDLaw svd) (O : SetOrder)
    {x : FMPS ℂ} {ds : List ℕ} {d i D : ℕ} (hx : MpsChain ds x.data 1 1) (hp : PosDims x.data) (h1 : ds[i]? = some d)
    (h2 : ds[i + 1]? = some d) (hD : 0 < D) {op : ND ℂ} (hop : op.shape = [d * d, d * d])
    (hnz : ∃ s, InB ds s ∧ gateAct d op i (i + 1) (psi x.data) s ≠ 0) {which : Side} (hw : which ≠ .other) (b : Bool) :
    ∃ y A B A' B', ∃ v : ℝ, x.applyTwoSite qr rq svd O op [i, i + 1] which (some D) b = .ok y ∧ 0 < v ∧
      MpsChain ds y.data 1 1 ∧ PosDims y.data ∧ y = { x with data := (x.data.set i A').set (i + 1) B' } ∧
      x.data[i]? = some A ∧ x.data[i + 1]? = some B ∧ y.data[i]? = some A' ∧ y.data[i + 1]? = some B' ∧ A'.dim 2 ≤ D ∧
      (which = .l → LeftIso A' ∧ ((∀ C ∈ x.data.take i, LeftIso C) → (∀ C ∈ x.data.drop (i + 2), RightIso C) →
        CenteredAt y.data (i + 1) ∧ braket ds y.data y.data = 1)) ∧
      (which = .r → RightIso B' ∧ ((∀ C ∈ x.data.take i, LeftIso C) → (∀ C ∈ x.data.drop (i + 2), RightIso C) →
        CenteredAt y.data i ∧ braket ds y.data y.data = 1)) ∧
      (min (d * A.dim 1) (d * B.dim 2) ≤ D → ∀ s, InB ds s →
        psi y.data s = (v : ℂ)⁻¹ * gateAct d op i (i + 1) (psi x.data) s) := by
  obtain ⟨ds1, ds2, As1, A, B, As2, l, m, r, e1, e2, e3, e4, c1, hA, hB, c2⟩ := chain_at2 hx h1 h2
  have hpA := (posDims3 hA).1 (hp A (by simp [e2]))
  have hpB := (posDims3 hB).1 (hp B (by simp [e2]))
  set W : ℕ → ℕ → ℕ → ℕ → ℂ := fun s t a c => ∑ s' ∈ range d, ∑ t' ∈ range d,
      op.val [s * d + t, s' * d + t'] * ∑ e ∈ range m, A.val [s', a, e] * B.val [t', e, c] with hW
  -- a pair of tensors with the product `W`, from a trivial factorisation
  have hex : ∃ s < d, ∃ t < d, ∃ a < l, ∃ c < r, W s t a c ≠ 0 := by
    by_contra hz
    push Not at hz
    obtain ⟨s, hs, hne⟩ := hnz
    apply hne
    obtain ⟨qr', hqr⟩ := qrLaw_exists
    obtain ⟨rq', hrq⟩ := rqLaw_exists
    obtain ⟨A', B', n, e5, hn, -, -, hA', hB', -, -, hv⟩ := applyUnitary_ok hqr hrq (svd := svd) O hpA.1 hpA.2.1 hpB.2.2 hA hB hop
      (which := .l) (by simp)
    rw [e1] at hs
    obtain ⟨s1, t, s2, rfl, b1, ht, b2⟩ := hs.split
    match s2, b2 with
    | u :: s2, ⟨hu, b2⟩ =>
      have hl1 : s1.length = i := by rw [b1.length_eq, e3]
      have := psi_pair c1 hA hB c2 hA' hB' (W := fun s t s' t' => op.val [s * d + t, s' * d + t']) hv b1.length_eq ht hu b2.length_eq
      have hz' : psi (As1 ++ A' :: B' :: As2) (s1 ++ t :: u :: s2) = 0 := by
        rw [psi_pair c1 hA hB c2 hA' hB' (W := fun _ _ _ _ => 0) (fun s hs t ht a ha c hc => by
          rw [hv s hs t ht a ha c hc]; simpa [hW] using hz s hs t ht a ha c hc) b1.length_eq ht hu b2.length_eq]
        simp
      rw [hz'] at this
      rw [e2]
      subst hl1
      simp [gateAct, List.getD_eq_getElem?_getD]
      exact this.symm
  obtain ⟨A', B', n, v, e5, hv0, hn, hnD, hA', hB', i1, i2, hv⟩ := applyUnitary_svd (qr := qr) (rq := rq) hsvd O hpA.1 hpA.2.1 hpB.2.2 hD
    hA hB hop hW hex hw
  have e6 : (x.data.set i A').set (i + 1) B' = As1 ++ A' :: B' :: As2 := by
    rw [e2, ← e4]; simp
  have hstep : pairStep qr rq svd O which x (op, i, some D) = .ok { x with data := As1 ++ A' :: B' :: As2 } := by
    unfold pairStep
    simp only
    rw [show pyGet x.data i = .ok A from by simp [pyGet, e2, ← e4], ok_bind,
      show pyGet x.data (i + 1) = .ok B from by simp [pyGet, e2, ← e4], ok_bind, e5, ok_bind, e6]
  have hch : MpsChain ds (As1 ++ A' :: B' :: As2) 1 1 := by
    rw [e1]
    exact (mpsChain_append c1.length_eq).2 ⟨l, c1, n, hA', r, hB', c2⟩
  have hi : i < ds.length := by rw [e1, ← e3]; simp
  have hi' : i + 1 < ds.length := by rw [e1, ← e3]; simp
  have g1 : ds.getD i 0 = d := by rw [List.getD_eq_getElem?_getD, h1]; rfl
  have g2 : ds.getD (i + 1) 0 = d := by rw [List.getD_eq_getElem?_getD, h2]; rfl
  have f1 : As1.take i = As1 := by rw [← e4, List.take_length]
  refine ⟨_, A, B, A', B', v, ?_, hv0, hch, ?_, by rw [e6], by simp [e2, ← e4], by simp [e2, ← e4], by simp [← e4], by simp [← e4],
    by rw [dim2 hA']; exact hnD, ?_, ?_, ?_⟩
  · have e0 : op.dim 0 = d * d := by simp [ND.dim, hop]
    have e1 : op.dim 1 = d * d := by simp [ND.dim, hop]
    have h4 : d * d ≠ 2 := by
      intro h
      have : d ≤ 1 ∨ 2 ≤ d := by omega
      rcases this with h' | h'
      · have := Nat.mul_le_mul h' h'; omega
      · have := Nat.mul_le_mul h' h'; omega
    unfold applyTwoSite
    simp only [e0, e1, h4, if_false, beq_self_eq_true, guardPy_true, ok_bind]
    rw [min_eq_left (by omega), max_eq_right (by omega)]
    simp only [gateList, show i + 1 - 1 - i = 0 by omega, List.range'_zero, List.reverse_nil, List.map_nil, List.nil_append,
      List.append_nil]
    rw [List.foldlM_cons, hstep]
    rfl
  · intro C hC
    simp only [List.mem_append, List.mem_cons] at hC
    rcases hC with hC | rfl | rfl | hC
    · exact hp C (by simp [e2, hC])
    · exact (posDims3 hA').2 ⟨hpA.1, hpA.2.1, hn⟩
    · exact (posDims3 hB').2 ⟨hpA.1, hn, hpB.2.2⟩
    · exact hp C (by simp [e2, hC])
  · intro hwl
    obtain ⟨j1, j2⟩ := i1 hwl
    refine ⟨j1, fun hL hR => ?_⟩
    have hcen : CenteredAt (As1 ++ A' :: B' :: As2) (i + 1) := by
      refine ⟨by rw [hch.length_eq]; exact hi', ?_, ?_⟩
      · rw [show As1 ++ A' :: B' :: As2 = (As1 ++ [A']) ++ (B' :: As2) by simp, List.take_left' (by simp [e4])]
        intro C hC
        rcases List.mem_append.1 hC with hC | hC
        · exact hL C (by rw [e2, List.take_left' e4]; exact hC)
        · rw [List.mem_singleton.1 hC]; exact j1
      · rw [show As1 ++ A' :: B' :: As2 = (As1 ++ [A', B']) ++ As2 by simp, List.drop_left' (by simp [e4])]
        intro C hC
        exact hR C (by rw [e2, show As1 ++ A :: B :: As2 = (As1 ++ [A, B]) ++ As2 by simp, List.drop_left' (by simp [e4])]; exact hC)
    refine ⟨hcen, ?_⟩
    obtain ⟨M, m', n', hg, hM, hG⟩ := centre_site hch hcen g2
    have : M = B' := by
      have h : pyGet (As1 ++ A' :: B' :: As2) (i + 1) = .ok B' := by simp [pyGet, ← e4]
      rw [h] at hg; cases hg; rfl
    subst this
    rw [hB'] at hM
    simp only [List.cons.injEq, and_true, true_and] at hM
    obtain ⟨rfl, rfl⟩ := hM
    rw [← opExpect_one hi', hG]
    refine Eq.trans ?_ j2
    refine Finset.sum_congr rfl fun s hs => ?_
    rw [Finset.sum_eq_single s]
    · simp only [if_true, one_mul]
    · intro t _ ht
      simp [show s ≠ t from fun h => ht h.symm]
    · exact fun h => absurd hs h
  · intro hwr
    obtain ⟨j1, j2⟩ := i2 hwr
    refine ⟨j1, fun hL hR => ?_⟩
    have hcen : CenteredAt (As1 ++ A' :: B' :: As2) i := by
      refine ⟨by rw [hch.length_eq]; exact hi, ?_, ?_⟩
      · rw [List.take_left' e4]
        exact fun C hC => hL C (by rw [e2, List.take_left' e4]; exact hC)
      · rw [show As1 ++ A' :: B' :: As2 = (As1 ++ [A']) ++ B' :: As2 by simp, List.drop_left' (by simp [e4])]
        intro C hC
        rcases List.mem_cons.1 hC with rfl | hC
        · exact j1
        · exact hR C (by rw [e2, show As1 ++ A :: B :: As2 = (As1 ++ [A, B]) ++ As2 by simp, List.drop_left' (by simp [e4])]; exact hC)
    refine ⟨hcen, ?_⟩
    obtain ⟨M, m', n', hg, hM, hG⟩ := centre_site hch hcen g1
    have : M = A' := by
      have h : pyGet (As1 ++ A' :: B' :: As2) i = .ok A' := by simp [pyGet, ← e4]
      rw [h] at hg; cases hg; rfl
    subst this
    rw [hA'] at hM
    simp only [List.cons.injEq, and_true, true_and] at hM
    obtain ⟨rfl, rfl⟩ := hM
    rw [← opExpect_one hi, hG]
    refine Eq.trans ?_ j2
    refine Finset.sum_congr rfl fun s hs => ?_
    rw [Finset.sum_eq_single s]
    · simp only [if_true, one_mul]
    · intro t _ ht
      simp [show s ≠ t from fun h => ht h.symm]
    · exact fun h => absurd hs h
  · intro hf s hs
    rw [dim1 hA, dim2 hB] at hf
    rw [e1] at hs
    obtain ⟨s1, t, s2, rfl, b1, ht, b2⟩ := hs.split
    match s2, b2 with
    | u :: s2, ⟨hu, b2⟩ =>
      have hl1 : s1.length = i := by rw [b1.length_eq, e3]
      simp only [e2]
      rw [psi_pair c1 hA hB c2 hA' hB' (W := fun s t s' t' => (v : ℂ)⁻¹ * op.val [s * d + t, s' * d + t']) (fun s hs t ht a ha c hc => by
        rw [hv hf s hs t ht a ha c hc]; simp only [hW, Finset.mul_sum, mul_assoc]) b1.length_eq ht hu b2.length_eq]
      subst hl1
      simp [gateAct, List.getD_eq_getElem?_getD, Finset.mul_sum, mul_assoc]

end FMPS

example (qr rq : ND ℂ → Py (ND ℂ × ND ℂ)) {svd : Svd} (hsvd : SVDLaw svd) (O : SetOrder) :=
  FMPS.applyTwoSite_svd qr rq hsvd O exThree_chain exThree_pos (i := 0) (d := 2) (D := 1) rfl rfl (by simp) (op := CNOT) rfl
    ⟨[0, 1, 1], by simp [InB, List.replicate], by
      simp [gateAct, Finset.sum_range_succ, CNOT, psi, exThree, pathProd, FMPS.column, ND.dim]⟩ (which := .l) (by simp) true

end Xmps
