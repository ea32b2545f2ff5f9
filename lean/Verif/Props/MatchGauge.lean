import Verif.Model.MatchGauge
import Verif.Props.Envs
import Verif.Props.TransferMatrix
import Verif.Props.LapackSvd
import Verif.Props.Isometry
import Verif.Lemmas.Gauge

/-!
# `match_gauge_to`
-/

namespace Xmps

open Finset Xmps.Spec

namespace Spec

/-- `scipy.linalg.polar(S)` of a square matrix: `S = U P`, `U` unitary, `P` positive semidefinite. -/
def PolarLaw (polar : ND ℂ → Py (ND ℂ × ND ℂ)) : Prop :=
  ∀ (S : ND ℂ) (n : ℕ), S.shape = [n, n] → 0 < n → ∃ U P, polar S = .ok (U, P) ∧ U.shape = [n, n] ∧ P.shape = [n, n] ∧
    ColsOrtho U ∧ RowsOrtho U ∧ PosSemi n (fun i j => P.val [i, j]) ∧
    ∀ i < n, ∀ j < n, S.val [i, j] = ∑ k ∈ range n, U.val [i, k] * P.val [k, j]

/-- the overlap of two site tensors over site and right bond, as a matrix on the left bonds -/
noncomputable def gaugeOverlap (A B : ND ℂ) (a b : ℕ) : ℂ :=
  ∑ s ∈ range (A.dim 0), ∑ c ∈ range (A.dim 2), A.val [s, a, c] * star (B.val [s, b, c])

end Spec

/-- A product of unitaries is unitary. -/
theorem IsUnitary.mul {U V W : ND ℂ} {n : ℕ} (hU : IsUnitary U n) (hV : IsUnitary V n) (hW : W.shape = [n, n])
    (hv : ∀ i < n, ∀ j < n, W.val [i, j] = ∑ k ∈ range n, U.val [i, k] * V.val [k, j]) : IsUnitary W n := by
  have uc := hU.cols
  have ur := hU.rows
  have vc := hV.cols
  have vr := hV.rows
  simp only [ColsOrtho, RowsOrtho, ND.dim, hU.shape, hV.shape, List.getD_cons_zero, List.getD_cons_succ] at uc ur vc vr
  refine ⟨hW, ?_, ?_⟩
  · intro a ha b hb
    simp only [ND.dim, hW, List.getD_cons_zero, List.getD_cons_succ] at ha hb ⊢
    rw [← vc a ha b hb]
    have e : ∀ i ∈ range n, star (W.val [i, a]) * W.val [i, b] = ∑ k ∈ range n, ∑ k' ∈ range n,
        star (V.val [k, a]) * V.val [k', b] * (star (U.val [i, k]) * U.val [i, k']) := by
      intro i hi
      rw [hv i (mem_range.1 hi) a ha, hv i (mem_range.1 hi) b hb, star_sum, Finset.sum_mul_sum]
      refine Finset.sum_congr rfl fun k _ => Finset.sum_congr rfl fun k' _ => ?_
      rw [star_mul']
      ring
    rw [Finset.sum_congr rfl e, Finset.sum_comm]
    refine Finset.sum_congr rfl fun k hk => ?_
    rw [Finset.sum_comm, Finset.sum_congr rfl fun k' hk' => show _ = if k = k' then star (V.val [k, a]) * V.val [k', b] else 0 by
      rw [← Finset.mul_sum, uc k (mem_range.1 hk) k' (mem_range.1 hk')]; split <;> simp]
    rw [Finset.sum_ite_eq, if_pos hk]
  · intro a ha b hb
    simp only [ND.dim, hW, List.getD_cons_zero, List.getD_cons_succ] at ha hb ⊢
    rw [← ur a ha b hb]
    have e : ∀ i ∈ range n, W.val [a, i] * star (W.val [b, i]) = ∑ k ∈ range n, ∑ k' ∈ range n,
        U.val [a, k] * star (U.val [b, k']) * (V.val [k, i] * star (V.val [k', i])) := by
      intro i hi
      rw [hv a ha i (mem_range.1 hi), hv b hb i (mem_range.1 hi), star_sum, Finset.sum_mul_sum]
      refine Finset.sum_congr rfl fun k _ => Finset.sum_congr rfl fun k' _ => ?_
      rw [star_mul']
      ring
    rw [Finset.sum_congr rfl e, Finset.sum_comm]
    refine Finset.sum_congr rfl fun k hk => ?_
    rw [Finset.sum_comm, Finset.sum_congr rfl fun k' hk' => show _ = if k = k' then U.val [a, k] * star (U.val [b, k']) else 0 by
      rw [← Finset.mul_sum, vr k (mem_range.1 hk) k' (mem_range.1 hk')]; split <;> simp]
    rw [Finset.sum_ite_eq, if_pos hk]

/-- `V† diag(s) V` is positive semidefinite. -/
theorem posSemi_sandwich (n : ℕ) (v : ℕ → ℕ → ℂ) {s : ℕ → ℝ} (hs : ∀ k, 0 ≤ s k) :
    PosSemi n fun i j => ∑ k ∈ range n, star (v k i) * (s k : ℝ) * v k j := by
  refine ⟨?_, ?_⟩
  · intro i _ j _
    rw [star_sum]
    refine Finset.sum_congr rfl fun k _ => ?_
    rw [star_mul', star_mul', star_star, show star ((s k : ℝ) : ℂ) = (s k : ℝ) from Complex.conj_ofReal _]
    ring
  · intro x
    have e : ∑ i ∈ range n, ∑ j ∈ range n, star (x i) * (∑ k ∈ range n, star (v k i) * (s k : ℝ) * v k j) * x j =
        ∑ k ∈ range n, (s k : ℝ) * (star (∑ j ∈ range n, v k j * x j) * ∑ j ∈ range n, v k j * x j) := by
      rw [Finset.sum_congr rfl fun i _ => Finset.sum_congr rfl fun j _ => by rw [Finset.mul_sum, Finset.sum_mul],
        Finset.sum_congr rfl fun i _ => Finset.sum_comm, Finset.sum_comm]
      refine Finset.sum_congr rfl fun k _ => ?_
      rw [star_sum, Finset.sum_mul_sum, Finset.mul_sum]
      refine Finset.sum_congr rfl fun i _ => ?_
      rw [Finset.mul_sum]
      refine Finset.sum_congr rfl fun j _ => ?_
      rw [star_mul']
      ring
    rw [e, Complex.re_sum]
    refine Finset.sum_nonneg fun k _ => ?_
    rw [mul_comm (star _), Complex.star_def, Complex.mul_conj, ← Complex.ofReal_mul, Complex.ofReal_re]
    exact mul_nonneg (hs k) (Complex.normSq_nonneg _)

theorem PosSemi.congr {n : ℕ} {M M' : ℕ → ℕ → ℂ} (h : PosSemi n M) (e : ∀ i < n, ∀ j < n, M' i j = M i j) : PosSemi n M' := by
  refine ⟨fun i hi j hj => by rw [e j hj i hi, e i hi j hj, h.1 i hi j hj], fun v => ?_⟩
  have := h.2 v
  rwa [Finset.sum_congr rfl fun i hi => Finset.sum_congr rfl fun j hj => by rw [← e i (mem_range.1 hi) j (mem_range.1 hj)]] at this

theorem polarLaw_exists : ∃ polar : ND ℂ → Py (ND ℂ × ND ℂ), PolarLaw polar := by
  choose u v s h1 h2 h3 _ h5 using svd_exists
  refine ⟨fun A =>
    let n := A.dim 0
    let a : ℕ → ℕ → ℂ := fun i j => A.val [i, j]
    .ok (⟨[n, n], fun idx => ∑ k ∈ range n, u n n a (idx.getD 0 0) k * v n n a k (idx.getD 1 0)⟩,
      ⟨[n, n], fun idx => ∑ k ∈ range n, star (v n n a k (idx.getD 0 0)) * (s n n a k : ℝ) * v n n a k (idx.getD 1 0)⟩), ?_⟩
  intro A n hA hn
  have d0 : A.dim 0 = n := by simp [ND.dim, hA]
  simp only [d0]
  set a : ℕ → ℕ → ℂ := fun i j => A.val [i, j] with ha
  have g1 := h1 n n a
  have g2 := h2 n n a
  have g5 := h5 n n a
  rw [min_self] at g1 g2 g5
  have hU : IsUnitary (⟨[n, n], fun idx => u n n a (idx.getD 0 0) (idx.getD 1 0)⟩ : ND ℂ) n := by
    have hc : ColsOrtho (⟨[n, n], fun idx => u n n a (idx.getD 0 0) (idx.getD 1 0)⟩ : ND ℂ) := g1
    exact ⟨rfl, hc, ColsOrtho.rows rfl hn hc⟩
  have hV : IsUnitary (⟨[n, n], fun idx => v n n a (idx.getD 0 0) (idx.getD 1 0)⟩ : ND ℂ) n := by
    have hr : RowsOrtho (⟨[n, n], fun idx => v n n a (idx.getD 0 0) (idx.getD 1 0)⟩ : ND ℂ) := g2
    exact ⟨rfl, RowsOrtho.cols rfl hn hr, hr⟩
  have hW := IsUnitary.mul hU hV (W := ⟨[n, n], fun idx => ∑ k ∈ range n, u n n a (idx.getD 0 0) k * v n n a k (idx.getD 1 0)⟩) rfl
    fun i _ j _ => rfl
  refine ⟨_, _, rfl, rfl, rfl, hW.cols, hW.rows, posSemi_sandwich n (v n n a) (h3 n n a), ?_⟩
  intro i hi j hj
  have := g5 i hi j hj
  simp only [ha] at this ⊢
  rw [this]
  simp only [← ha, List.getD_cons_zero, List.getD_cons_succ]
  rw [Finset.sum_congr rfl fun k _ => Finset.sum_mul_sum _ _ _ _, Finset.sum_comm]
  refine Finset.sum_congr rfl fun l hl => ?_
  rw [Finset.sum_comm]
  symm
  rw [Finset.sum_congr rfl fun m hm => show _ = if l = m then u n n a i l * (s n n a m : ℝ) * v n n a m j else 0 by
    rw [Finset.sum_congr rfl fun k _ => show _ = u n n a i l * (s n n a m : ℝ) * v n n a m j * (v n n a l k * star (v n n a m k)) by ring,
      ← Finset.mul_sum, g2 l (mem_range.1 hl) m (mem_range.1 hm)]
    split <;> simp]
  rw [Finset.sum_ite_eq, if_pos hl]

/-- `S`, `U` and the new tensor of one step. -/
theorem matchSite_ok {polar : ND ℂ → Py (ND ℂ × ND ℂ)} (hp : PolarLaw polar) {A B : ND ℂ} {d l r : ℕ} (hA : A.shape = [d, l, r])
    (hB : B.shape = [d, l, r]) (hl : 0 < l) :
    ∃ t S U P A', A.matmul B.hc = .ok t ∧ t.sum0 = .ok S ∧ polar S = .ok (U, P) ∧ U.hc.matmul A = .ok A' ∧ IsUnitary U l ∧
      A'.shape = [d, l, r] ∧ (∀ s a c, A'.val [s, a, c] = ∑ e ∈ range l, star (U.val [e, a]) * A.val [s, e, c]) ∧
      PosSemi l (gaugeOverlap A' B) := by
  obtain ⟨b1, b2⟩ := hc3 hB
  obtain ⟨t, et, ht, vt⟩ := ND.matmul33 hA b1
  obtain ⟨S, eS, hS, vS⟩ := sum0_ok ht
  obtain ⟨U, P, eU, hU, hP, uc, ur, pp, hprod⟩ := hp S l hS hl
  obtain ⟨u1, u2⟩ := hc2 hU
  obtain ⟨A', eA, hA', vA⟩ := ND.matmul23 u1 hA
  refine ⟨t, S, U, P, A', et, eS, eU, eA, ⟨hU, uc, ur⟩, hA', fun s a c => by rw [vA]; simp only [u2], ?_⟩
  refine PosSemi.congr pp fun i hi j hj => ?_
  have uc' := uc
  simp only [ColsOrtho, ND.dim, hU, List.getD_cons_zero, List.getD_cons_succ] at uc'
  have e1 : gaugeOverlap A' B i j = ∑ e ∈ range l, star (U.val [e, i]) * S.val [e, j] := by
    rw [gaugeOverlap, dim2 hA', show A'.dim 0 = d by simp [ND.dim, hA']]
    simp only [vS]
    refine Eq.trans ?_ (Eq.trans Finset.sum_comm (Finset.sum_congr rfl fun e _ => (Finset.mul_sum _ _ _).symm))
    refine Finset.sum_congr rfl fun s hs => ?_
    have e0 : ∀ e ∈ range l, star (U.val [e, i]) * t.val [s, e, j] =
        ∑ c ∈ range r, star (U.val [e, i]) * (A.val [s, e, c] * B.hc.val [s, c, j]) := fun e _ => by rw [vt s (mem_range.1 hs), Finset.mul_sum]
    rw [Finset.sum_congr rfl e0]
    refine Eq.trans ?_ Finset.sum_comm
    refine Finset.sum_congr rfl fun c _ => ?_
    rw [vA, Finset.sum_mul]
    refine Finset.sum_congr rfl fun e _ => ?_
    rw [u2, b2]
    ring
  rw [e1, Finset.sum_congr rfl fun e he => by rw [hprod e (mem_range.1 he) j hj, Finset.mul_sum], Finset.sum_comm]
  rw [Finset.sum_congr rfl fun k hk => show _ = if i = k then P.val [k, j] else 0 by
    rw [Finset.sum_congr rfl fun e _ => show _ = (star (U.val [e, i]) * U.val [e, k]) * P.val [k, j] by ring, ← Finset.sum_mul,
      uc' i hi k (mem_range.1 hk)]
    split <;> simp]
  rw [Finset.sum_ite_eq, if_pos (mem_range.2 hi)]

/-- One step of the loop. -/
theorem matchStep_ok {polar : ND ℂ → Py (ND ℂ × ND ℂ)} (hp : PolarLaw polar) {ds : List ℕ} {As Bs : List (ND ℂ)} {i : ℕ}
    (h : MpsChain ds As 1 1) (hpos : PosDims As) (hi : i < As.length) (hlen : Bs.length = As.length)
    (hsh : ∀ k (hk : k < As.length), Bs[k].shape = As[k].shape) :
    ∃ As', ∃ hl : As'.length = As.length, matchStep polar Bs As i = .ok As' ∧ MpsChain ds As' 1 1 ∧
      (∀ k (hk : k < As.length), As'[k].shape = As[k].shape) ∧ (∀ k (hk : k < As.length), i < k → As'[k] = As[k]) ∧
      PosSemi (As[i].dim 1) (gaugeOverlap (As'[i]) Bs[i]) ∧
      ∃ z : ℂ, star z * z = 1 ∧ ∀ ss, InB ds ss → amp As' ss 0 0 = z * amp As ss 0 0 := by
  obtain ⟨ds1, d, ds2, As1, A, As2, m, n, rfl, rfl, l1, l2, c1, hA, c2⟩ := chain_at h (by rw [← h.length_eq]; exact hi)
  subst l2
  have hAi : (As1 ++ A :: As2)[As1.length] = A := by simp
  have hB := hsh As1.length hi
  rw [hAi, hA] at hB
  have hm : 0 < m := hpos A (by simp) m (by simp [hA])
  obtain ⟨t, S, U, P, A', e1, e2, e3, e4, hU, hA', vA, hP⟩ := matchSite_ok hp hA hB hm
  have uc := hU.cols
  have ur := hU.rows
  simp only [ColsOrtho, RowsOrtho, ND.dim, hU.shape, List.getD_cons_zero, List.getD_cons_succ] at uc ur
  have g1 : pyGet (As1 ++ A :: As2) As1.length = .ok A := by rw [pyGet_ok hi, hAi]
  have g2 : pyGet Bs As1.length = .ok Bs[As1.length] := pyGet_ok (by omega)
  rw [hAi, show A.dim 1 = m by simp [ND.dim, hA]]
  rcases List.eq_nil_or_concat As1 with rfl | ⟨As0, C, rfl⟩
  · -- the first site: the bond has dimension 1
    obtain rfl : ds1 = [] := List.length_eq_zero_iff.1 l1
    obtain rfl : 1 = m := c1
    refine ⟨A' :: As2, rfl, ?_, ⟨n, hA', c2⟩, ?_, ?_, hP, star (U.val [0, 0]), ?_, ?_⟩
    · unfold matchStep
      simp only [List.length_nil, List.nil_append] at g1 g2 e1 ⊢
      simp only [g1, g2, e1, e2, e3, e4, ok_bind]
      rfl
    · intro k hk
      match k with
      | 0 => simp [hA, hA']
      | k + 1 => simp
    · intro k hk hk0
      match k with
      | k + 1 => simp
    · have := ur 0 (by omega) 0 (by omega)
      simpa using this
    · intro ss hss
      match ss, hss with
      | s :: ss, _ =>
        simp only [List.nil_append, amp_cons, dim2 hA, dim2 hA', Finset.mul_sum]
        refine Finset.sum_congr rfl fun c _ => ?_
        rw [vA]
        simp only [Finset.sum_range_one]
        ring
  · -- an inner bond
    simp only [List.concat_eq_append, List.length_append, List.length_cons, List.length_nil, List.append_assoc, List.cons_append, List.nil_append,
      Nat.zero_add] at *
    obtain ⟨ds0, dC, rfl⟩ : ∃ ds0 dC, ds1 = ds0 ++ [dC] := by
      rcases List.eq_nil_or_concat ds1 with rfl | ⟨ds0, dC, rfl⟩
      · simp at l1
      · exact ⟨ds0, dC, by simp⟩
    have l0 : ds0.length = As0.length := by simpa using l1
    obtain ⟨p, c0, q, hC, hq⟩ := (mpsChain_append (ds' := [dC]) (As' := [C]) l0.symm).1 c1
    obtain rfl : q = m := hq
    obtain ⟨C', e5, hC', vC⟩ := ND.matmul32 hC hU.shape
    refine ⟨As0 ++ C' :: A' :: As2, by simp, ?_, ?_, ?_, ?_, ?_, 1, by simp, ?_⟩
    · unfold matchStep
      have g3 : pyGet (As0 ++ C :: A' :: As2) As0.length = .ok C := by rw [pyGet_ok (by simp)]; simp
      have g4 : (As0 ++ C :: A :: As2).set (As0.length + 1) A' = As0 ++ C :: A' :: As2 := by
        rw [List.set_append_right _ _ (by omega)]; simp
      have g5 : (As0 ++ C :: A' :: As2).set As0.length C' = As0 ++ C' :: A' :: As2 := by
        rw [List.set_append_right _ _ (by omega)]; simp
      simp only [g1, g2, e1, e2, e3, e4, ok_bind, g4, g3, e5, g5]
    · rw [List.append_assoc]
      exact (mpsChain_append (by rw [l0])).2 ⟨p, c0, q, hC', n, hA', c2⟩
    · intro k hk
      rcases Nat.lt_trichotomy k As0.length with hlt | rfl | hgt
      · simp [List.getElem_append_left hlt]
      · simp [hC, hC']
      · obtain ⟨j, rfl⟩ := Nat.exists_eq_add_of_lt hgt
        rw [List.getElem_append_right (by omega), List.getElem_append_right (by omega)]
        match j with
        | 0 => simp [hA, hA']
        | j + 1 => simp [Nat.add_assoc, Nat.add_sub_cancel_left]
    · intro k hk hk0
      obtain ⟨j, rfl⟩ : ∃ j, k = As0.length + (j + 2) := ⟨k - As0.length - 2, by omega⟩
      rw [List.getElem_append_right (by omega), List.getElem_append_right (by omega)]
      simp [Nat.add_sub_cancel_left]
    · have : (As0 ++ C' :: A' :: As2)[As0.length + 1]'(by simp) = A' := by
        rw [List.getElem_append_right (by omega)]; simp
      rw [this]
      exact hP
    · intro ss hss
      rw [one_mul]
      rw [List.append_assoc] at hss
      symm
      refine amp_prefix c0 (ds2 := [dC] ++ d :: ds2) (fun ss hss a ha b => ?_) hss (by omega) 0
      refine amp_bond (R := fun e f => star (U.val [f, e])) hC hA hC' hA' c2 ?_ ?_ hss ha b
      · intro s _ a _ c hc
        simp only [vC]
        rw [Finset.sum_congr rfl fun e _ => Finset.sum_mul _ _ _, Finset.sum_comm]
        rw [Finset.sum_congr rfl fun f hf => show _ = if f = c then C.val [s, a, f] else 0 by
          rw [Finset.sum_congr rfl fun e _ => mul_assoc _ _ _, ← Finset.mul_sum, ur f (mem_range.1 hf) c hc]
          split <;> simp]
        rw [Finset.sum_ite_eq' (range q) c, if_pos (mem_range.2 hc)]
      · intro s _ e _ c _
        rw [vA]

/-- The whole loop. -/
theorem matchLoop_ok {polar : ND ℂ → Py (ND ℂ × ND ℂ)} (hp : PolarLaw polar) {ds : List ℕ} {Bs : List (ND ℂ)} :
    ∀ (n : ℕ) {As : List (ND ℂ)}, MpsChain ds As 1 1 → PosDims As → n ≤ As.length → (hlen : Bs.length = As.length) →
    (∀ k (hk : k < As.length), Bs[k].shape = As[k].shape) →
    ∃ As', ∃ hl : As'.length = As.length, matchLoop polar Bs n As = .ok As' ∧ MpsChain ds As' 1 1 ∧
      (∀ k (hk : k < As.length), As'[k].shape = As[k].shape) ∧ (∀ k (hk : k < As.length), n ≤ k → As'[k] = As[k]) ∧
      (∀ k (hk : k < As.length), k < n → PosSemi (As[k].dim 1) (gaugeOverlap As'[k] Bs[k])) ∧
      ∃ z : ℂ, star z * z = 1 ∧ ∀ ss, InB ds ss → amp As' ss 0 0 = z * amp As ss 0 0
  | 0, As, h, _, _, hlen, hsh => ⟨As, rfl, rfl, h, fun _ _ => rfl, fun _ _ _ => rfl, fun _ _ h => by omega, 1, by simp, fun _ _ => by simp⟩
  | n + 1, As, h, hpos, hn, hlen, hsh => by
    obtain ⟨A1, hl1, e1, c1, s1, u1, p1, z1, hz1, a1⟩ := matchStep_ok hp h hpos (i := n) (by omega) hlen hsh
    have hpos1 : PosDims A1 := by
      intro A hA x hx
      obtain ⟨k, hk, rfl⟩ := List.mem_iff_getElem.1 hA
      rw [s1 k (by omega)] at hx
      exact hpos _ (List.getElem_mem _) x hx
    obtain ⟨A2, hl2, e2, c2, s2, u2, p2, z2, hz2, a2⟩ := matchLoop_ok hp (Bs := Bs) n (As := A1) c1 hpos1 (by omega) (by omega)
      (fun k hk => by rw [hsh k (by rw [hl1] at hk; exact hk), s1 k (by rw [hl1] at hk; exact hk)])
    refine ⟨A2, by omega, ?_, c2, ?_, ?_, ?_, z2 * z1, ?_, ?_⟩
    · rw [matchLoop, e1, ok_bind, e2]
    · intro k hk
      rw [s2 k (by omega), s1 k hk]
    · intro k hk hnk
      rw [u2 k (by omega) (by omega), u1 k hk (by omega)]
    · intro k hk hkn
      rcases Nat.lt_or_ge k n with hlt | hge
      · have := p2 k (by omega) hlt
        have hd : (A1[k]'(by omega)).dim 1 = As[k].dim 1 := by simp only [ND.dim, s1 k hk]
        rw [hd] at this
        exact this
      · obtain rfl : k = n := by omega
        rw [u2 k (by omega) le_rfl]
        exact p1
    · rw [star_mul', show star z2 * star z1 * (z2 * z1) = (star z2 * z2) * (star z1 * z1) by ring, hz2, hz1, one_mul]
    · intro ss hss
      rw [a2 ss hss, a1 ss hss, mul_assoc]

/-- **C39** `x.match_gauge_to(y)` for chains of equal structure: the state of `x` changes by a phase at most, the bond dimensions stay, and
the overlap of every tensor with the tensor of `y` at the same site is positive semidefinite. -/
theorem FMPS.matchGaugeTo_spec {polar : ND ℂ → Py (ND ℂ × ND ℂ)} (hp : PolarLaw polar) {x y : FMPS ℂ} {ds : List ℕ} (hx : x.Holds ds)
    (hpos : PosDims x.data) (hlen : y.data.length = x.data.length) (hsh : ∀ k (hk : k < x.data.length), y.data[k].shape = x.data[k].shape) :
    ∃ x' : FMPS ℂ, ∃ hl : x'.data.length = x.data.length, x.matchGaugeTo polar y = .ok x' ∧ x'.Holds ds ∧
      (∀ k (hk : k < x.data.length), x'.data[k].shape = x.data[k].shape) ∧
      (∀ k (hk : k < x.data.length), PosSemi (x.data[k].dim 1) (gaugeOverlap x'.data[k] y.data[k])) ∧
      ∃ z : ℂ, star z * z = 1 ∧ ∀ s, InB ds s → psi x'.data s = z * psi x.data s := by
  obtain ⟨A', hl, e, c, s, -, p, z, hz, a⟩ := matchLoop_ok hp x.data.length hx.chain hpos le_rfl hlen hsh
  have hL : x.L = x.data.length := hx.len.trans hx.chain.length_eq.symm
  have hne : A' ≠ [] := by
    intro h0
    rw [h0] at hl
    exact hx.data_ne (List.length_eq_zero_iff.1 hl.symm)
  refine ⟨{ x with data := A' }, hl, ?_, ⟨c, hx.ne, hx.len, hx.d⟩, s, fun k hk => p k hk hk, z, hz, ?_⟩
  · unfold FMPS.matchGaugeTo
    rw [hL, e]
    rfl
  · intro ss hss
    rw [psi_eq_amp c hne hss.length_eq, psi_eq_amp hx.chain hx.data_ne hss.length_eq, a ss hss]

/-! ### the hypotheses can be met -/

example : ∃ polar, ∃ x', FMPS.matchGaugeTo polar (exTwo 2) (exTwo Complex.I) = .ok x' := by
  obtain ⟨polar, hp⟩ := polarLaw_exists
  obtain ⟨x', -, e, -⟩ := FMPS.matchGaugeTo_spec hp (exTwo_holds 2) (exTwo_pos 2) (y := exTwo Complex.I) rfl (fun k hk => match k, hk with
    | 0, _ => rfl
    | 1, _ => rfl)
  exact ⟨polar, x', e⟩

end Xmps
