import Verif.Model.Envs
import Verif.Lemmas.Envs
import Verif.Lemmas.TensordotRest
import Verif.Lemmas.FmpsExamples

/-!
# C41: transfer operators
-/

namespace Xmps

open Finset Xmps.Spec Xmps.Ncon

section
variable {K : Type} [CommSemiring K] [StarRing K]

theorem transferStep_ok {A L : ND K} {d l r : ℕ} {rest : List ℕ} (hA : A.shape = [d, l, r]) (hL : L.shape = r :: r :: rest) :
    ∃ W, FMPS.transferStep A L = .ok W ∧ W.shape = l :: l :: rest ∧ ∀ a b t, t.length = rest.length → W.val (a :: b :: t) =
      ∑ s ∈ range d, ∑ c ∈ range r, ∑ c' ∈ range r, A.val [s, a, c] * L.val (c :: c' :: t) * star (A.val [s, b, c']) := by
  obtain ⟨C, e1, h1, v1⟩ := ND.tensordot_2_1 (A := A.conj) (B := L) (by simpa using hA) hL
  obtain ⟨W, e2, h2, v2⟩ := ND.tensordot_02_02 (A := A) (B := C) hA h1
  refine ⟨W, ?_, h2, ?_⟩
  · unfold FMPS.transferStep
    rw [e1, ok_bind, e2]
  · intro a b t ht
    rw [v2 a b t ht]
    refine Finset.sum_congr rfl fun s _ => Finset.sum_congr rfl fun c _ => ?_
    rw [v1 s b c t ht, Finset.mul_sum]
    exact Finset.sum_congr rfl fun c' _ => by simp only [ND.val_conj]; ring

theorem pullBack_cons {ds : List ℕ} {As : List (ND K)} {A : ND K} {d l m r : ℕ} (hA : A.shape = [d, l, m]) (X : ℕ → ℕ → K) (a b : ℕ) :
    pullBack (d :: ds) (A :: As) r X a b =
      ∑ s ∈ range d, ∑ c ∈ range m, ∑ c' ∈ range m, A.val [s, a, c] * pullBack ds As r X c c' * star (A.val [s, b, c']) := by
  unfold pullBack
  rw [sumIdx_cons]
  refine Finset.sum_congr rfl fun s _ => ?_
  simp only [← sumIdx_mul_left, ← sumIdx_mul_right, ← sumIdx_finset_sum]
  refine sumIdx_congr fun t _ => ?_
  simp only [amp_cons, dim2 hA, star_sum, Finset.sum_mul, Finset.mul_sum, star_mul']
  calc _ = ∑ e ∈ range r, ∑ e' ∈ range r, ∑ c ∈ range m, ∑ c' ∈ range m,
        A.val [s, a, c] * amp As t c e * X e e' * (star (A.val [s, b, c']) * star (amp As t c' e')) := by
        refine Finset.sum_congr rfl fun e _ => Finset.sum_congr rfl fun e' _ => Finset.sum_comm
    _ = ∑ c ∈ range m, ∑ c' ∈ range m, ∑ e ∈ range r, ∑ e' ∈ range r,
        A.val [s, a, c] * amp As t c e * X e e' * (star (A.val [s, b, c']) * star (amp As t c' e')) := by
        rw [Finset.sum_congr rfl fun e _ => Finset.sum_comm]
        rw [Finset.sum_comm]
        refine Finset.sum_congr rfl fun c _ => ?_
        rw [Finset.sum_congr rfl fun e _ => Finset.sum_comm]
        rw [Finset.sum_comm]
    _ = _ := by
        refine Finset.sum_congr rfl fun c _ => Finset.sum_congr rfl fun c' _ => Finset.sum_congr rfl fun e _ =>
          Finset.sum_congr rfl fun e' _ => by ring

theorem pullBack_nil {r : ℕ} (X : ℕ → ℕ → K) (a b : ℕ) (ha : a < r) (hb : b < r) : pullBack [] [] r X a b = X a b := by
  simp only [pullBack, sumIdx_nil, amp_nil]
  rw [Finset.sum_eq_single a]
  · rw [Finset.sum_eq_single b]
    · simp
    · intro c' _ h; simp [Ne.symm h]
    · simp [hb]
  · intro c _ h; simp [Ne.symm h]
  · simp [ha]

theorem leftTransferList_ok {As : List (ND K)} {ds : List ℕ} {op : ND K} {r : ℕ} {rest : List ℕ} (hop : op.shape = r :: r :: rest) :
    ∀ (k j : ℕ) (m : ℕ), MpsChain ((ds.drop j).take k) ((As.drop j).take k) m r → j + k ≤ As.length →
    ∃ Ls, FMPS.leftTransferList op As j k = .ok Ls ∧ Ls.length = k + 1 ∧
      ∀ n ≤ k, ∃ T q, pyGet Ls n = .ok T ∧ MpsChain ((ds.drop (j + n)).take (k - n)) ((As.drop (j + n)).take (k - n)) q r ∧
        T.shape = q :: q :: rest ∧ ∀ a < q, ∀ b < q, ∀ t, InB rest t →
        T.val (a :: b :: t) = pullBack ((ds.drop (j + n)).take (k - n)) ((As.drop (j + n)).take (k - n)) r (fun c c' => op.val (c :: c' :: t)) a b
  | 0, j, m, h, hj => by
    refine ⟨[op], rfl, rfl, ?_⟩
    intro n hn
    obtain rfl : n = 0 := by omega
    refine ⟨op, r, rfl, by simp, hop, ?_⟩
    intro a ha b hb t ht
    simp only [Nat.sub_zero, List.take_zero]
    rw [pullBack_nil _ _ _ ha hb]
  | k + 1, j, m, h, hj => by
    have hjA : j < As.length := by omega
    have hlen := h.length_eq
    have hjd : j < ds.length := by
      by_contra hc
      rw [List.drop_eq_nil_of_le (by omega : ds.length ≤ j)] at hlen
      simp at hlen
      omega
    rw [List.drop_eq_getElem_cons hjA, List.take_succ_cons, List.drop_eq_getElem_cons hjd, List.take_succ_cons] at h
    obtain ⟨p, hA, h⟩ := h
    obtain ⟨Ls, e, hl, hv⟩ := leftTransferList_ok hop k (j + 1) p h (by omega)
    obtain ⟨T, q, g1, g2, g3, g4⟩ := hv 0 (by omega)
    have hq : p = q := by
      have g2 : MpsChain ((ds.drop (j + 1)).take k) ((As.drop (j + 1)).take k) q r := g2
      match k, h, g2 with
      | 0, h, g2 =>
        simp at h g2
        omega
      | k + 1, h, g2 =>
        have hjA : j + 1 < As.length := by omega
        have hjd : j + 1 < ds.length := by
          have := h.length_eq
          simp at this
          omega
        rw [List.drop_eq_getElem_cons hjA, List.take_succ_cons, List.drop_eq_getElem_cons hjd, List.take_succ_cons] at h g2
        obtain ⟨_, h, _⟩ := h
        obtain ⟨_, g2, _⟩ := g2
        rw [h] at g2
        simpa using (List.cons.inj (List.cons.inj g2).2).1
    subst hq
    obtain ⟨W, e2, hW, hWv⟩ := transferStep_ok hA g3
    refine ⟨W :: Ls, ?_, by simp [hl], ?_⟩
    · unfold FMPS.leftTransferList
      rw [e, ok_bind, pyGet_ok hjA, ok_bind, g1, ok_bind, e2, ok_bind]
    · intro n hn
      match n with
      | 0 =>
        refine ⟨W, m, rfl, ?_, hW, ?_⟩
        · simp only [Nat.add_zero, Nat.sub_zero]
          rw [List.drop_eq_getElem_cons hjA, List.take_succ_cons, List.drop_eq_getElem_cons hjd, List.take_succ_cons]
          exact ⟨p, hA, h⟩
        · intro a ha b hb t ht
          rw [hWv a b t ht.length_eq]
          simp only [Nat.add_zero, Nat.sub_zero]
          rw [List.drop_eq_getElem_cons hjA, List.take_succ_cons, List.drop_eq_getElem_cons hjd, List.take_succ_cons, pullBack_cons hA]
          refine Finset.sum_congr rfl fun s _ => Finset.sum_congr rfl fun c hc => Finset.sum_congr rfl fun c' hc' => ?_
          rw [g4 c (by simpa using hc) c' (by simpa using hc') t ht]
          rfl
      | n + 1 =>
        obtain ⟨T', q', g1', g2', g3', g4'⟩ := hv n (by omega)
        have e1 : j + (n + 1) = j + 1 + n := by omega
        have e2 : k + 1 - (n + 1) = k - n := by omega
        rw [e1, e2]
        exact ⟨T', q', by simpa using g1', g2', g3', g4'⟩

/-- **C41** `left_transfer(op, j, i)`: for an operator (u, d, ...) on the bond before site `i`, the returned function gives at
every `n` between `j` and `i` the operator `Σ_s M_s op M_s†`, `M_s` the product of the matrices of the sites `n, .., i-1`. -/
theorem FMPS.leftTransfer_spec {x : FMPS K} {ds : List ℕ} (hx : x.Holds ds) {op : ND K} {j i r : ℕ} {rest : List ℕ}
    (hji : j ≤ i) (hi : i ≤ ds.length) (hr : MpsChain (ds.take i) (x.data.take i) 1 r) (hop : op.shape = r :: r :: rest) :
    ∃ Ls, x.leftTransfer op j i = .ok Ls ∧ ∀ n, j ≤ n → n ≤ i → ∃ T q, FMPS.leftAt Ls j n = .ok T ∧
      MpsChain (ds.take n) (x.data.take n) 1 q ∧ T.shape = q :: q :: rest ∧ ∀ a < q, ∀ b < q, ∀ t, InB rest t →
        T.val (a :: b :: t) = pullBack ((ds.take i).drop n) ((x.data.take i).drop n) r (fun c c' => op.val (c :: c' :: t)) a b := by
  have hlen := hx.chain.length_eq
  have cut : ∀ n ≤ i, ∃ q, MpsChain (ds.take n) (x.data.take n) 1 q ∧ MpsChain ((ds.drop n).take (i - n)) ((x.data.drop n).take (i - n)) q r := by
    intro n hn
    obtain ⟨q, h1, h2⟩ := chain_cut hr n
    rw [List.take_take, List.take_take, min_eq_left hn] at h1
    rw [List.drop_take, List.drop_take] at h2
    exact ⟨q, h1, h2⟩
  obtain ⟨m, _, hm⟩ := cut j hji
  obtain ⟨Ls, e, hl, hv⟩ := leftTransferList_ok hop (i - j) j m hm (by omega)
  refine ⟨Ls, e, ?_⟩
  intro n hjn hni
  obtain ⟨T, q, g1, g2, g3, g4⟩ := hv (n - j) (by omega)
  have e1 : j + (n - j) = n := by omega
  have e2 : i - j - (n - j) = i - n := by omega
  rw [e1, e2] at g2 g4
  obtain ⟨q', h1, h2⟩ := cut n hni
  have hq : q = q' := by
    rcases Nat.eq_or_lt_of_le hni with rfl | hlt
    · simp at g2 h2
      omega
    · have hA : n < x.data.length := by omega
      have hD : n < ds.length := by omega
      obtain ⟨k, hk⟩ : ∃ k, i - n = k + 1 := ⟨i - n - 1, by omega⟩
      rw [hk, List.drop_eq_getElem_cons hA, List.take_succ_cons, List.drop_eq_getElem_cons hD, List.take_succ_cons] at g2 h2
      obtain ⟨_, g2, _⟩ := g2
      obtain ⟨_, h2, _⟩ := h2
      rw [g2] at h2
      simpa using (List.cons.inj (List.cons.inj h2).2).1
  subst hq
  refine ⟨T, q, ?_, h1, g3, ?_⟩
  · unfold FMPS.leftAt pyGetI
    rw [if_pos (by omega)]
    have : ((n : ℤ) - (j : ℤ)).toNat = n - j := by omega
    rw [this, g1]
  · intro a ha b hb t ht
    rw [g4 a ha b hb t ht, List.drop_take, List.drop_take]

theorem leftTransferList_comp {As : List (ND K)} {op T : ND K} {b : ℕ} : ∀ (a j : ℕ) {Ms Ns : List (ND K)},
    FMPS.leftTransferList op As (j + a) b = .ok Ms → pyGet Ms 0 = .ok T → FMPS.leftTransferList T As j a = .ok Ns →
    ∃ Ls, FMPS.leftTransferList op As j (a + b) = .ok Ls ∧ ∀ n ≤ a, pyGet Ls n = pyGet Ns n
  | 0, j, Ms, Ns, h1, h2, h3 => by
    refine ⟨Ms, by simpa using h1, ?_⟩
    intro n hn
    obtain rfl : n = 0 := by omega
    rw [h2, ← Except.ok.inj h3]
    rfl
  | a + 1, j, Ms, Ns, h1, h2, h3 => by
    unfold FMPS.leftTransferList at h3
    obtain ⟨Ns', e1, h3⟩ := bind_eq_ok h3
    obtain ⟨A, e2, h3⟩ := bind_eq_ok h3
    obtain ⟨L, e3, h3⟩ := bind_eq_ok h3
    obtain ⟨W, e4, h3⟩ := bind_eq_ok h3
    obtain ⟨Ls, e5, hv⟩ := leftTransferList_comp a (j + 1) (by rw [show j + 1 + a = j + (a + 1) by omega]; exact h1) h2 e1
    refine ⟨W :: Ls, ?_, ?_⟩
    · rw [show a + 1 + b = a + b + 1 by omega]
      unfold FMPS.leftTransferList
      rw [e5, ok_bind, e2, ok_bind, hv 0 (by omega), e3, ok_bind, e4, ok_bind]
    · intro n hn
      rw [← Except.ok.inj h3]
      match n with
      | 0 => rfl
      | n + 1 => simpa using hv n (by omega)

/-- **C41** transfers compose: carrying `op` from `k` to `i` and the result on to `j` gives at every site what carrying
`op` from `k` to `j` gives. -/
theorem FMPS.leftTransfer_comp {x : FMPS K} {ds : List ℕ} (hx : x.Holds ds) {op : ND K} {j i k r : ℕ} {rest : List ℕ}
    (hji : j ≤ i) (hik : i ≤ k) (hk : k ≤ ds.length) (hr : MpsChain (ds.take k) (x.data.take k) 1 r) (hop : op.shape = r :: r :: rest) :
    ∃ Ls Ms T Ns, x.leftTransfer op j k = .ok Ls ∧ x.leftTransfer op i k = .ok Ms ∧ FMPS.leftAt Ms i i = .ok T ∧
      x.leftTransfer T j i = .ok Ns ∧ ∀ n : ℕ, j ≤ n → n ≤ i → FMPS.leftAt Ls j n = FMPS.leftAt Ns j n := by
  obtain ⟨Ms, e1, h1⟩ := FMPS.leftTransfer_spec hx hik hk hr hop
  obtain ⟨T, q, g1, g2, g3, -⟩ := h1 i le_rfl hik
  obtain ⟨Ns, e2, -⟩ := FMPS.leftTransfer_spec hx hji (by omega) g2 g3
  have g0 : pyGet Ms 0 = .ok T := by
    unfold FMPS.leftAt pyGetI at g1
    rw [if_pos (by omega)] at g1
    simpa using g1
  unfold FMPS.leftTransfer at e1 e2
  obtain ⟨Ls, e3, hv⟩ := leftTransferList_comp (i - j) j (b := k - i) (by rw [show j + (i - j) = i by omega]; exact e1) g0 e2
  refine ⟨Ls, Ms, T, Ns, ?_, e1, g1, e2, ?_⟩
  · unfold FMPS.leftTransfer
    rw [show k - j = i - j + (k - i) by omega, e3]
  · intro n h2 h3
    unfold FMPS.leftAt pyGetI
    rw [if_pos (by omega), if_pos (by omega), show ((n : ℤ) - (j : ℤ)).toNat = n - j by omega]
    exact hv (n - j) (by omega)

/-! ### `right_transfer` -/

theorem rightTransferStep_ok (O : SetOrder) {A R : ND K} {d l r : ℕ} (hA : A.shape = [d, l, r]) (hR : R.shape = [l, l]) :
    ∃ W, FMPS.rightTransferStep O 2 A R = .ok W ∧ W.shape = [r, r] ∧ ∀ c' c, W.val [c', c] =
      ∑ s ∈ range d, ∑ a ∈ range l, ∑ b ∈ range l, A.val [s, a, c] * R.val [a, b] * star (A.val [s, b, c']) := by
  obtain ⟨W, e, hs, hv⟩ := nc_eval O (AA := [A.conj, A, R]) (v := [[1, 3, -1], [1, 2, -2], [2, 3]])
    (dimOf [(1, d), (2, l), (3, l), (-1, r), (-2, r)]) [1, 2, 3] [-1, -2]
    ⟨by simp, by simp [hA, hR, dimOf, List.lookup], by simp, by simp, by decide, by decide, by decide, by decide, by decide⟩
    (by decide) (by decide)
  refine ⟨W, e, by rw [hs]; simp [dimOf, List.lookup], ?_⟩
  intro c' c
  rw [hv [c', c] rfl]
  simp [labelSum, netTerm, assign, dimOf, List.lookup, Function.update]
  refine Finset.sum_congr rfl fun s _ => Finset.sum_congr rfl fun a _ => Finset.sum_congr rfl fun b _ => by ring

theorem pushOn_cons {ds : List ℕ} {As : List (ND K)} {A : ND K} {d l m : ℕ} (hA : A.shape = [d, l, m]) (X : ℕ → ℕ → K) (c c' : ℕ) :
    pushOn (d :: ds) (A :: As) l X c c' = pushOn ds As m
      (fun e e' => ∑ s ∈ range d, ∑ a ∈ range l, ∑ b ∈ range l, A.val [s, a, e] * X a b * star (A.val [s, b, e'])) c c' := by
  unfold pushOn
  rw [sumIdx_cons, ← sumIdx_finset_sum]
  refine sumIdx_congr fun t _ => ?_
  simp only [amp_cons, dim2 hA, star_sum, Finset.sum_mul, Finset.mul_sum, star_mul']
  calc _ = ∑ s ∈ range d, ∑ e ∈ range m, ∑ e' ∈ range m, ∑ a ∈ range l, ∑ b ∈ range l,
        A.val [s, a, e] * amp As t e c * X a b * (star (A.val [s, b, e']) * star (amp As t e' c')) := by
        refine Finset.sum_congr rfl fun s _ => ?_
        rw [Finset.sum_congr rfl fun a _ => Finset.sum_congr rfl fun b _ => Finset.sum_comm]
        rw [Finset.sum_congr rfl fun a _ => Finset.sum_comm, Finset.sum_comm]
        refine Finset.sum_congr rfl fun e _ => ?_
        rw [Finset.sum_congr rfl fun a _ => Finset.sum_comm, Finset.sum_comm]
    _ = ∑ e ∈ range m, ∑ e' ∈ range m, ∑ s ∈ range d, ∑ a ∈ range l, ∑ b ∈ range l,
        A.val [s, a, e] * amp As t e c * X a b * (star (A.val [s, b, e']) * star (amp As t e' c')) := by
        rw [Finset.sum_comm]
        refine Finset.sum_congr rfl fun e _ => ?_
        rw [Finset.sum_comm]
    _ = _ := by
        refine Finset.sum_congr rfl fun e _ => Finset.sum_congr rfl fun e' _ => Finset.sum_congr rfl fun s _ =>
          Finset.sum_congr rfl fun a _ => Finset.sum_congr rfl fun b _ => by ring

theorem pushOn_nil {l : ℕ} (X : ℕ → ℕ → K) (c c' : ℕ) (hc : c < l) (hc' : c' < l) : pushOn [] [] l X c c' = X c c' := by
  simp only [pushOn, sumIdx_nil, amp_nil]
  rw [Finset.sum_eq_single c]
  · rw [Finset.sum_eq_single c']
    · simp
    · intro b _ h; simp [h]
    · simp [hc']
  · intro a _ h; simp [h]
  · simp [hc]

theorem pushOn_congr {ds : List ℕ} {As : List (ND K)} {l : ℕ} {X Y : ℕ → ℕ → K} (h : ∀ a < l, ∀ b < l, X a b = Y a b) (c c' : ℕ) :
    pushOn ds As l X c c' = pushOn ds As l Y c c' := by
  unfold pushOn
  refine sumIdx_congr fun s _ => Finset.sum_congr rfl fun a ha => Finset.sum_congr rfl fun b hb => ?_
  rw [h a (by simpa using ha) b (by simpa using hb)]

theorem rightTransferList_ok (O : SetOrder) {As : List (ND K)} {ds : List ℕ} (hreal : ∀ A ∈ As, ∀ idx, star (A.val idx) = A.val idx) :
    ∀ (k m : ℕ) (R : ND K) (l q : ℕ), R.shape = [l, l] → (∀ a b, R.val [a, b] = R.val [b, a]) →
    MpsChain ((ds.drop m).take k) ((As.drop m).take k) l q → m + k ≤ As.length →
    ∃ Rs, FMPS.rightTransferList O 2 As R m k = .ok Rs ∧ ∀ n ≤ k, ∃ T p, pyGet Rs n = .ok T ∧ T.shape = [p, p] ∧
      MpsChain ((ds.drop m).take n) ((As.drop m).take n) l p ∧
      ∀ c < p, ∀ c' < p, T.val [c, c'] = pushOn ((ds.drop m).take n) ((As.drop m).take n) l (fun a b => R.val [a, b]) c c'
  | 0, m, R, l, q, hR, hsym, h, hm => by
    refine ⟨[R], rfl, ?_⟩
    intro n hn
    obtain rfl : n = 0 := by omega
    refine ⟨R, l, rfl, hR, by simp, ?_⟩
    intro c hc c' hc'
    simp only [List.take_zero]
    rw [pushOn_nil _ _ _ hc hc']
  | k + 1, m, R, l, q, hR, hsym, h, hm => by
    have hmA : m < As.length := by omega
    have hmd : m < ds.length := by
      have := h.length_eq
      simp at this
      omega
    rw [List.drop_eq_getElem_cons hmA, List.take_succ_cons, List.drop_eq_getElem_cons hmd, List.take_succ_cons] at h
    obtain ⟨p, hA, h⟩ := h
    obtain ⟨W, e, hW, hv⟩ := rightTransferStep_ok O hA hR
    have hr := hreal _ (List.getElem_mem hmA)
    have hWsym : ∀ a b, W.val [a, b] = W.val [b, a] := by
      intro a b
      rw [hv, hv]
      refine Finset.sum_congr rfl fun s _ => ?_
      rw [Finset.sum_comm]
      refine Finset.sum_congr rfl fun u _ => Finset.sum_congr rfl fun v _ => ?_
      rw [hr, hr, hsym v u]
      ring
    obtain ⟨Rs, e2, hv2⟩ := rightTransferList_ok O hreal k (m + 1) W p q hW hWsym h (by omega)
    refine ⟨R :: Rs, ?_, ?_⟩
    · unfold FMPS.rightTransferList
      rw [pyGet_ok hmA, ok_bind, e, ok_bind, e2, ok_bind]
    · intro n hn
      match n with
      | 0 =>
        refine ⟨R, l, rfl, hR, by simp, ?_⟩
        intro c hc c' hc'
        simp only [List.take_zero]
        rw [pushOn_nil _ _ _ hc hc']
      | n + 1 =>
        obtain ⟨T, p', g1, g2, g3, g4⟩ := hv2 n (by omega)
        rw [List.drop_eq_getElem_cons hmA, List.take_succ_cons, List.drop_eq_getElem_cons hmd, List.take_succ_cons]
        refine ⟨T, p', by simpa using g1, g2, ⟨p, hA, g3⟩, ?_⟩
        intro c hc c' hc'
        rw [g4 c hc c' hc', pushOn_cons hA]
        refine pushOn_congr (fun a _ b _ => ?_) c c'
        rw [hWsym, hv]

end

/-- **C41** `right_transfer(op, i, j)` for real tensors and a symmetric matrix `op` on the bond after site `i`: the operator
`Σ_s M_sᵀ op conj(M_s)` carried through the sites `i+1, .., n` is what the returned function gives at `n + 1`.
Partial: for complex tensors the code exchanges the two indices at every site (`rightTransfer_swaps`), and the docstring promises
the result at `n`, not `n + 1` (`rightTransfer_shift`). -/
theorem FMPS.rightTransfer_real_partial {K : Type} [CommSemiring K] [StarRing K] (O : SetOrder) {x : FMPS K} {ds : List ℕ} (hx : x.Holds ds)
    (hreal : ∀ A ∈ x.data, ∀ idx, star (A.val idx) = A.val idx) {op : ND K} {i j r : ℕ} (hij : i ≤ j) (hj : j < ds.length)
    (hr : MpsChain (ds.take (i + 1)) (x.data.take (i + 1)) 1 r) (hop : op.shape = [r, r]) (hsym : ∀ a b, op.val [a, b] = op.val [b, a]) :
    ∃ Rs, x.rightTransfer O op i j = .ok Rs ∧ ∀ n : ℕ, i ≤ n → n ≤ j → ∃ T p, FMPS.rightAt Rs i (n + 1) = .ok T ∧
      MpsChain (ds.take (n + 1)) (x.data.take (n + 1)) 1 p ∧ T.shape = [p, p] ∧ ∀ c < p, ∀ c' < p,
        T.val [c, c'] = pushOn ((ds.drop (i + 1)).take (n - i)) ((x.data.drop (i + 1)).take (n - i)) r (fun a b => op.val [a, b]) c c' := by
  have hlen := hx.chain.length_eq
  obtain ⟨q, h1, h2⟩ := chain_cut hx.chain (i + 1)
  obtain rfl := chain_bond_unique h1 hr
  obtain ⟨q', h3, h4⟩ := chain_cut h2 (j - i)
  obtain ⟨Rs, e, hv⟩ := rightTransferList_ok O hreal (j - i) (i + 1) op q q' hop hsym h3 (by omega)
  refine ⟨Rs, ?_, ?_⟩
  · unfold FMPS.rightTransfer
    rw [show op.rank = 2 by simp [ND.rank, hop], e]
  · intro n hin hnj
    obtain ⟨T, p, g1, g2, g3, g4⟩ := hv (n - i) (by omega)
    refine ⟨T, p, ?_, ?_, g2, g4⟩
    · unfold FMPS.rightAt pyGetI
      rw [if_pos (by omega), show ((n : ℤ) + 1 - (i : ℤ) - 1).toNat = n - i by omega, g1]
    · have e1 : ds.take (n + 1) = ds.take (i + 1) ++ (ds.drop (i + 1)).take (n - i) := by
        rw [← List.take_add]
        congr 1
        omega
      have e2 : x.data.take (n + 1) = x.data.take (i + 1) ++ (x.data.drop (i + 1)).take (n - i) := by
        rw [← List.take_add]
        congr 1
        omega
      rw [e1, e2]
      exact (mpsChain_append h1.length_eq).2 ⟨q, h1, g3⟩

/-- A complex tensor. -/
noncomputable def exMid : ND ℂ := ⟨[2, 1, 2], fun | [0, 0, 0] => 1 | [0, 0, 1] => Complex.I | _ => 0⟩

/-- A chain of three sites whose middle tensor is complex. -/
noncomputable def exSwap : FMPS ℂ :=
  { data := [⟨[2, 1, 1], fun _ => 1⟩, exMid,
             ⟨[2, 2, 1], fun _ => 1⟩], L := 3, d := 2, D := 2 }

theorem exSwap_holds : exSwap.Holds [2, 2, 2] := ⟨⟨1, rfl, 2, rfl, 1, rfl, rfl⟩, by simp, rfl, rfl⟩

/-- **C41 fails for `right_transfer`**: after one site the result has its two indices exchanged: the entry (0, 1) is `i`
where `Σ_s M_sᵀ op conj(M_s)` has `-i`. -/
theorem FMPS.rightTransfer_swaps (O : SetOrder) : ∃ Rs T, exSwap.rightTransfer O (onesND [1, 1]) 0 1 = .ok Rs ∧
    FMPS.rightAt Rs 0 2 = .ok T ∧ T.val [0, 1] = Complex.I ∧
    pushOn [2] [exMid] 1 (fun a b => (onesND [1, 1] : ND ℂ).val [a, b]) 0 1 = -Complex.I := by
  obtain ⟨W, e, hs, hv⟩ := rightTransferStep_ok O (A := exMid) (R := (onesND [1, 1] : ND ℂ)) (d := 2) (l := 1) (r := 2) rfl rfl
  have e' : FMPS.rightTransferList O 2 exSwap.data (onesND [1, 1] : ND ℂ) 1 1 = .ok [onesND [1, 1], W] := by
    unfold FMPS.rightTransferList
    rw [show pyGet exSwap.data 1 = .ok exMid from rfl, ok_bind, e, ok_bind]
    rfl
  refine ⟨_, W, e', rfl, ?_, ?_⟩
  · rw [hv]
    simp [exMid, onesND, Finset.sum_range_succ]
  · rw [pushOn_cons (A := exMid) (d := 2) (l := 1) (m := 2) rfl, pushOn_nil _ _ _ (by omega) (by omega)]
    simp [exMid, onesND, Finset.sum_range_succ]

/-- The docstring of `right_transfer` says that the returned function gives `op` at the starting site `i`.  It gives the
operator carried to the other end; `op` itself is found at `i + 1`. -/
theorem FMPS.rightTransfer_shift {K : Type} [CommSemiring K] [StarRing K] (O : SetOrder) {x : FMPS K} {op : ND K} {i j : ℕ} {Rs : List (ND K)}
    (h : x.rightTransfer O op i j = .ok Rs) : FMPS.rightAt Rs i (i + 1) = .ok op ∧ FMPS.rightAt Rs i i = FMPS.rightAt Rs i (i + Rs.length) := by
  have hl : ∃ Rt, Rs = op :: Rt := by
    unfold FMPS.rightTransfer at h
    match j - i, h with
    | 0, h => exact ⟨[], (Except.ok.inj h).symm⟩
    | k + 1, h =>
      unfold FMPS.rightTransferList at h
      obtain ⟨_, _, h⟩ := bind_eq_ok h
      obtain ⟨_, _, h⟩ := bind_eq_ok h
      obtain ⟨Rt, _, h⟩ := bind_eq_ok h
      exact ⟨Rt, (Except.ok.inj h).symm⟩
  obtain ⟨Rt, rfl⟩ := hl
  constructor
  · unfold FMPS.rightAt pyGetI
    rw [if_pos (by omega), show ((i : ℤ) + 1 - (i : ℤ) - 1).toNat = 0 by omega]
    rfl
  · unfold FMPS.rightAt pyGetI
    rw [if_neg (by omega), if_pos (by simp), if_pos (by simp)]
    congr 1
    simp

/-- `right_transfer(op, i, j, ret_all=False)` is `op`: nothing is transferred. -/
theorem FMPS.rightTransferOne_eq {K : Type} [CommSemiring K] [StarRing K] (O : SetOrder) {x : FMPS K} {op T : ND K} {i j : ℕ}
    (h : x.rightTransferOne O op i j = .ok T) : T = op := by
  unfold FMPS.rightTransferOne at h
  obtain ⟨Rs, e, h⟩ := bind_eq_ok h
  have := (FMPS.rightTransfer_shift O e).1
  unfold FMPS.rightAt pyGetI at this
  rw [if_pos (by omega), show ((i : ℤ) + 1 - (i : ℤ) - 1).toNat = 0 by omega, h] at this
  exact Except.ok.inj this

/-! ### the hypotheses can be met -/

example := FMPS.leftTransfer_spec exSwap_holds (op := (onesND [2, 2, 5] : ND ℂ)) (j := 0) (i := 2) (r := 2) (rest := [5]) (by omega)
  (by simp) ⟨1, rfl, 2, rfl, rfl⟩ rfl
example := FMPS.leftTransfer_comp exSwap_holds (op := (onesND [1, 1] : ND ℂ)) (j := 0) (i := 1) (k := 3) (r := 1) (rest := []) (by omega) (by omega)
  (by simp) ⟨1, rfl, 2, rfl, 1, rfl, rfl⟩ rfl
example (O : SetOrder) := FMPS.rightTransfer_real_partial O
  (x := { data := [⟨[2, 1, 2], fun idx => (idx.sum : ℤ)⟩, ⟨[2, 2, 2], fun idx => (idx.sum : ℤ)⟩, ⟨[2, 2, 1], fun _ => 1⟩], L := 3, d := 2, D := 2 })
  (ds := [2, 2, 2]) ⟨⟨2, rfl, 2, rfl, 1, rfl, rfl⟩, by simp, rfl, rfl⟩ (by intro A _ idx; exact star_trivial _) (op := eyeND 2) (i := 0) (j := 2)
  (r := 2) (by omega) (by simp) ⟨2, rfl, rfl⟩ rfl (by intro a b; simp [eyeND, eq_comm])
example (O : SetOrder) : ∃ T, exSwap.rightTransferOne O (onesND [1, 1]) 0 1 = .ok T := by
  obtain ⟨Rs, T, h, -⟩ := FMPS.rightTransfer_swaps O
  refine ⟨onesND [1, 1], ?_⟩
  unfold FMPS.rightTransferOne
  have := (FMPS.rightTransfer_shift O h).1
  unfold FMPS.rightAt pyGetI at this
  rw [if_pos (by omega)] at this
  rw [h, ok_bind]
  simpa using this

end Xmps
