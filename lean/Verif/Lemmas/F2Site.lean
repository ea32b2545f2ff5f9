import Verif.Lemmas.F2Term

/-!
# Evaluation of `F2`
-/

namespace Xmps

open Finset Spec Xmps.Ncon

/-! ### chains with two tensors replaced -/

section lists
variable {K : Type} {As : List K} {i j n : ℕ}

/-- the chain from site `n` on with the tensor of site `j ≥ n` replaced -/
def tailV (As : List K) (j n : ℕ) (V : K) : List K := (As.take j).drop n ++ V :: As.drop (j + 1)

theorem tailV_last (As : List K) (j : ℕ) (V : K) : tailV As j j V = V :: As.drop (j + 1) := by
  unfold tailV
  rw [List.drop_eq_nil_of_le (by simp), List.nil_append]

theorem tailV_step (hn : n < j) (hj : j < As.length) (V : K) : tailV As j n V = As[n] :: tailV As j (n + 1) V := by
  unfold tailV
  rw [List.drop_eq_getElem_cons (by simp; omega), List.getElem_take]
  rfl

theorem tailV_mid {m : ℕ} (hm : m ≤ n) (hn : n ≤ j) (hj : j < As.length) (V : K) :
    tailV As j m V = (As.take n).drop m ++ tailV As j n V := by
  unfold tailV
  rw [← List.append_assoc]
  congr 1
  conv_lhs => rw [← List.take_append_drop n (As.take j)]
  rw [List.drop_append_of_le_length (by simp; omega), List.take_take, min_eq_left hn]

theorem set_two (hij : i < j) (hj : j < As.length) (U V : K) : (As.set i U).set j V = As.take i ++ U :: tailV As j (i + 1) V := by
  rw [set_cut (by simpa using hj)]
  have e1 : (As.set i U).take j = As.take i ++ U :: (As.take j).drop (i + 1) := by
    rw [List.take_set, set_cut (by simp; omega), List.take_take, min_eq_left hij.le]
  rw [e1, List.drop_set_of_lt (by omega)]
  unfold tailV
  simp

theorem drop_cut (hn : n ≤ j) (hj : j < As.length) : As.drop n = tailV As j n As[j] := by
  conv_lhs => rw [list_cut hj]
  rw [List.drop_append_of_le_length (by simp; omega)]
  rfl

end lists

/-- what is known of the environments, the null vectors and the roots; `N` is the squared norm of the state -/
structure F2Ctx (L d : ℕ) (x : FMPS ℂ) (ls rs : List (ND ℂ)) (E : FMPS.InvEnvs) (N : ℝ) (vL l r : ℕ → ND ℂ) (p q k : ℕ → ℕ) (lam rho : ℕ → ℕ → ℝ) :
    Prop where
  hx : x.Holds (List.replicate L d)
  site : ∀ i (hi : i < x.data.length), TSite L d x.data ls rs i x.data[i] (vL i) (l i) (r i) (p i) (q i) (k i) (lam i) (rho i)
  icr : ∀ i < L, ∃ X, pyGet E.icr i = .ok X ∧ DiagM X (q i) fun a => (((Real.sqrt (rho i a))⁻¹ : ℝ) : ℂ)
  cr : ∀ i < L, ∃ X, pyGet E.cr i = .ok X ∧ DiagM X (q i) fun a => ((Real.sqrt (rho i a) : ℝ) : ℂ)
  icl : ∀ i < L, 0 < i → ∃ X, pyGetI E.icl ((i : ℤ) - 1) = .ok X ∧ DiagM X (p i) fun a => (((Real.sqrt (lam i a))⁻¹ : ℝ) : ℂ)
  cl : ∀ i < L, ∃ X, pyGetI E.cl ((i : ℤ) - 1) = .ok X ∧
    DiagM X (p i) fun a => (if i = 0 then ((Real.sqrt N : ℝ) : ℂ) else 1) * ((Real.sqrt (lam i a) : ℝ) : ℂ)
  icl0 : 0 < L → ∃ X nu, pyGetI E.icl ((0 : ℤ) - 1) = .ok X ∧ DiagM X (p 0) nu

section
variable {L d : ℕ} {x : FMPS ℂ} {ls rs : List (ND ℂ)} {E : FMPS.InvEnvs} {N : ℝ} {vL l r : ℕ → ND ℂ} {p q k : ℕ → ℕ} {lam rho : ℕ → ℕ → ℝ} {i j : ℕ}

theorem F2Ctx.len (c : F2Ctx L d x ls rs E N vL l r p q k lam rho) : x.data.length = L := by
  have := c.hx.chain.length_eq
  rw [List.length_replicate] at this
  omega

theorem F2Ctx.link (c : F2Ctx L d x ls rs E N vL l r p q k lam rho) (hi : i + 1 < L) : q i = p (i + 1) := by
  have hl := c.len
  have h1 := c.site i (by omega)
  have h2 := c.site (i + 1) (by omega)
  have e := h1.hn
  rw [List.drop_eq_getElem_cons (i := i + 1) (l := x.data) (by omega), List.drop_eq_getElem_cons (by simp; omega)] at e
  obtain ⟨m, e, -⟩ := e
  rw [h2.hA] at e
  simp at e
  exact e.1.symm

theorem F2Ctx.last (c : F2Ctx L d x ls rs E N vL l r p q k lam rho) (hi : i + 1 = L) : q i = 1 := by
  have hl := c.len
  have h1 := (c.site i (by omega)).hn
  rw [List.drop_eq_nil_of_le (by simp; omega), List.drop_eq_nil_of_le (by omega)] at h1
  exact h1

/-- the tangent tensor at site `i` with the coordinate `(a, b)` -/
noncomputable def F2Ctx.unit (_ : F2Ctx L d x ls rs E N vL l r p q k lam rho) (i a b : ℕ) : ND ℂ :=
  tanUnit d (p i) (q i) (vL i) (lam i) (rho i) a b

theorem F2Ctx.coord (c : F2Ctx L d x ls rs E N vL l r p q k lam rho) (hi : i < L) :
    FMPS.coordShape x ((List.range L).map vL) i = .ok (k i, q i) := by
  have hl := c.len
  have h1 := c.site i (by omega)
  have hxL : x.L = L := by rw [c.hx.len]; simp
  unfold FMPS.coordShape
  rw [pyGet_ok (by simpa using hi)]
  have hv : (vL i).dim 2 = k i := by simp [ND.dim, h1.basis.shape]
  by_cases hL : i + 1 = L
  · have e : i = x.L - 1 := by omega
    simp [← e, hv, c.last hL]
  · have h2 := c.site (i + 1) (by omega)
    have e : ¬ i = x.L - 1 := by omega
    rw [pyGet_ok (by omega : i + 1 < x.data.length)]
    simp [e, hv, dim1 h2.hA, c.link (i := i) (by omega)]

theorem F2Ctx.tail_chain (c : F2Ctx L d x ls rs E N vL l r p q k lam rho) (hj : j < L) {n b : ℕ} (hn : n ≤ j) {V : ND ℂ}
    (hV : V.shape = [d, p j, q j]) (hb : MpsChain ((List.replicate L d).take n) (x.data.take n) 1 b) :
    MpsChain ((List.replicate L d).drop n) (tailV x.data j n V) b 1 := by
  have hl := c.len
  have hs := c.site j (by omega)
  have h := chain_set (i := j) (B := V) (by omega) c.hx.chain (by rw [hV, hs.hA])
  rw [set_cut (by omega)] at h
  have e : x.data.take j ++ V :: x.data.drop (j + 1) = x.data.take n ++ tailV x.data j n V := by
    unfold tailV
    rw [← List.append_assoc]
    congr 1
    conv_lhs => rw [← List.take_append_drop n (x.data.take j)]
    rw [List.take_take, min_eq_left hn]
  rw [e, ← List.take_append_drop n (List.replicate L d)] at h
  obtain ⟨b', h1, h2⟩ := (mpsChain_append (by simp; omega)).1 h
  obtain rfl := chain_bond_unique hb h1
  exact h2

/-- the lists `Rjs` hold the right environments with the second site varied -/
theorem F2Ctx.rjs (c : F2Ctx L d x ls rs E N vL l r p q k lam rho) (O : SetOrder) (hij : i < j) (hj : j < L) :
    ∃ icl u w cr Rj Rjs, pyGetI E.icl ((j : ℤ) - 1) = .ok icl ∧ icl.matmul (vL j).conj = .ok u ∧ pyGet E.cr j = .ok cr ∧
      (x.data[j]'(by rw [c.len]; exact hj)).matmul cr = .ok w ∧ nc O [u, w] [[1, -2, -3], [1, -1, -4]] = .ok Rj ∧ x.leftTransfer Rj i j = .ok Rjs ∧
      ∀ n, i ≤ n → n ≤ j → ∃ T b, FMPS.leftAt Rjs i n = .ok T ∧ MpsChain ((List.replicate L d).take n) (x.data.take n) 1 b ∧ T.shape = [b, b, k j, q j] ∧
        ∀ k' < b, ∀ k1 < b, ∀ c1 < k j, ∀ e < q j, T.val [k', k1, c1, e] =
          mixR ((List.replicate L d).drop n) (tailV x.data j n (c.unit j c1 e)) (x.data.drop n) k' k1 := by
  have hl := c.len
  have hs := c.site j (by omega)
  obtain ⟨icl, e1, hicl⟩ := c.icl j hj (by omega)
  obtain ⟨cr, e2, hcr⟩ := c.cr j hj
  obtain ⟨u, e3, hu, huv⟩ := diag_mul_left (V := (vL j).conj) hicl.1 hs.basis.shape hicl.2
  obtain ⟨w, e4, hw, hwv⟩ := diag_mul_right hs.hA hcr.1 hcr.2
  obtain ⟨Rj, e5, hR, hRv⟩ := nc_eval O (AA := [u, w]) (v := [[1, -2, -3], [1, -1, -4]])
    (dimOf [(1, d), (-1, p j), (-2, p j), (-3, k j), (-4, q j)]) [1] [-1, -2, -3, -4]
    ⟨by simp, by simp [hu, hw, dimOf, List.lookup], by simp, by simp, by decide, by decide, by decide, by decide, by decide⟩
    (by decide) (by decide)
  have hR : Rj.shape = p j :: p j :: [k j, q j] := by rw [hR]; simp [dimOf, List.lookup]
  obtain ⟨Rjs, e6, hRjs⟩ := FMPS.leftTransfer_spec c.hx (j := i) (i := j) (by omega) (by simp; omega) hs.hp hR
  refine ⟨icl, u, w, cr, Rj, Rjs, e1, e3, e2, e4, e5, e6, ?_⟩
  intro n hin hnj
  obtain ⟨T, b, t1, t2, t3, t4⟩ := hRjs n hin hnj
  refine ⟨T, b, t1, t2, t3, ?_⟩
  intro k' hk' k1 hk1 c1 hc1 e he
  rw [t4 k' hk' k1 hk1 [c1, e] ⟨hc1, he, trivial⟩]
  have hmid : MpsChain (((List.replicate L d).take j).drop n) ((x.data.take j).drop n) b (p j) := by
    obtain ⟨b', h1, h2⟩ := chain_cut hs.hp n
    rw [List.take_take, List.take_take, min_eq_left hnj] at h1
    obtain rfl := chain_bond_unique t2 h1
    exact h2
  have ed : (List.replicate L d).drop n = ((List.replicate L d).take j).drop n ++ d :: (List.replicate L d).drop (j + 1) := by
    rw [drop_cut hnj (by simpa using hj)]
    simp [tailV]
  have ea : x.data.drop n = (x.data.take j).drop n ++ x.data[j] :: x.data.drop (j + 1) := drop_cut hnj (by omega)
  rw [ed, ea, tailV, mixR_append hmid hk' hk1]
  unfold pullBack
  refine sumIdx_congr fun s _ => Finset.sum_congr rfl fun y' hy' => Finset.sum_congr rfl fun y hy => ?_
  congr 2
  simp only [Finset.mem_range] at hy hy'
  unfold F2Ctx.unit
  rw [mixR_last hs.hA he hs.pos' hs.right]
  show Rj.val [y', y, c1, e] = _
  rw [hRv _ rfl]
  simp [labelSum, netTerm, assign, dimOf, List.lookup, Function.update]
  refine Finset.sum_congr rfl fun s _ => ?_
  rw [huv s y hy c1, hwv s y' e he]
  simp [ND.conj]

/-- the lists `Ris` hold the right environments up to the first varied site -/
theorem F2Ctx.ris_gen (c : F2Ctx L d x ls rs E N vL l r p q k lam rho) (O : SetOrder) (hi : i < L) :
    ∃ icl u Ri Ris, pyGetI E.icl ((i : ℤ) - 1) = .ok icl ∧ icl.matmul (vL i).conj = .ok u ∧
      nc O [u, x.data[i]'(by rw [c.len]; exact hi)] [[1, -2, -3], [1, -1, -4]] = .ok Ri ∧ x.leftTransfer Ri 0 i = .ok Ris ∧
      (0 < i → ∀ n ≤ i, ∃ T b, FMPS.leftAt Ris 0 n = .ok T ∧ MpsChain ((List.replicate L d).take n) (x.data.take n) 1 b ∧ T.shape = [b, b, k i, q i] ∧
        ∀ k' < b, ∀ k1 < b, ∀ a < k i, ∀ b1 < q i, ∀ Bs As, mixR ((List.replicate L d).drop n) ((x.data.take i).drop n ++ c.unit i a b1 :: Bs)
          ((x.data.take i).drop n ++ (x.data[i]'(by rw [c.len]; exact hi)) :: As) k' k1 =
          ∑ c1 ∈ range (q i), T.val [k', k1, a, c1] *
            (mixR ((List.replicate L d).drop (i + 1)) Bs As c1 b1 * (((Real.sqrt (rho i b1))⁻¹ : ℝ) : ℂ))) := by
  have hl := c.len
  have hs := c.site i (by omega)
  obtain ⟨icl, nu, e1, hicl, hnu⟩ : ∃ X nu, pyGetI E.icl ((i : ℤ) - 1) = .ok X ∧ DiagM X (p i) nu ∧
      (0 < i → nu = fun a => (((Real.sqrt (lam i a))⁻¹ : ℝ) : ℂ)) := by
    rcases Nat.eq_zero_or_pos i with rfl | h0
    · obtain ⟨X, nu, h1, h2⟩ := c.icl0 hi
      exact ⟨X, nu, h1, h2, by simp⟩
    · obtain ⟨X, h1, h2⟩ := c.icl i hi h0
      exact ⟨X, _, h1, h2, fun _ => rfl⟩
  obtain ⟨u, e3, hu, huv⟩ := diag_mul_left (V := (vL i).conj) hicl.1 hs.basis.shape hicl.2
  obtain ⟨Ri, e5, hR, hRv⟩ := nc_eval O (AA := [u, x.data[i]]) (v := [[1, -2, -3], [1, -1, -4]])
    (dimOf [(1, d), (-1, p i), (-2, p i), (-3, k i), (-4, q i)]) [1] [-1, -2, -3, -4]
    ⟨by simp, by simp [hu, hs.hA, dimOf, List.lookup], by simp, by simp, by decide, by decide, by decide, by decide, by decide⟩
    (by decide) (by decide)
  have hR : Ri.shape = p i :: p i :: [k i, q i] := by rw [hR]; simp [dimOf, List.lookup]
  obtain ⟨Ris, e6, hRis⟩ := FMPS.leftTransfer_spec c.hx (j := 0) (i := i) (by omega) (by simp; omega) hs.hp hR
  refine ⟨icl, u, Ri, Ris, e1, e3, e5, e6, ?_⟩
  intro h0 n hn
  obtain ⟨T, b, t1, t2, t3, t4⟩ := hRis n (by omega) hn
  refine ⟨T, b, t1, t2, t3, ?_⟩
  intro k' hk' k1 hk1 a ha b1 hb1 Bs As
  have hmid : MpsChain (((List.replicate L d).take i).drop n) ((x.data.take i).drop n) b (p i) := by
    obtain ⟨b', h1, h2⟩ := chain_cut hs.hp n
    rw [List.take_take, List.take_take, min_eq_left hn] at h1
    obtain rfl := chain_bond_unique t2 h1
    exact h2
  have ed : (List.replicate L d).drop n = ((List.replicate L d).take i).drop n ++ d :: (List.replicate L d).drop (i + 1) := by
    rw [drop_cut hn (by simpa using hi)]
    simp [tailV]
  rw [ed, mixR_append hmid hk' hk1]
  have hlin := pullBack_linear (dM := ((List.replicate L d).take i).drop n) (M := (x.data.take i).drop n) (r' := p i) (N1 := 1) (N2 := q i)
    (fun _ c1 => mixR ((List.replicate L d).drop (i + 1)) Bs As c1 b1 * (((Real.sqrt (rho i b1))⁻¹ : ℝ) : ℂ))
    (fun _ c1 y' y => Ri.val [y', y, a, c1]) k' k1
  simp only [Finset.sum_range_one] at hlin
  calc _ = pullBack (((List.replicate L d).take i).drop n) ((x.data.take i).drop n) (p i) (fun y' y => ∑ c1 ∈ range (q i),
        mixR ((List.replicate L d).drop (i + 1)) Bs As c1 b1 * (((Real.sqrt (rho i b1))⁻¹ : ℝ) : ℂ) * Ri.val [y', y, a, c1]) k' k1 := by
        unfold pullBack
        refine sumIdx_congr fun s _ => Finset.sum_congr rfl fun y' hy' => Finset.sum_congr rfl fun y hy => ?_
        congr 2
        simp only [Finset.mem_range] at hy hy'
        unfold F2Ctx.unit
        rw [mixR_unit hs.hA hb1, Finset.sum_comm]
        refine Finset.sum_congr rfl fun c1 _ => ?_
        rw [hRv _ rfl, ← Finset.sum_mul, mul_comm]
        congr 1
        simp [labelSum, netTerm, assign, dimOf, List.lookup, Function.update]
        refine Finset.sum_congr rfl fun s _ => ?_
        rw [huv s y hy a, hnu h0]
        simp [ND.conj]
    _ = _ := by
        rw [hlin]
        refine Finset.sum_congr rfl fun c1 hc1 => ?_
        rw [t4 k' hk' k1 hk1 [a, c1] ⟨ha, Finset.mem_range.1 hc1, trivial⟩, mul_comm]

/-- the lists `Ris` hold the right environments up to the first varied site -/
theorem F2Ctx.ris (c : F2Ctx L d x ls rs E N vL l r p q k lam rho) (O : SetOrder) (hi : i < L) :
    ∃ icl u Ri Ris, pyGetI E.icl ((i : ℤ) - 1) = .ok icl ∧ icl.matmul (vL i).conj = .ok u ∧
      nc O [u, x.data[i]'(by rw [c.len]; exact hi)] [[1, -2, -3], [1, -1, -4]] = .ok Ri ∧ x.leftTransfer Ri 0 i = .ok Ris ∧
      (0 < i → ∀ n ≤ i, ∃ T b, FMPS.leftAt Ris 0 n = .ok T ∧ MpsChain ((List.replicate L d).take n) (x.data.take n) 1 b ∧ T.shape = [b, b, k i, q i] ∧
        ∀ k' < b, ∀ k1 < b, ∀ a < k i, ∀ b1 < q i, ∀ Bs, mixR ((List.replicate L d).drop n) ((x.data.take i).drop n ++ c.unit i a b1 :: Bs) (x.data.drop n) k' k1 =
          ∑ c1 ∈ range (q i), T.val [k', k1, a, c1] *
            (mixR ((List.replicate L d).drop (i + 1)) Bs (x.data.drop (i + 1)) c1 b1 * (((Real.sqrt (rho i b1))⁻¹ : ℝ) : ℂ))) := by
  have hl := c.len
  obtain ⟨icl, u, Ri, Ris, e1, e2, e3, e4, h⟩ := c.ris_gen O hi
  refine ⟨icl, u, Ri, Ris, e1, e2, e3, e4, ?_⟩
  intro h0 n hn
  obtain ⟨T, b, t1, t2, t3, t4⟩ := h h0 n hn
  refine ⟨T, b, t1, t2, t3, ?_⟩
  intro k' hk' k1 hk1 a ha b1 hb1 Bs
  rw [← t4 k' hk' k1 hk1 a ha b1 hb1 Bs (x.data.drop (i + 1))]
  congr 1
  exact drop_cut hn (by omega)

theorem take_split {K : Type} (As : List K) {n i : ℕ} (hn : n ≤ i) : As.take i = As.take n ++ (As.take i).drop n := by
  conv_lhs => rw [← List.take_append_drop n (As.take i)]
  rw [List.take_take, min_eq_left hn]

theorem take_one {K : Type} {As : List K} {m : ℕ} (hm : m < As.length) (X : List K) : As.take (m + 1) ++ X = As.take m ++ As[m] :: X := by
  rw [List.take_succ_eq_append_getElem hm, List.append_assoc]
  rfl

/-- the chain with both tensors replaced -/
theorem F2Ctx.both_chain (c : F2Ctx L d x ls rs E N vL l r p q k lam rho) (hij : i < j) (hj : j < L) {n b : ℕ} (hn : n ≤ i) {U V : ND ℂ}
    (hU : U.shape = [d, p i, q i]) (hV : V.shape = [d, p j, q j]) (hb : MpsChain ((List.replicate L d).take n) (x.data.take n) 1 b) :
    MpsChain ((List.replicate L d).drop n) ((x.data.take i).drop n ++ U :: tailV x.data j (i + 1) V) b 1 := by
  have hl := c.len
  have h := chain_set (i := i) (B := U) (by omega) c.hx.chain (by rw [hU, (c.site i (by omega)).hA])
  have h := chain_set (i := j) (B := V) (by simp; omega) h (by rw [List.getElem_set_ne (by omega), hV, (c.site j (by omega)).hA])
  rw [set_two hij (by omega), take_split x.data hn, List.append_assoc, ← List.take_append_drop n (List.replicate L d)] at h
  obtain ⟨b', h1, h2⟩ := (mpsChain_append (by simp; omega)).1 h
  obtain rfl := chain_bond_unique hb h1
  exact h2

theorem F2Ctx.vs (_ : F2Ctx L d x ls rs E N vL l r p q k lam rho) (hi : i < L) : pyGet ((List.range L).map vL) i = .ok (vL i) := by
  rw [pyGet_ok (by simpa using hi)]
  simp

/-- a term at or before the first varied site -/
theorem F2Ctx.term (c : F2Ctx L d x ls rs E N vL l r p q k lam rho) (O : SetOrder) (hij : i < j) (hj : j < L) {m : ℕ} (hm : m ≤ i) {h h4 : ND ℂ}
    (h4v : Four d h h4) {Rjs Ris : List (ND ℂ)}
    (hRjs : ∀ n, i ≤ n → n ≤ j → ∃ T b, FMPS.leftAt Rjs i n = .ok T ∧ MpsChain ((List.replicate L d).take n) (x.data.take n) 1 b ∧ T.shape = [b, b, k j, q j] ∧
        ∀ k' < b, ∀ k1 < b, ∀ c1 < k j, ∀ e < q j, T.val [k', k1, c1, e] =
          mixR ((List.replicate L d).drop n) (tailV x.data j n (c.unit j c1 e)) (x.data.drop n) k' k1)
    (hRis : 0 < i → ∀ n ≤ i, ∃ T b, FMPS.leftAt Ris 0 n = .ok T ∧ MpsChain ((List.replicate L d).take n) (x.data.take n) 1 b ∧ T.shape = [b, b, k i, q i] ∧
        ∀ k' < b, ∀ k1 < b, ∀ a < k i, ∀ b1 < q i, ∀ Bs, mixR ((List.replicate L d).drop n) ((x.data.take i).drop n ++ c.unit i a b1 :: Bs) (x.data.drop n) k' k1 =
          ∑ c1 ∈ range (q i), T.val [k', k1, a, c1] *
            (mixR ((List.replicate L d).drop (i + 1)) Bs (x.data.drop (i + 1)) c1 b1 * (((Real.sqrt (rho i b1))⁻¹ : ℝ) : ℂ))) :
    ∃ T, FMPS.f2Term O x ls ((List.range L).map vL) E Rjs Ris i j m h4 = .ok T ∧ T.shape = [k i, q i, k j, q j] ∧
      ∀ a < k i, ∀ b < q i, ∀ c1 < k j, ∀ e < q j, T.val [a, b, c1, e] = (if i = 0 then ((Real.sqrt N : ℝ) : ℂ) else 1) *
        pairing (List.replicate L d) (psi (x.data.take i ++ c.unit i a b :: tailV x.data j (i + 1) (c.unit j c1 e)))
          (gateAct d h m (m + 1) (psi x.data)) := by
  have hl := c.len
  have hsm := c.site m (by omega)
  have hsm1 := c.site (m + 1) (by omega)
  have hlk := c.link (i := m) (by omega)
  have edm : List.replicate L d = (List.replicate L d).take m ++ d :: d :: (List.replicate L d).drop (m + 2) := by
    conv_lhs => rw [replicate_cut (L := L) (d := d) (i := m) (by omega)]
    rw [List.drop_eq_getElem_cons (i := m + 1) (by simp; omega)]
    simp
  have eam : x.data = x.data.take m ++ x.data[m] :: x.data[m + 1] :: x.data.drop (m + 2) := by
    conv_lhs => rw [list_cut (As := x.data) (i := m) (by omega)]
    rw [List.drop_eq_getElem_cons (i := m + 1) (by omega)]
  have hlen0 : ((List.replicate L d).take m).length = m := by simp; omega
  have hp2 : MpsChain ((List.replicate L d).take (m + 2)) (x.data.take (m + 2)) 1 (q (m + 1)) := by
    obtain ⟨p', q', g1, g2, g3, g4⟩ := chain_site c.hx.chain (i := m + 1) (by omega)
    rw [hsm1.hA] at g2
    have : q (m + 1) = q' := by simpa using (List.cons.inj (List.cons.inj (List.cons.inj g2).2).2).1
    rw [this]
    exact g3
  have hB : x.data[m + 1].shape = [d, q m, q (m + 1)] := by rw [hlk]; exact hsm1.hA
  rcases Nat.lt_trichotomy (m + 1) i with hmi | hmi | hmi
  · -- far
    obtain ⟨icr, e1, hicr⟩ := c.icr i (by omega)
    obtain ⟨R, b, f1, f2, f3, f4⟩ := hRjs (i + 1) (by omega) (by omega)
    have hb : b = q i := by
      obtain ⟨p', q', g1, g2, g3, g4⟩ := chain_site c.hx.chain (i := i) (by omega)
      rw [(c.site i (by omega)).hA] at g2
      rw [chain_bond_unique f2 g3]
      exact ((List.cons.inj (List.cons.inj (List.cons.inj g2).2).2).1).symm
    subst hb
    obtain ⟨Q, b, u1, u2, u3, u4⟩ := hRis (by omega) (m + 2) (by omega)
    obtain rfl := chain_bond_unique hp2 u2
    obtain ⟨T, t1, t2, t3⟩ := f2Term_far (x := x) (ls := ls) (vs := (List.range L).map vL) (E := E) (Rjs := Rjs) (Ris := Ris) (i := i) (j := j) (m := m)
      (rho := rho i) O h4v hsm.hp hsm.hA hB hsm1.hn hlen0 hmi (pyGet_ok _) (pyGet_ok _) hsm.left hsm.el ⟨hsm.hl, hsm.hlv⟩ e1 hicr
      (Bs := fun a b c1 e => (x.data.take i).drop (m + 2) ++ c.unit i a b :: tailV x.data j (i + 1) (c.unit j c1 e)) (by
        intro a b c1 e
        exact c.both_chain hij hj (by omega) rfl rfl hp2) (by exact_mod_cast f1) f3 (by exact_mod_cast u1) u3 (by
        intro k' hk' k1 hk1 a ha b hb c1 hc1 e he
        rw [u4 k' hk' k1 hk1 a ha b hb]
        refine Finset.sum_congr rfl fun y hy => ?_
        rw [f4 y (Finset.mem_range.1 hy) b hb c1 hc1 e he])
    refine ⟨T, t1, t2, ?_⟩
    intro a ha b hb c1 hc1 e he
    rw [t3 a ha b hb c1 hc1 e he, if_neg (by omega), one_mul, ← edm, ← eam]
    congr 2
    conv_rhs => rw [take_split x.data (n := m + 2) (i := i) (by omega), List.append_assoc, take_one (by omega), take_one (by omega)]
  · subst hmi
    obtain ⟨icr, e1, hicr⟩ := c.icr (m + 1) (by omega)
    obtain ⟨icl, e2, hicl⟩ := c.icl (m + 1) (by omega) (by omega)
    obtain ⟨R, b, f1, f2, f3, f4⟩ := hRjs (m + 2) (by omega) (by omega)
    obtain rfl := chain_bond_unique hp2 f2
    rw [← hlk] at hicl
    obtain ⟨T, t1, t2, t3⟩ := f2Term_second (x := x) (ls := ls) (vs := (List.range L).map vL) (E := E) (Rjs := Rjs) (Ris := Ris) (j := j) (m := m)
      O h4v hsm.hp hsm.hA hB hsm1.hn hlen0 (pyGet_ok _) (pyGet_ok _) hsm.left hsm.el ⟨hsm.hl, hsm.hlv⟩ e2 hicl e1 hicr
      (c.vs (by omega)) (by rw [hlk]; exact hsm1.basis.shape) (Bs := fun c1 e => tailV x.data j (m + 2) (c.unit j c1 e))
      (fun c1 e => c.tail_chain hj (by omega) rfl hp2) (by exact_mod_cast f1) f3 f4
    refine ⟨T, t1, t2, ?_⟩
    intro a ha b hb c1 hc1 e he
    rw [t3 a ha b hb c1 hc1 e he, if_neg (by omega), one_mul, ← edm, ← eam]
    congr 2
    rw [take_one (by omega)]
    unfold F2Ctx.unit
    rw [hlk]
  · obtain rfl : m = i := by omega
    obtain ⟨icr, e1, hicr⟩ := c.icr m (by omega)
    obtain ⟨cl, e2, hcl⟩ := c.cl m (by omega)
    rcases Nat.lt_or_ge (m + 1) j with hmj | hmj
    · obtain ⟨R, b, f1, f2, f3, f4⟩ := hRjs (m + 2) (by omega) (by omega)
      obtain rfl := chain_bond_unique hp2 f2
      obtain ⟨T, t1, t2, t3⟩ := f2Term_first (x := x) (ls := ls) (vs := (List.range L).map vL) (E := E) (Rjs := Rjs) (Ris := Ris) (i := m) (j := j)
        O h4v hsm.hp hsm.hA hB hsm1.hn (by omega) hlen0 (pyGet_ok _) (pyGet_ok _) hsm.left hsm.pos e2 hcl e1 hicr
        (c.vs (by omega)) hsm.basis.shape (Bs := fun c1 e => tailV x.data j (m + 2) (c.unit j c1 e))
        (fun c1 e => c.tail_chain hj (by omega) rfl hp2) (by exact_mod_cast f1) f3 f4
      refine ⟨T, t1, t2, ?_⟩
      intro a ha b hb c1 hc1 e he
      rw [t3 a ha b hb c1 hc1 e he, ← edm, ← eam, tailV_step (n := m + 1) (by omega) (by omega)]
      rfl
    · obtain rfl : j = m + 1 := by omega
      obtain ⟨cr, e3, hcr⟩ := c.cr (m + 1) (by omega)
      obtain ⟨icl, e4, hicl⟩ := c.icl (m + 1) (by omega) (by omega)
      rw [← hlk] at hicl
      obtain ⟨T, t1, t2, t3⟩ := f2Term_next (x := x) (ls := ls) (vs := (List.range L).map vL) (E := E) (Rjs := Rjs) (Ris := Ris) (i := m)
        O h4v hsm.hp hsm.hA hB hsm1.hn hlen0 (pyGet_ok _) (pyGet_ok _) hsm.left hsm.pos hsm1.right hsm1.pos' e2 hcl e3 hcr e1 hicr e4 hicl
        (c.vs (by omega)) hsm.basis.shape (c.vs (by omega)) (by rw [hlk]; exact hsm1.basis.shape)
      refine ⟨T, t1, t2, ?_⟩
      intro a ha b hb c1 hc1 e he
      rw [t3 a ha b hb c1 hc1 e he, ← edm, ← eam, tailV_last]
      unfold F2Ctx.unit
      rw [hlk]

theorem f2Loop_ok {O : SetOrder} {vs Rjs Ris : List (ND ℂ)} {k1 q1 k2 q2 : ℕ}
    (F : ℕ → ℕ → ℕ → ℕ → ℕ → ℂ) : ∀ (hs : List (ND ℂ × ℕ)) (G : ND ℂ), G.shape = [k1, q1, k2, q2] →
      (∀ hm ∈ hs, hm.2 ≤ i → ∃ T, FMPS.f2Term O x ls vs E Rjs Ris i j hm.2 hm.1 = .ok T ∧ T.shape = [k1, q1, k2, q2] ∧
        ∀ a < k1, ∀ b < q1, ∀ c < k2, ∀ e < q2, T.val [a, b, c, e] = F hm.2 a b c e) →
      ∃ G', FMPS.f2Loop O x ls vs E Rjs Ris i j hs G = .ok G' ∧ G'.shape = [k1, q1, k2, q2] ∧
        ∀ a < k1, ∀ b < q1, ∀ c < k2, ∀ e < q2, G'.val [a, b, c, e] =
          G.val [a, b, c, e] + (hs.map fun hm => if hm.2 ≤ i then F hm.2 a b c e else 0).sum
  | [], G, hG, _ => ⟨G, rfl, hG, by intros; simp⟩
  | (h, m) :: hs, G, hG, hh => by
    unfold FMPS.f2Loop
    by_cases hm : m ≤ i
    · obtain ⟨T, w1, w2, w3⟩ := hh (h, m) (by simp) hm
      rw [if_neg (by omega)]
      have w1' : FMPS.f2Term O x ls vs E Rjs Ris i j m h = .ok T := w1
      rw [w1', ok_bind]
      simp only [ND.zipNd, hG, w2, if_true, ok_bind]
      obtain ⟨G', v1, v2, v3⟩ := f2Loop_ok F hs ⟨[k1, q1, k2, q2], fun idx => G.val idx + T.val idx⟩ rfl
        (fun hm h' => hh hm (List.mem_cons_of_mem _ h'))
      refine ⟨G', v1, v2, ?_⟩
      intro a ha b hb c hc e he
      rw [v3 a ha b hb c hc e he, List.map_cons, List.sum_cons, if_pos hm, ← w3 a ha b hb c hc e he]
      ring
    · rw [if_pos (by omega)]
      obtain ⟨G', v1, v2, v3⟩ := f2Loop_ok F hs G hG (fun hm h' => hh hm (List.mem_cons_of_mem _ h'))
      refine ⟨G', v1, v2, ?_⟩
      intro a ha b hb c hc e he
      rw [v3 a ha b hb c hc e he, List.map_cons, List.sum_cons, if_neg hm, zero_add]

/-- a tangent tensor with a single coordinate is a left gauge -/
theorem F2Ctx.gauge (c : F2Ctx L d x ls rs E N vL l r p q k lam rho) (hi : i < L) {a : ℕ} (ha : a < k i) (b : ℕ) :
    LeftGauge d (p i) (q i) (leftEnv ((List.replicate L d).take i) (x.data.take i)) (x.data[i]'(by rw [c.len]; exact hi)) (c.unit i a b) := by
  have hl := c.len
  have hs := c.site i (by omega)
  refine hs.gauge_tensor (X := fun k1 c1 => if k1 = a then if c1 = b then 1 else 0 else 0) ?_
  intro s _ al _ be _
  unfold siteTensor F2Ctx.unit tanUnit
  simp only
  rw [Finset.sum_eq_single a]
  · by_cases h : be = b
    · subst h; simp
    · simp [h]
  · intro k1 _ hk
    simp [hk]
  · intro hn
    exact absurd (Finset.mem_range.2 ha) hn

/-- the terms after the first varied site vanish -/
theorem F2Ctx.vanish (c : F2Ctx L d x ls rs E N vL l r p q k lam rho) (hij : i < j) (hj : j < L) {m : ℕ} (hm : i < m) {h V : ND ℂ}
    (hV : V.shape = [d, p j, q j]) {U : ND ℂ} (hU : U.shape = [d, p i, q i])
    (hg : LeftGauge d (p i) (q i) (leftEnv ((List.replicate L d).take i) (x.data.take i)) (x.data[i]'(by rw [c.len]; omega)) U) :
    pairing (List.replicate L d) (psi (x.data.take i ++ U :: tailV x.data j (i + 1) V)) (gateAct d h m (m + 1) (psi x.data)) = 0 := by
  have hl := c.len
  have hs := c.site i (by omega)
  have hl1 : ((List.replicate L d).take i).length = i := by simp; omega
  have hp1 : MpsChain ((List.replicate L d).take (i + 1)) (x.data.take (i + 1)) 1 (q i) := by
    obtain ⟨p', q', g1, g2, g3, g4⟩ := chain_site c.hx.chain (i := i) (by omega)
    rw [hs.hA] at g2
    have : q i = q' := by simpa using (List.cons.inj (List.cons.inj (List.cons.inj g2).2).2).1
    rw [this]
    exact g3
  conv_lhs => rw [replicate_cut (L := L) (d := d) (i := i) (by omega)]
  refine inner_gauge hs.hp hU (c.tail_chain hj (by omega) hV hp1) hg (f := gateAct d h m (m + 1) (psi x.data))
    (g := fun s2 c => ∑ p1 ∈ range d, ∑ p2 ∈ range d, h.val [s2.getD (m - ((List.replicate L d).take i).length - 1) 0 * d +
      s2.getD (m + 1 - ((List.replicate L d).take i).length - 1) 0, p1 * d + p2] *
        amp (x.data.drop (i + 1)) ((s2.set (m - ((List.replicate L d).take i).length - 1) p1).set (m + 1 - ((List.replicate L d).take i).length - 1) p2) c 0) ?_
  intro s1 hs1 t ht s2 hs2
  conv_lhs => rw [list_cut (As := x.data) (i := i) (by omega)]
  exact gate_agree hs.hp hs.hA hs.hn (by rw [hl1]; omega) hs1 hs2 t

/-- `G_` for `i < j` -/
theorem F2Ctx.sorted (c : F2Ctx L d x ls rs E N vL l r p q k lam rho) (O : SetOrder) (hij : i < j) (hj : j < L) {H : List (ND ℂ)} (hL : H.length < L)
    (hH : ∀ h ∈ H, h.shape = [d * d, d * d]) :
    ∃ G, FMPS.f2Sorted O x ls ((List.range L).map vL) E H i j = .ok G ∧ G.shape = [k i, q i, k j, q j] ∧
      ∀ a < k i, ∀ b < q i, ∀ c1 < k j, ∀ e < q j, G.val [a, b, c1, e] = (if i = 0 then ((Real.sqrt N : ℝ) : ℂ) else 1) *
        pairing (List.replicate L d) (psi ((x.data.set i (c.unit i a b)).set j (c.unit j c1 e))) (hamAct d H (psi x.data)) := by
  have hl := c.len
  have hsi := c.site i (by omega)
  have hxd : x.d = d := by
    rw [c.hx.d]
    obtain ⟨L, rfl⟩ : ∃ L', L = L' + 1 := ⟨L - 1, by omega⟩
    simp [List.replicate_succ]
  have eH : (H.mapM fun h => h.reshape [x.d, x.d, x.d, x.d]) = .ok (H.map fun h => h.reshapeR [d, d, d, d]) := by
    refine mapM_ok ?_
    intro h hh
    rw [hxd, ND.reshape_ok (by rw [hH h hh]; simp [mul_assoc])]
  obtain ⟨icl, u, w, cr, Rj, Rjs, e1, e2, e3, e4, e5, e6, hRjs⟩ := c.rjs O hij hj
  obtain ⟨icl', u', Ri, Ris, f1, f2, f3, f4, hRis⟩ := c.ris O (i := i) (by omega)
  unfold FMPS.f2Sorted
  rw [if_neg (by omega), eH, ok_bind, c.coord (by omega), ok_bind]
  simp only
  rw [c.coord hj, ok_bind]
  simp only
  rw [pyGet_ok (by omega : i < x.data.length), ok_bind, dim0 hsi.hA, dim1 hsi.hA, dim2 hsi.hA]
  by_cases hq : d * p i = q i
  · rw [if_pos hq]
    refine ⟨_, rfl, rfl, ?_⟩
    intro a ha
    have := hsi.count
    omega
  · rw [if_neg hq, e1, ok_bind, c.vs hj, ok_bind, e2, ok_bind, pyGet_ok (by omega : j < x.data.length), ok_bind, e3, ok_bind, e4, ok_bind, e5, ok_bind, e6, ok_bind,
      f1, ok_bind, c.vs (by omega), ok_bind, f2, ok_bind, f3, ok_bind, f4, ok_bind]
    obtain ⟨G, v1, v2, v3⟩ := f2Loop_ok (O := O) (x := x) (ls := ls) (vs := (List.range L).map vL) (E := E) (Rjs := Rjs) (Ris := Ris) (i := i) (j := j)
      (k1 := k i) (q1 := q i) (k2 := k j) (q2 := q j)
      (fun m a b c1 e => (if i = 0 then ((Real.sqrt N : ℝ) : ℂ) else 1) *
        pairing (List.replicate L d) (psi (x.data.take i ++ c.unit i a b :: tailV x.data j (i + 1) (c.unit j c1 e)))
          (gateAct d (H.getD m ⟨[], fun _ => 0⟩) m (m + 1) (psi x.data)))
      ((H.map fun h => h.reshapeR [d, d, d, d]).zipIdx.reverse) (zerosND [k i, q i, k j, q j]) rfl (by
        rintro ⟨h4, m⟩ hm hmi
        rw [List.mem_reverse] at hm
        obtain ⟨hm1, hm2⟩ := List.mem_zipIdx' hm
        rw [List.length_map] at hm1
        simp only at hm1 hm2 hmi
        have : Four d (H.getD m ⟨[], fun _ => 0⟩) h4 := by
          rw [hm2, List.getElem_map]
          simp only [List.getD_eq_getElem?_getD, List.getElem?_eq_getElem hm1, Option.getD_some]
          exact four_reshape (hH _ (List.getElem_mem hm1))
        exact c.term O hij hj hmi this hRjs hRis)
    refine ⟨G, v1, v2, ?_⟩
    intro a ha b hb c1 hc1 e he
    rw [v3 a ha b hb c1 hc1 e he, set_two hij (by omega)]
    refine (congrArg₂ (· + ·) (x' := (0 : ℂ)) (by simp [zerosND]) ((zipIdx_sum (H.map fun h : ND ℂ => h.reshapeR [d, d, d, d]) (fun m => if m ≤ i then
      (if i = 0 then ((Real.sqrt N : ℝ) : ℂ) else 1) *
        pairing (List.replicate L d) (psi (x.data.take i ++ c.unit i a b :: tailV x.data j (i + 1) (c.unit j c1 e)))
          (gateAct d (H.getD m ⟨[], fun _ => 0⟩) m (m + 1) (psi x.data)) else 0)))).trans ?_
    rw [List.length_map, zero_add]
    unfold hamAct
    rw [pairing_sum, Finset.mul_sum]
    refine Finset.sum_congr rfl fun m _ => ?_
    by_cases h1 : m ≤ i
    · rw [if_pos h1]
    · rw [if_neg h1, c.vanish hij hj (by omega) rfl rfl (c.gauge (by omega) ha b), mul_zero]

end

end Xmps
