import Verif.Lemmas.F1Term

/-!
# Evaluation of `F1` for two different sites
-/

namespace Xmps

open Finset Spec Xmps.Ncon

theorem set_tail {K : Type} {As : List K} {i j : ℕ} (hij : i < j) (hj : j < As.length) (V : K) :
    As.set j V = As.take i ++ As[i] :: tailV As j (i + 1) V := by
  rw [set_cut hj, take_split As (n := i) (i := j) (by omega), List.append_assoc]
  congr 1
  rw [show (As.take j).drop i ++ V :: As.drop (j + 1) = tailV As j i V from rfl, tailV_step hij hj]

theorem rightTransferStep_four (O : SetOrder) {A R : ND ℂ} {d l r q1 q2 : ℕ} (hA : A.shape = [d, l, r]) (hR : R.shape = [q1, q2, l, l]) :
    ∃ W, FMPS.rightTransferStep O 4 A R = .ok W ∧ W.shape = [q1, q2, r, r] ∧ ∀ x y c' c, W.val [x, y, c', c] =
      ∑ s ∈ range d, ∑ b ∈ range l, ∑ b' ∈ range l, star (A.val [s, b', c']) * (A.val [s, b, c] * R.val [x, y, b, b']) := by
  obtain ⟨W, e, hW, hWv⟩ := nc_eval O (AA := [A.conj, A, R]) (v := [[1, 3, -3], [1, 2, -4], [-1, -2, 2, 3]])
    (dimOf [(1, d), (2, l), (3, l), (-1, q1), (-2, q2), (-3, r), (-4, r)]) [1, 2, 3] [-1, -2, -3, -4]
    ⟨by simp, by simp [ND.conj, hA, hR, dimOf, List.lookup], by simp, by simp, by decide, by decide, by decide, by decide, by decide⟩
    (by decide) (by decide)
  refine ⟨W, e, by rw [hW]; simp [dimOf, List.lookup], ?_⟩
  intro x y c' c
  rw [hWv _ rfl]
  simp [labelSum, netTerm, assign, dimOf, List.lookup, Function.update, ND.conj]

theorem rightTransferList_four (O : SetOrder) {As : List (ND ℂ)} {q1 q2 : ℕ} : ∀ (n m : ℕ) (R : ND ℂ) (l : ℕ) (ds : List ℕ), R.shape = [q1, q2, l, l] →
    MpsChain ds (As.drop m) l 1 → m + n ≤ As.length → ∃ Rs, FMPS.rightTransferList O 4 As R m n = .ok Rs
  | 0, _, _, _, _, _, _, _ => ⟨_, rfl⟩
  | n + 1, m, R, l, ds, hR, hch, hn => by
    rw [List.drop_eq_getElem_cons (by omega)] at hch
    obtain ⟨d, ds, rfl⟩ : ∃ d ds', ds = d :: ds' := by
      cases ds with
      | nil => exact absurd hch id
      | cons d ds => exact ⟨d, ds, rfl⟩
    obtain ⟨r, hA, hch⟩ := hch
    obtain ⟨W, e, hW, -⟩ := rightTransferStep_four O hA hR
    obtain ⟨Rs, e2⟩ := rightTransferList_four O n (m + 1) W r ds hW hch (by omega)
    unfold FMPS.rightTransferList
    rw [pyGet_ok (by omega : m < As.length), ok_bind, e, ok_bind, e2, ok_bind]
    exact ⟨_, rfl⟩

section
variable {L d : ℕ} {x : FMPS ℂ} {ls rs : List (ND ℂ)} {E : FMPS.InvEnvs} {N : ℝ} {vL l r : ℕ → ND ℂ} {p q k : ℕ → ℕ} {lam rho : ℕ → ℕ → ℝ} {i j : ℕ}

/-- the lists `Lbs_` (values not needed for different sites) and `Rds_` -/
theorem F2Ctx.f1Site (c : F2Ctx L d x ls rs E N vL l r p q k lam rho) (O : SetOrder) (hi : i < L) :
    ∃ Lbs Rds, FMPS.f1Site O x ((List.range L).map vL) E i = .ok (Lbs, Rds) ∧
      (0 < i → ∀ n ≤ i, ∃ T b, FMPS.leftAt Rds 0 n = .ok T ∧ MpsChain ((List.replicate L d).take n) (x.data.take n) 1 b ∧ T.shape = [b, b, k i, q i] ∧
        ∀ k' < b, ∀ k1 < b, ∀ a < k i, ∀ b1 < q i, ∀ Bs As, mixR ((List.replicate L d).drop n) ((x.data.take i).drop n ++ c.unit i a b1 :: Bs)
          ((x.data.take i).drop n ++ (x.data[i]'(by rw [c.len]; exact hi)) :: As) k' k1 =
          ∑ c1 ∈ range (q i), T.val [k', k1, a, c1] *
            (mixR ((List.replicate L d).drop (i + 1)) Bs As c1 b1 * (((Real.sqrt (rho i b1))⁻¹ : ℝ) : ℂ))) := by
  have hl := c.len
  have hs := c.site i (by omega)
  have hxL : x.L = L := by rw [c.hx.len]; simp
  obtain ⟨icl, u, Ri, Ris, e1, e2, e3, e4, h⟩ := c.ris_gen O hi
  obtain ⟨icr, e5, hicr⟩ := c.icr i hi
  obtain ⟨op, e6, hop, -⟩ := nc_eval O (AA := [icr, icr]) (v := [[-1, -3], [-2, -4]])
    (dimOf [(-1, q i), (-2, q i), (-3, q i), (-4, q i)]) [] [-1, -2, -3, -4]
    ⟨by simp, by simp [hicr.1, dimOf, List.lookup], by simp, by simp, by decide, by decide, by decide, by decide, by decide⟩
    (by decide) (by decide)
  have hop : op.shape = [q i, q i, q i, q i] := by rw [hop]; simp [dimOf, List.lookup]
  obtain ⟨Lbs, e7⟩ : ∃ Lbs, x.rightTransfer O op i (x.L - 1) = .ok Lbs := by
    unfold FMPS.rightTransfer
    rw [show op.rank = 4 by simp [ND.rank, hop]]
    exact rightTransferList_four O _ _ op (q i) _ hop hs.hn (by rw [hxL]; omega)
  refine ⟨Lbs, Ris, ?_, h⟩
  unfold FMPS.f1Site
  rw [e1, ok_bind, c.vs hi, ok_bind, e2, ok_bind, pyGet_ok (by omega : i < x.data.length), ok_bind, e3, ok_bind, e5, ok_bind, e6, ok_bind, e7, ok_bind, e4,
    ok_bind]

/-- the lists `Rus_` hold the right environments with the second site of the ket varied -/
theorem F2Ctx.f1Far (c : F2Ctx L d x ls rs E N vL l r p q k lam rho) (O : SetOrder) (h0 : 0 < j) (hj : j < L) :
    ∃ Rus Rbs, FMPS.f1Far O x ((List.range L).map vL) E j = .ok (Rus, Rbs) ∧
      ∀ n ≤ j, ∃ T b, FMPS.leftAt Rus 0 n = .ok T ∧ MpsChain ((List.replicate L d).take n) (x.data.take n) 1 b ∧ T.shape = [b, b, k j, q j] ∧
        ∀ k' < b, ∀ k1 < b, ∀ c1 < k j, ∀ e < q j, T.val [k', k1, c1, e] =
          mixR ((List.replicate L d).drop n) (x.data.drop n) (tailV x.data j n (c.unit j c1 e)) k' k1 := by
  have hl := c.len
  have hs := c.site j (by omega)
  obtain ⟨icl, e1, hicl⟩ := c.icl j hj (by omega)
  obtain ⟨cr, e2, hcr⟩ := c.cr j hj
  obtain ⟨u, e3, hu, huv⟩ := diag_mul_left (V := vL j) hicl.1 hs.basis.shape hicl.2
  obtain ⟨uc, e3', huc, -⟩ := diag_mul_left (V := (vL j).conj) hicl.1 hs.basis.shape hicl.2
  obtain ⟨w, e4, hw, hwv⟩ := diag_mul_right (V := x.data[j].conj) hs.hA hcr.1 hcr.2
  obtain ⟨Rj, e5, hR, hRv⟩ := nc_eval O (AA := [u, w]) (v := [[1, -1, -3], [1, -2, -4]])
    (dimOf [(1, d), (-1, p j), (-2, p j), (-3, k j), (-4, q j)]) [1] [-1, -2, -3, -4]
    ⟨by simp, by simp [hu, hw, dimOf, List.lookup], by simp, by simp, by decide, by decide, by decide, by decide, by decide⟩
    (by decide) (by decide)
  have hR : Rj.shape = p j :: p j :: [k j, q j] := by rw [hR]; simp [dimOf, List.lookup]
  obtain ⟨Rb, e5', hRb, -⟩ := nc_eval O (AA := [uc, u]) (v := [[1, -1, -3], [1, -2, -4]])
    (dimOf [(1, d), (-1, p j), (-2, p j), (-3, k j), (-4, k j)]) [1] [-1, -2, -3, -4]
    ⟨by simp, by simp [hu, huc, dimOf, List.lookup], by simp, by simp, by decide, by decide, by decide, by decide, by decide⟩
    (by decide) (by decide)
  have hRb : Rb.shape = p j :: p j :: [k j, k j] := by rw [hRb]; simp [dimOf, List.lookup]
  obtain ⟨Rus, e6, hRus⟩ := FMPS.leftTransfer_spec c.hx (j := 0) (i := j) (by omega) (by simp; omega) hs.hp hR
  obtain ⟨Rbs, e6', -⟩ := FMPS.leftTransfer_spec c.hx (j := 0) (i := j) (by omega) (by simp; omega) hs.hp hRb
  refine ⟨Rus, Rbs, ?_, ?_⟩
  · unfold FMPS.f1Far
    rw [e1, ok_bind, c.vs hj, ok_bind, e3, ok_bind, pyGet_ok (by omega : j < x.data.length), ok_bind, e2, ok_bind, e4, ok_bind, e5, ok_bind, e3', ok_bind, e5',
      ok_bind, e6, ok_bind, e6', ok_bind]
  intro n hnj
  obtain ⟨T, b, t1, t2, t3, t4⟩ := hRus n (by omega) hnj
  refine ⟨T, b, t1, t2, t3, ?_⟩
  intro k' hk' k1 hk1 c1 hc1 e he
  rw [t4 k' hk' k1 hk1 [c1, e] ⟨hc1, he, trivial⟩]
  have hmid : MpsChain (((List.replicate L d).take j).drop n) ((x.data.take j).drop n) b (p j) := by
    obtain ⟨b', h1, h2⟩ := chain_cut hs.hp n
    rw [List.take_take, List.take_take, min_eq_left hnj] at h1
    obtain rfl := chain_bond_unique t2 h1
    exact h2
  have ed : (List.replicate L d).drop n = ((List.replicate L d).take j).drop n ++ d :: (List.replicate L d).drop (j + 1) := by
    rw [drop_cut hnj (by simpa using hj)]
    simp [tailV]
  have ea : x.data.drop n = (x.data.take j).drop n ++ x.data[j] :: x.data.drop (j + 1) := drop_cut hnj (by omega)
  rw [ed, ea, tailV, mixR_append hmid hk' hk1]
  unfold pullBack
  refine sumIdx_congr fun s _ => Finset.sum_congr rfl fun y' hy' => Finset.sum_congr rfl fun y hy => ?_
  congr 2
  simp only [Finset.mem_range] at hy hy'
  unfold F2Ctx.unit
  rw [mixR_lastK hs.hA he hs.pos' hs.right]
  show Rj.val [y', y, c1, e] = _
  rw [hRv _ rfl]
  simp [labelSum, netTerm, assign, dimOf, List.lookup, Function.update]
  refine Finset.sum_congr rfl fun s _ => ?_
  rw [huv s y' hy' c1, hwv s y e he]
  simp [ND.conj]

/-- the matrix with which the term `m` enters `F1(i, j)` -/
def f1Mat (i m : ℕ) (h : ND ℂ) : ND ℂ := if m + 1 < i then h else matT h

/-- what the term on the sites `i` and `i + 1` contributes to `F1(i, j)`, `j > i + 1`: the ket and the bra index of the right environment
are exchanged -/
noncomputable def f1Gap (d p q n : ℕ) (vi A B h : ND ℂ) (lam rho : ℕ → ℝ) (R : ℕ → ℕ → ℂ) (a b : ℕ) : ℂ :=
  ∑ t ∈ range d, ∑ u ∈ range d, ∑ al ∈ range p, ∑ k ∈ range n, ∑ k' ∈ range n,
    ((Real.sqrt (lam al) : ℝ) : ℂ) * star (vi.val [t, al, a]) * (((Real.sqrt (rho b))⁻¹ : ℝ) : ℂ) * star (B.val [u, b, k]) *
      hAA d q (matT h) A B t u al k' * R k k'

/-- what the term `m` contributes to an entry of `F1(i, j)` -/
noncomputable def F2Ctx.f1Coeff (c : F2Ctx L d x ls rs E N vL l r p q k lam rho) (i j m : ℕ) (h : ND ℂ) (a b c1 e : ℕ) : ℂ :=
  if m = i ∧ j ≠ i + 1 then
    f1Gap d (p i) (q i) (q (i + 1)) (vL i) (x.data.getD i ⟨[], fun _ => 0⟩) (x.data.getD (i + 1) ⟨[], fun _ => 0⟩) h (lam i) (rho i)
      (mixR ((List.replicate L d).drop (i + 2)) (x.data.drop (i + 2)) (tailV x.data j (i + 2) (c.unit j c1 e))) a b
  else pairing (List.replicate L d) (psi (x.data.set i (c.unit i a b))) (gateAct d (f1Mat i m h) m (m + 1) (psi (x.data.set j (c.unit j c1 e))))

/-- a term at or before the first varied site -/
theorem F2Ctx.f1term (c : F2Ctx L d x ls rs E N vL l r p q k lam rho) (O : SetOrder) (hij : i < j) (hj : j < L) {m : ℕ} (hm : m ≤ i) {h h4 : ND ℂ}
    (h4v : Four d h h4) {Rus Rbs Rds : List (ND ℂ)}
    (hRus : ∀ n ≤ j, ∃ T b, FMPS.leftAt Rus 0 n = .ok T ∧ MpsChain ((List.replicate L d).take n) (x.data.take n) 1 b ∧ T.shape = [b, b, k j, q j] ∧
        ∀ k' < b, ∀ k1 < b, ∀ c1 < k j, ∀ e < q j, T.val [k', k1, c1, e] =
          mixR ((List.replicate L d).drop n) (x.data.drop n) (tailV x.data j n (c.unit j c1 e)) k' k1)
    (hRds : 0 < i → ∀ n ≤ i, ∃ T b, FMPS.leftAt Rds 0 n = .ok T ∧ MpsChain ((List.replicate L d).take n) (x.data.take n) 1 b ∧ T.shape = [b, b, k i, q i] ∧
        ∀ k' < b, ∀ k1 < b, ∀ a < k i, ∀ b1 < q i, ∀ Bs As, mixR ((List.replicate L d).drop n) ((x.data.take i).drop n ++ c.unit i a b1 :: Bs)
          ((x.data.take i).drop n ++ (x.data[i]'(by rw [c.len]; omega)) :: As) k' k1 =
          ∑ c1 ∈ range (q i), T.val [k', k1, a, c1] *
            (mixR ((List.replicate L d).drop (i + 1)) Bs As c1 b1 * (((Real.sqrt (rho i b1))⁻¹ : ℝ) : ℂ))) :
    ∃ T, FMPS.f1Term O x ls rs ((List.range L).map vL) E Rds Rus Rbs i j m h4 = .ok T ∧ T.shape = [k i, q i, k j, q j] ∧
      ∀ a < k i, ∀ b < q i, ∀ c1 < k j, ∀ e < q j, T.val [a, b, c1, e] = (if i = 0 then ((Real.sqrt N : ℝ) : ℂ) else 1) * c.f1Coeff i j m h a b c1 e := by
  have hl := c.len
  have hsm := c.site m (by omega)
  have hsm1 := c.site (m + 1) (by omega)
  have hlk := c.link (i := m) (by omega)
  have edm : List.replicate L d = (List.replicate L d).take m ++ d :: d :: (List.replicate L d).drop (m + 2) := by
    conv_lhs => rw [replicate_cut (L := L) (d := d) (i := m) (by omega)]
    rw [List.drop_eq_getElem_cons (i := m + 1) (by simp; omega)]
    simp
  have hlen0 : ((List.replicate L d).take m).length = m := by simp; omega
  have hp2 : MpsChain ((List.replicate L d).take (m + 2)) (x.data.take (m + 2)) 1 (q (m + 1)) := by
    obtain ⟨p', q', g1, g2, g3, g4⟩ := chain_site c.hx.chain (i := m + 1) (by omega)
    rw [hsm1.hA] at g2
    have : q (m + 1) = q' := by simpa using (List.cons.inj (List.cons.inj (List.cons.inj g2).2).2).1
    rw [this]
    exact g3
  have hB : x.data[m + 1].shape = [d, q m, q (m + 1)] := by rw [hlk]; exact hsm1.hA
  -- the icl of the next site
  obtain ⟨icl, e2', hicl⟩ := c.icl (m + 1) (by omega) (by omega)
  have e2 : pyGet E.icl m = .ok icl := by
    rw [← e2']
    unfold pyGetI
    rw [if_pos (by omega), show (((m + 1 : ℕ) : ℤ) - 1).toNat = m by omega]
  rw [← hlk] at hicl
  rcases Nat.lt_trichotomy (m + 1) i with hmi | hmi | hmi
  · -- far
    obtain ⟨icr, e1, hicr⟩ := c.icr i (by omega)
    obtain ⟨R, b, f1, f2, f3, f4⟩ := hRus (i + 1) (by omega)
    have hb : b = q i := by
      obtain ⟨p', q', g1, g2, g3, g4⟩ := chain_site c.hx.chain (i := i) (by omega)
      rw [(c.site i (by omega)).hA] at g2
      rw [chain_bond_unique f2 g3]
      exact ((List.cons.inj (List.cons.inj (List.cons.inj g2).2).2).1).symm
    subst hb
    obtain ⟨Q, b, u1, u2, u3, u4⟩ := hRds (by omega) (m + 2) (by omega)
    obtain rfl := chain_bond_unique hp2 u2
    obtain ⟨T, t1, t2, t3⟩ := f1Term_far (x := x) (ls := ls) (rs := rs) (vs := (List.range L).map vL) (E := E) (Rus := Rus) (Rbs := Rbs) (Rds := Rds)
      (i := i) (j := j) (m := m)
      (rho := rho i) O h4v hsm.hp hsm.hA hB hlen0 hmi (by omega) (pyGet_ok _) (pyGet_ok _) hsm.left hsm.el ⟨hsm.hl, hsm.hlv⟩ e1 hicr
      (Bs := fun a b => tailV x.data i (m + 2) (c.unit i a b)) (Ks := fun c1 e => tailV x.data j (m + 2) (c.unit j c1 e))
      (fun a b => c.tail_chain (by omega) (by omega) rfl hp2) (fun a b => c.tail_chain (by omega) (by omega) rfl hp2)
      (by exact_mod_cast f1) f3 (by exact_mod_cast u1) u3 (by
        intro k' hk' k1 hk1 a ha b hb c1 hc1 e he
        rw [tailV, tailV_mid (As := x.data) (j := j) (m := m + 2) (n := i) (by omega) (by omega) (by omega), tailV_step (n := i) (by omega) (by omega),
          u4 k' hk' k1 hk1 a ha b hb]
        refine Finset.sum_congr rfl fun y hy => ?_
        rw [f4 y (Finset.mem_range.1 hy) b hb c1 hc1 e he])
    refine ⟨T, t1, t2, ?_⟩
    intro a ha b hb c1 hc1 e he
    unfold F2Ctx.f1Coeff
    rw [t3 a ha b hb c1 hc1 e he, if_neg (by omega), if_neg (by omega), one_mul, ← edm, f1Mat, if_pos hmi]
    rw [set_tail (i := m) (j := i) (by omega) (by omega), set_tail (i := m) (j := j) (by omega) (by omega), tailV_step (n := m + 1) (by omega) (by omega),
      tailV_step (n := m + 1) (by omega) (by omega)]
  · subst hmi
    obtain ⟨icr, e1, hicr⟩ := c.icr (m + 1) (by omega)
    obtain ⟨R, b, f1, f2, f3, f4⟩ := hRus (m + 2) (by omega)
    obtain rfl := chain_bond_unique hp2 f2
    obtain ⟨T, t1, t2, t3⟩ := f1Term_second (x := x) (ls := ls) (rs := rs) (vs := (List.range L).map vL) (E := E) (Rus := Rus) (Rbs := Rbs) (Rds := Rds)
      (j := j) (m := m)
      O h4v hsm.hp hsm.hA hB hsm1.hn (by omega) hlen0 (pyGet_ok _) (pyGet_ok _) hsm.left hsm.el ⟨hsm.hl, hsm.hlv⟩ e2 hicl e1 hicr
      (c.vs (by omega)) (by rw [hlk]; exact hsm1.basis.shape) (Ks := fun c1 e => tailV x.data j (m + 2) (c.unit j c1 e))
      (fun c1 e => c.tail_chain hj (by omega) rfl hp2) (by exact_mod_cast f1) f3 f4
    refine ⟨T, t1, t2, ?_⟩
    intro a ha b hb c1 hc1 e he
    unfold F2Ctx.f1Coeff
    rw [t3 a ha b hb c1 hc1 e he, if_neg (by omega), if_neg (by omega), one_mul, ← edm, f1Mat, if_neg (by omega)]
    rw [set_tail (i := m) (j := m + 1) (by omega) (by omega), set_tail (i := m) (j := j) (by omega) (by omega), tailV_last,
      tailV_step (n := m + 1) (by omega) (by omega)]
    unfold F2Ctx.unit
    rw [hlk]
  · obtain rfl : m = i := by omega
    obtain ⟨icr, e1, hicr⟩ := c.icr m (by omega)
    obtain ⟨cl, e3, hcl⟩ := c.cl m (by omega)
    rcases Nat.lt_or_ge (m + 1) j with hmj | hmj
    · obtain ⟨R, b, f1, f2, f3, f4⟩ := hRus (m + 2) (by omega)
      obtain rfl := chain_bond_unique hp2 f2
      obtain ⟨T, t1, t2, t3⟩ := f1Term_first (x := x) (ls := ls) (rs := rs) (vs := (List.range L).map vL) (E := E) (Rus := Rus) (Rbs := Rbs) (Rds := Rds)
        (i := m) (j := j)
        O h4v hsm.hA hB (by omega) (by omega) (pyGet_ok _) (pyGet_ok _) e3 hcl e1 hicr
        (c.vs (by omega)) hsm.basis.shape (by exact_mod_cast f1) f3
      refine ⟨T, t1, t2, ?_⟩
      intro a ha b hb c1 hc1 e he
      unfold F2Ctx.f1Coeff
      rw [t3 a ha b hb c1 hc1 e he, if_pos (show m = m ∧ j ≠ m + 1 from ⟨rfl, by omega⟩)]
      congr 1
      unfold f1Gap
      rw [List.getD_eq_getElem _ _ (by omega : m < x.data.length), List.getD_eq_getElem _ _ (by omega : m + 1 < x.data.length)]
      refine Finset.sum_congr rfl fun t _ => Finset.sum_congr rfl fun u _ => Finset.sum_congr rfl fun al _ => Finset.sum_congr rfl fun k1 hk1 =>
        Finset.sum_congr rfl fun k' hk' => ?_
      rw [f4 k1 (Finset.mem_range.1 hk1) k' (Finset.mem_range.1 hk') c1 hc1 e he]
    · obtain rfl : j = m + 1 := by omega
      obtain ⟨cr, e4, hcr⟩ := c.cr (m + 1) (by omega)
      obtain ⟨T, t1, t2, t3⟩ := f1Term_next (x := x) (ls := ls) (rs := rs) (vs := (List.range L).map vL) (E := E) (Rus := Rus) (Rbs := Rbs) (Rds := Rds) (i := m)
        O h4v hsm.hp hsm.hA hB hsm1.hn hlen0 (pyGet_ok _) (pyGet_ok _) hsm.left hsm.pos hsm1.right hsm1.pos' e3 hcl e4 hcr e1 hicr e2 hicl
        (c.vs (by omega)) hsm.basis.shape (c.vs (by omega)) (by rw [hlk]; exact hsm1.basis.shape)
      refine ⟨T, t1, t2, ?_⟩
      intro a ha b hb c1 hc1 e he
      unfold F2Ctx.f1Coeff
      rw [t3 a ha b hb c1 hc1 e he, if_neg (show ¬(m = m ∧ m + 1 ≠ m + 1) from fun h => h.2 rfl), ← edm, f1Mat, if_neg (show ¬m + 1 < m by omega)]
      rw [set_tail (i := m) (j := m + 1) (by omega) (by omega), tailV_last, set_cut (i := m) (by omega), List.drop_eq_getElem_cons (i := m + 1) (by omega)]
      unfold F2Ctx.unit
      rw [hlk]

theorem f1Loop_ok {O : SetOrder} {vs Lbs Rds Rus Rbs : List (ND ℂ)} {k1 q1 k2 q2 : ℕ} (hij : i ≠ j)
    (F : ℕ → ℕ → ℕ → ℕ → ℕ → ℂ) : ∀ (hs : List (ND ℂ × ℕ)) (G : ND ℂ), G.shape = [k1, q1, k2, q2] →
      (∀ hm ∈ hs, hm.2 ≤ i → ∃ T, FMPS.f1Term O x ls rs vs E Rds Rus Rbs i j hm.2 hm.1 = .ok T ∧ T.shape = [k1, q1, k2, q2] ∧
        ∀ a < k1, ∀ b < q1, ∀ c < k2, ∀ e < q2, T.val [a, b, c, e] = F hm.2 a b c e) →
      ∃ G', FMPS.f1Loop O x ls rs vs E Lbs Rds Rus Rbs i j hs G = .ok G' ∧ G'.shape = [k1, q1, k2, q2] ∧
        ∀ a < k1, ∀ b < q1, ∀ c < k2, ∀ e < q2, G'.val [a, b, c, e] =
          G.val [a, b, c, e] + (hs.map fun hm => if hm.2 ≤ i then F hm.2 a b c e else 0).sum
  | [], G, hG, _ => ⟨G, rfl, hG, by intros; simp⟩
  | (h, m) :: hs, G, hG, hh => by
    unfold FMPS.f1Loop
    by_cases hm : m ≤ i
    · obtain ⟨T, w1, w2, w3⟩ := hh (h, m) (by simp) hm
      rw [if_neg (by omega)]
      have w1' : FMPS.f1Term O x ls rs vs E Rds Rus Rbs i j m h = .ok T := w1
      rw [w1', ok_bind]
      simp only [ND.zipNd, hG, w2, if_true, ok_bind]
      obtain ⟨G', v1, v2, v3⟩ := f1Loop_ok hij F hs ⟨[k1, q1, k2, q2], fun idx => G.val idx + T.val idx⟩ rfl
        (fun hm h' => hh hm (List.mem_cons_of_mem _ h'))
      refine ⟨G', v1, v2, ?_⟩
      intro a ha b hb c hc e he
      rw [v3 a ha b hb c hc e he, List.map_cons, List.sum_cons, if_pos hm, ← w3 a ha b hb c hc e he]
      ring
    · rw [if_pos (by omega), if_neg hij]
      obtain ⟨G', v1, v2, v3⟩ := f1Loop_ok hij F hs G hG (fun hm h' => hh hm (List.mem_cons_of_mem _ h'))
      refine ⟨G', v1, v2, ?_⟩
      intro a ha b hb c hc e he
      rw [v3 a ha b hb c hc e he, List.map_cons, List.sum_cons, if_neg hm, zero_add]

end

end Xmps
