import Verif.Props.DAdt

/-!
# What `dA_dt` returns, site by site
-/

namespace Xmps

open Finset Spec Xmps.Ncon

/-- the terms of the Hamiltonian that `B(i)` sees, in the environment of the site -/
noncomputable def termsEnv (L d : ℕ) (As H : List (ND ℂ)) (i t b c : ℕ) : ℂ :=
  ∑ m ∈ range H.length, if m ≤ i then -Complex.I * envAmp ((List.replicate L d).take i) (As.take i) ((List.replicate L d).drop (i + 1)) (As.drop (i + 1))
    (gateAct d (H.getD m ⟨[], fun _ => 0⟩) m (m + 1) (psi As)) t b c else 0

/-- the tensor `B` of the result at the site `i`: the projection of `E`, the environment of the site -/
structure SiteFacts (L d : ℕ) (As : List (ND ℂ)) (E : ℕ → ℕ → ℕ → ℂ) (i : ℕ) (A B : ND ℂ) (p q k : ℕ) (U : ℕ → ℕ → ℕ → ℂ) (pr : ND ℂ) (lam rho mu : ℕ → ℝ) : Prop where
  hp : MpsChain ((List.replicate L d).take i) (As.take i) 1 p
  hA : A.shape = [d, p, q]
  hn : MpsChain ((List.replicate L d).drop (i + 1)) (As.drop (i + 1)) q 1
  left : ∀ a < p, ∀ b < p, leftEnv ((List.replicate L d).take i) (As.take i) a b = if a = b then (lam a : ℂ) else 0
  right : ∀ a < q, ∀ b < q, rightEnv ((List.replicate L d).drop (i + 1)) (As.drop (i + 1)) a b = if a = b then (rho a : ℂ) else 0
  next : ∀ a < q, ∀ b < q, ∑ s ∈ range d, ∑ c ∈ range p, star (A.val [s, c, a]) * (lam c : ℂ) * A.val [s, c, b] = if a = b then (mu a : ℂ) else 0
  pos : ∀ a < p, 0 < lam a
  pos' : ∀ a < q, 0 < rho a
  pos'' : ∀ a < q, 0 < mu a
  proj : NullProj d p q k A lam U pr
  hB : B.shape = [d, p, q]
  hBv : ∀ s < d, ∀ a < p, ∀ c < q, B.val [s, a, c] = if d * p = q then 0 else
    ∑ k1 ∈ range k, U s a k1 * ∑ t ∈ range d, ∑ b ∈ range p, star (U t b k1) * (E t b c * (rho c : ℂ)⁻¹)

theorem sum_pr {d p k : ℕ} {U : ℕ → ℕ → ℕ → ℂ} (X : ℕ → ℕ → ℂ) (s a : ℕ) :
    ∑ t ∈ range d, ∑ b ∈ range p, (∑ k1 ∈ range k, U s a k1 * star (U t b k1)) * X t b =
      ∑ k1 ∈ range k, U s a k1 * ∑ t ∈ range d, ∑ b ∈ range p, star (U t b k1) * X t b := by
  simp only [Finset.sum_mul, Finset.mul_sum]
  rw [sum_swap2]
  refine Finset.sum_congr rfl fun k1 _ => Finset.sum_congr rfl fun t _ => Finset.sum_congr rfl fun b _ => ?_
  ring

section
variable {x : FMPS ℂ} {L d : ℕ} (hx : x.Holds (List.replicate L d))
include hx

theorem FMPS.Holds.rep_L : x.data.length = L ∧ x.L = L ∧ (0 < L → x.d = d) := by
  have hlen := hx.chain.length_eq
  rw [List.length_replicate] at hlen
  refine ⟨hlen, by rw [hx.len]; simp, fun h => ?_⟩
  rw [hx.d]
  obtain ⟨L, rfl⟩ : ∃ L', L = L' + 1 := ⟨L - 1, by omega⟩
  simp [List.replicate_succ]

/-- the environments and the projectors of all sites -/
theorem env_sites {chol inv null : ND ℂ → Py (ND ℂ)} (hchol : CholTriLaw chol) (hinv : InvLaw inv) (hnull : NullLaw null) (O : SetOrder)
    (hd : 0 < d) (hL : 0 < L) (hf : FullEnvs (List.replicate L d) x.data) :
    ∃ ls rs, x.getEnvs = .ok (ls, rs) ∧ (∀ k ≤ L, ∀ p, MpsChain ((List.replicate L d).take k) (x.data.take k) 1 p →
      ∃ l r lam rho, EnvCut (List.replicate L d) x.data ls rs k p l r lam rho) ∧
    ∃ (pr vL : ℕ → ND ℂ) (p q k : ℕ → ℕ) (U : ℕ → ℕ → ℕ → ℕ → ℂ) (lam : ℕ → ℕ → ℝ),
      ((List.range x.L).mapM fun n => FMPS.leftNull chol inv null O x ls n) = .ok ((List.range x.L).map fun n => (pr n, vL n)) ∧
      ∀ i (hi : i < x.data.length), MpsChain ((List.replicate L d).take i) (x.data.take i) 1 (p i) ∧ x.data[i].shape = [d, p i, q i] ∧
        MpsChain ((List.replicate L d).take (i + 1)) (x.data.take (i + 1)) 1 (q i) ∧
        MpsChain ((List.replicate L d).drop (i + 1)) (x.data.drop (i + 1)) (q i) 1 ∧
        (∀ a < p i, ∀ b < p i, leftEnv ((List.replicate L d).take i) (x.data.take i) a b = if a = b then (lam i a : ℂ) else 0) ∧
        (∀ a < p i, 0 < lam i a) ∧ NullProj d (p i) (q i) (k i) x.data[i] (lam i) (U i) (pr i) := by
  obtain ⟨hlen, hxL, hxd⟩ := hx.rep_L
  have hxd := hxd hL
  obtain ⟨ls, rs, e, henv0⟩ := getEnvs_full hx hf
  have henv : ∀ k ≤ L, ∀ p, MpsChain ((List.replicate L d).take k) (x.data.take k) 1 p →
      ∃ l r lam rho, EnvCut (List.replicate L d) x.data ls rs k p l r lam rho := by
    intro k hk
    exact henv0 k (by simpa using hk)
  refine ⟨ls, rs, e, henv, ?_⟩
  have hsite : ∀ i, ∃ pr vL p q k U lam, ∀ (hi : i < x.data.length), FMPS.leftNull chol inv null O x ls i = .ok (pr, vL) ∧
      MpsChain ((List.replicate L d).take i) (x.data.take i) 1 p ∧ x.data[i].shape = [d, p, q] ∧
      MpsChain ((List.replicate L d).take (i + 1)) (x.data.take (i + 1)) 1 q ∧
      MpsChain ((List.replicate L d).drop (i + 1)) (x.data.drop (i + 1)) q 1 ∧
      (∀ a < p, ∀ b < p, leftEnv ((List.replicate L d).take i) (x.data.take i) a b = if a = b then (lam a : ℂ) else 0) ∧
      (∀ a < p, 0 < lam a) ∧ NullProj d p q k x.data[i] lam U pr := by
    intro i
    by_cases hi : i < x.data.length
    · obtain ⟨p, q, c1, sA, c2, c3⟩ := chain_site hx.chain hi
      obtain ⟨l, r, lam, rho, E⟩ := henv i (by omega) p c1
      have hp0 := hf.bond_pos hx.chain c1
      have hq0 := hf.bond_pos hx.chain c2
      have hv : ∀ a < p, ∀ b < p, l.val [a, b] = if a = b then (lam a : ℂ) else 0 := by
        intro a ha b hb
        rw [E.hlv a ha b hb, E.left a ha b hb]
      obtain ⟨vL, k, e1, hb⟩ := nullVecs_ok hchol hnull hd hp0 hq0 sA E.hl hv E.pos
      obtain ⟨pr, e2, hpr⟩ := projector_ok hchol hinv O E.hl hv E.pos hb
      refine ⟨pr, vL, p, q, k, _, lam, fun _ => ⟨?_, c1, sA, c2, c3, E.left, E.pos, hpr⟩⟩
      unfold FMPS.leftNull
      rw [pyGet_ok hi, ok_bind, E.el, ok_bind, hxd, e1, ok_bind, e2, ok_bind]
    · exact ⟨zerosND [], zerosND [], 0, 0, 0, fun _ _ _ => 0, fun _ => 0, fun h => absurd h hi⟩
  choose pr vL p q k U lam hs using hsite
  have e1 : ((List.range x.L).mapM fun n => FMPS.leftNull chol inv null O x ls n) = .ok ((List.range x.L).map fun n => (pr n, vL n)) := by
    refine mapM_ok ?_
    intro n hn
    rw [List.mem_range, hxL, ← hlen] at hn
    exact (hs n hn).1
  exact ⟨pr, vL, p, q, k, U, lam, e1, fun i hi => (hs i hi).2⟩

/-- the left environment behind the site -/
theorem site_next {i p q : ℕ} (hi : i < x.data.length) (w2 : MpsChain ((List.replicate L d).take i) (x.data.take i) 1 p)
    (w3 : x.data[i].shape = [d, p, q]) {ls rs : List (ND ℂ)} {l r : ND ℂ} {mu rho lam : ℕ → ℝ}
    (E : EnvCut (List.replicate L d) x.data ls rs (i + 1) q l r mu rho)
    (w6 : ∀ a < p, ∀ b < p, leftEnv ((List.replicate L d).take i) (x.data.take i) a b = if a = b then (lam a : ℂ) else 0) :
    ∀ a < q, ∀ b < q, ∑ s ∈ range d, ∑ c ∈ range p, star (x.data[i].val [s, c, a]) * (lam c : ℂ) * x.data[i].val [s, c, b] =
      if a = b then (mu a : ℂ) else 0 := by
  obtain ⟨hlen, -, -⟩ := hx.rep_L
  intro a ha b hb
  have hsn := leftEnv_snoc (A := x.data[i]) w2 w3 a b ha hb
  have t1 : (List.replicate L d).take (i + 1) = (List.replicate L d).take i ++ [d] := by
    rw [List.take_succ_eq_append_getElem (by simp; omega)]
    simp
  have t2 : x.data.take (i + 1) = x.data.take i ++ [x.data[i]] := List.take_succ_eq_append_getElem hi
  rw [← t1, ← t2, E.left a ha b hb] at hsn
  rw [hsn]
  refine Finset.sum_congr rfl fun s _ => ?_
  refine Finset.sum_congr rfl fun c hc => ?_
  rw [Finset.sum_eq_single c]
  · rw [w6 c (Finset.mem_range.1 hc) c (Finset.mem_range.1 hc), if_pos rfl]
  · intro c' hc' hne
    rw [w6 c (Finset.mem_range.1 hc) c' (Finset.mem_range.1 hc'), if_neg (Ne.symm hne)]
    ring
  · intro hn
    exact absurd hc hn

/-- tensors with the shapes of the chain form a chain -/
theorem sites_chain {B : ℕ → ND ℂ} {p q : ℕ → ℕ}
    (hs : ∀ i < x.data.length, MpsChain ((List.replicate L d).take i) (x.data.take i) 1 (p i) ∧
      MpsChain ((List.replicate L d).take (i + 1)) (x.data.take (i + 1)) 1 (q i) ∧ (B i).shape = [d, p i, q i]) :
    MpsChain (List.replicate L d) ((List.range L).map B) 1 1 := by
  obtain ⟨hlen, -, -⟩ := hx.rep_L
  have key : ∀ n ≤ L, ∃ r, MpsChain ((List.replicate L d).take n) (x.data.take n) 1 r ∧ MpsChain ((List.replicate L d).take n) ((List.range n).map B) 1 r := by
    intro n
    induction n with
    | zero => intro _; exact ⟨1, rfl, rfl⟩
    | succ n ih =>
      intro hn
      obtain ⟨r, g1, g2⟩ := ih (by omega)
      have hn' : n < x.data.length := by omega
      obtain ⟨w2, w4, w5⟩ := hs n hn'
      obtain rfl := chain_bond_unique g1 w2
      refine ⟨q n, w4, ?_⟩
      have t1 : (List.replicate L d).take (n + 1) = (List.replicate L d).take n ++ [d] := by
        rw [List.take_succ_eq_append_getElem (by simp; omega)]
        simp
      rw [t1, List.range_succ, List.map_append]
      refine (mpsChain_append (by simp; omega)).2 ⟨p n, g2, q n, w5, rfl⟩
  obtain ⟨r, g1, g2⟩ := key L le_rfl
  rw [List.take_of_length_le (by simp)] at g1 g2
  rw [List.take_of_length_le (by omega)] at g1
  obtain rfl := chain_bond_unique hx.chain g1
  exact g2

end

/-- `dA_dt` with projectors of the null spaces, site by site -/
theorem dAdt_sites {inv : ND ℂ → Py (ND ℂ)} (hinv : InvLaw inv) (O : SetOrder)
    {x : FMPS ℂ} {L d : ℕ} (hx : x.Holds (List.replicate L d)) {H : List (ND ℂ)} (hL : H.length < L) (hH : ∀ h ∈ H, h.shape = [d * d, d * d])
    {ls rs prs : List (ND ℂ)} (henv : ∀ k ≤ L, ∀ p, MpsChain ((List.replicate L d).take k) (x.data.take k) 1 p →
      ∃ l r lam rho, EnvCut (List.replicate L d) x.data ls rs k p l r lam rho)
    {pr : ℕ → ND ℂ} {p q k : ℕ → ℕ} {U : ℕ → ℕ → ℕ → ℕ → ℂ} {lam : ℕ → ℕ → ℝ} (hprs : ∀ i, i < x.data.length → pyGet prs i = .ok (pr i))
    (hs : ∀ i (hi : i < x.data.length), MpsChain ((List.replicate L d).take i) (x.data.take i) 1 (p i) ∧ x.data[i].shape = [d, p i, q i] ∧
        MpsChain ((List.replicate L d).take (i + 1)) (x.data.take (i + 1)) 1 (q i) ∧
        MpsChain ((List.replicate L d).drop (i + 1)) (x.data.drop (i + 1)) (q i) 1 ∧
        (∀ a < p i, ∀ b < p i, leftEnv ((List.replicate L d).take i) (x.data.take i) a b = if a = b then (lam i a : ℂ) else 0) ∧
        (∀ a < p i, 0 < lam i a) ∧ NullProj d (p i) (q i) (k i) x.data[i] (lam i) (U i) (pr i)) :
    ∃ Bs y, ((List.range x.L).mapM fun i => x.dAdtSite inv O ls rs prs H i) = .ok Bs ∧ FMPS.init (Bs.map Prod.fst) = .ok y ∧
      y.Holds (List.replicate L d) ∧ y.data.length = L ∧
      ∀ i (hi : i < x.data.length) (hi' : i < y.data.length), ∃ p q k U pr lam rho mu,
        SiteFacts L d x.data (termsEnv L d x.data H i) i x.data[i] y.data[i] p q k U pr lam rho mu := by
  obtain ⟨hlen, hxL, -⟩ := hx.rep_L
  have hB : ∀ i, ∃ B e rho mu, ∀ (hi : i < x.data.length),
      x.dAdtSite inv O ls rs prs H i = .ok (B, e) ∧
        SiteFacts L d x.data (termsEnv L d x.data H i) i x.data[i] B (p i) (q i) (k i) (U i) (pr i) (lam i) rho mu := by
    intro i
    by_cases hi : i < x.data.length
    · obtain ⟨w2, w3, w4, w5, w6, w7, w8⟩ := hs i hi
      obtain ⟨l2, r2, mu, rho, E⟩ := henv (i + 1) (by omega) (q i) w4
      obtain ⟨B, e, v1, v2, v3⟩ := dAdtSite_ok hinv O hx (prs := prs) (ls := ls) (rs := rs)
        (pr := pr i) hL hH henv hi w2 w3 (hprs i hi) w8.shape E.pos' E.right
      refine ⟨B, e, rho, mu, fun _ => ⟨v1, w2, w3, w5, w6, E.right, site_next hx hi w2 w3 E w6, w7, E.pos', E.pos, w8, v2, ?_⟩⟩
      · intro s hs' a ha c hc
        rw [v3 s hs' a ha c hc]
        by_cases hq : d * p i = q i
        · rw [if_pos hq, if_pos hq]
        · rw [if_neg hq, if_neg hq, ← sum_pr]
          have : ∀ t b, termsEnv L d x.data H i t b c * (rho c : ℂ)⁻¹ = ∑ m ∈ range H.length, if m ≤ i then -Complex.I *
              (envAmp ((List.replicate L d).take i) (x.data.take i) ((List.replicate L d).drop (i + 1)) (x.data.drop (i + 1))
                (gateAct d (H.getD m ⟨[], fun _ => 0⟩) m (m + 1) (psi x.data)) t b c * (rho c : ℂ)⁻¹) else 0 := by
            intro t b
            rw [termsEnv, Finset.sum_mul]
            refine Finset.sum_congr rfl fun m _ => ?_
            split_ifs
            · ring
            · ring
          simp only [this, Finset.mul_sum]
          rw [sum_swap2]
          refine Finset.sum_congr rfl fun m _ => ?_
          split_ifs
          · refine Finset.sum_congr rfl fun t _ => Finset.sum_congr rfl fun b hb => ?_
            rw [w8.val s a ha t b (Finset.mem_range.1 hb)]
            ring
          · simp
    · exact ⟨zerosND [], [], fun _ => 0, fun _ => 0, fun h => absurd h hi⟩
  choose B eB rho mu hBs using hB
  have e2 : ((List.range x.L).mapM fun i => x.dAdtSite inv O ls rs prs H i) =
      .ok ((List.range x.L).map fun i => (B i, eB i)) := by
    refine mapM_ok ?_
    intro n hn
    rw [List.mem_range, hxL, ← hlen] at hn
    exact (hBs n hn).1
  have hdata : ((List.range x.L).map fun i => (B i, eB i)).map Prod.fst = (List.range L).map B := by
    rw [List.map_map, hxL]
    rfl
  have hch : MpsChain (List.replicate L d) ((List.range L).map B) 1 1 :=
    sites_chain hx (p := p) (q := q) fun i hi => ⟨(hs i hi).1, (hs i hi).2.2.1, (hBs i hi).2.hB⟩
  obtain ⟨y, e3, hy, hyh, -⟩ := init_holds hch (by simp; omega) none (Or.inl rfl)
  refine ⟨_, y, e2, by rw [hdata, e3], hyh, by rw [hy]; simp, ?_⟩
  intro i hi hi'
  have : y.data[i] = B i := by simp [hy]
  rw [this]
  exact ⟨_, _, _, _, _, _, _, _, (hBs i hi).2⟩

theorem dAdt_facts {chol inv null : ND ℂ → Py (ND ℂ)} (hchol : CholTriLaw chol) (hinv : InvLaw inv) (hnull : NullLaw null) (O : SetOrder)
    {x : FMPS ℂ} {L d : ℕ} (hd : 0 < d) (hx : x.Holds (List.replicate L d)) (hf : FullEnvs (List.replicate L d) x.data)
    {H : List (ND ℂ)} (hL : H.length < L) (hH : ∀ h ∈ H, h.shape = [d * d, d * d]) :
    ∃ y, FMPS.dAdt chol inv null O x H = .ok y ∧ y.Holds (List.replicate L d) ∧ y.data.length = L ∧
      ∀ i (hi : i < x.data.length) (hi' : i < y.data.length), ∃ p q k U pr lam rho mu,
        SiteFacts L d x.data (termsEnv L d x.data H i) i x.data[i] y.data[i] p q k U pr lam rho mu := by
  obtain ⟨hlen, hxL, -⟩ := hx.rep_L
  obtain ⟨ls, rs, e, henv, pr, vL, p, q, k, U, lam, e1, hs⟩ := env_sites hx hchol hinv hnull O hd (by omega) hf
  obtain ⟨Bs, y, e2, e3, h⟩ := dAdt_sites hinv O hx hL hH (prs := ((List.range x.L).map fun n => (pr n, vL n)).map Prod.fst) henv (pr := pr) (by
    intro i hi
    rw [pyGet_ok (by simp; omega)]
    simp) hs
  refine ⟨y, ?_, h⟩
  unfold FMPS.dAdt
  rw [e, ok_bind]
  simp only
  rw [e1, ok_bind, e2, ok_bind, e3]

end Xmps
