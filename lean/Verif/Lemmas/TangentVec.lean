import Verif.Model.TangentVec
import Verif.Props.Tdvp
import Verif.Props.Structure

/-!
# Coordinates of tangent vectors, site by site
-/

namespace Xmps

open Finset Spec Xmps.Ncon

/-! ### lists -/

theorem mapM_zipIdx {α β : Type} {l : List α} {f : α × ℕ → Py β} {g : ℕ → β} (h : ∀ j (hj : j < l.length), f (l[j], j) = .ok (g j)) :
    l.zipIdx.mapM f = .ok ((List.range l.length).map g) := by
  rw [mapM_ok (g := fun a => g a.2)]
  · congr 1
    have : l.zipIdx.map (fun a => g a.2) = (l.zipIdx.map Prod.snd).map g := by rw [List.map_map]; rfl
    rw [this, List.zipIdx_map_snd, List.range_eq_range']
  · rintro ⟨a, j⟩ hm
    obtain ⟨h1, h2⟩ := List.getElem?_eq_some_iff.1 (List.mem_zipIdx_iff_getElem?.1 hm)
    have := h j h1
    rwa [show l[j] = a from h2] at this

theorem flat_congr {A B : ND ℂ} (h : A ≈ B) : A.flat = B.flat := by
  obtain ⟨h1, h2⟩ := h
  unfold ND.flat ND.size
  rw [h1]
  refine List.map_congr_left fun k hk => ?_
  rw [← h1]
  exact h2 _ (InB_unravel (by rw [h1]; simpa using hk))

theorem flat_ofFlat {sh : List ℕ} {l : List ℂ} (h : l.length = sh.prod) : (ND.ofFlat sh l).flat = l := by
  refine List.ext_getElem (by simp [ND.flat, ND.size, ND.ofFlat, h]) fun k h1 h2 => ?_
  simp only [ND.flat, List.getElem_map, List.getElem_range, ND.ofFlat]
  rw [ravel_unravel (by omega), List.getD_eq_getElem _ _ h2]

theorem cutUp_ok : ∀ (sh : List (List ℕ)) (v : List ℂ), v.length = (sh.map List.prod).sum →
    ∃ xs, FMPS.cutUp v sh = .ok xs ∧ xs.map ND.shape = sh ∧ (xs.map ND.flat).flatten = v
  | [], v, h => ⟨[], rfl, rfl, by simpa using (List.length_eq_zero_iff.1 h).symm⟩
  | s :: sh, v, h => by
    simp only [List.map_cons, List.sum_cons] at h
    obtain ⟨xs, e, h1, h2⟩ := cutUp_ok sh (v.drop s.prod) (by simp; omega)
    have hl : (v.take s.prod).length = s.prod := by simp; omega
    refine ⟨ND.ofFlat s (v.take s.prod) :: xs, ?_, ?_, ?_⟩
    · unfold FMPS.cutUp
      rw [e, hl]
      simp [guardPy]
    · simp [h1, ND.ofFlat]
    · rw [List.map_cons, List.flatten_cons, h2, flat_ofFlat hl, List.take_append_drop]

/-! ### the number of null vectors -/

/-- `k = d p - q` -/
theorem NullBasis.count {d p q k : ℕ} {A vL : ND ℂ} {lam mu : ℕ → ℝ} (hb : NullBasis d p q k A lam vL)
    (next : ∀ a < q, ∀ b < q, ∑ s ∈ range d, ∑ c ∈ range p, star (A.val [s, c, a]) * (lam c : ℂ) * A.val [s, c, b] = if a = b then (mu a : ℂ) else 0)
    (hpos : ∀ a < p, 0 < lam a) (hmu : ∀ a < q, 0 < mu a) : k + q = d * p := by
  have key : ∀ s < d, ∀ a < p, (1 : ℂ) = ∑ k1 ∈ range k, star (vL.val [s, a, k1]) * vL.val [s, a, k1] +
      ∑ c ∈ range q, star (A.val [s, a, c]) * (lam a : ℂ) * A.val [s, a, c] * (mu c : ℂ)⁻¹ := by
    intro s hs a ha
    set X : ℕ → ℂ := fun c => star (A.val [s, a, c]) * (Real.sqrt (lam a) : ℝ) * (mu c : ℂ)⁻¹ with hX
    set v : ℕ → ℕ → ℂ := fun t b => (if t = s then if b = a then 1 else 0 else 0) - ∑ c ∈ range q, (Real.sqrt (lam b) : ℝ) * A.val [t, b, c] * X c with hv
    have hsq : ∀ b < p, ((Real.sqrt (lam b) : ℝ) : ℂ) * ((Real.sqrt (lam b) : ℝ) : ℂ) = (lam b : ℂ) := by
      intro b hb
      rw [← Complex.ofReal_mul, Real.mul_self_sqrt (hpos b hb).le]
    have hdelta : ∀ F : ℕ → ℕ → ℂ, ∑ t ∈ range d, ∑ b ∈ range p, F t b * (if t = s then if b = a then 1 else 0 else 0) = F s a := by
      intro F
      simp [hs, ha]
    have hsum : ∀ F : ℕ → ℕ → ℂ, ∑ t ∈ range d, ∑ b ∈ range p, F t b * v t b =
        F s a - ∑ c ∈ range q, (∑ t ∈ range d, ∑ b ∈ range p, F t b * ((Real.sqrt (lam b) : ℝ) * A.val [t, b, c])) * X c := by
      intro F
      simp only [hv, mul_sub, Finset.sum_sub_distrib, Finset.mul_sum]
      rw [hdelta, sum_swap2]
      congr 1
      refine Finset.sum_congr rfl fun c _ => ?_
      rw [Finset.sum_mul]
      refine Finset.sum_congr rfl fun t _ => ?_
      rw [Finset.sum_mul]
      exact Finset.sum_congr rfl fun b _ => by ring
    have hn : ∀ c < q, ∑ t ∈ range d, ∑ b ∈ range p, star (A.val [t, b, c]) * (Real.sqrt (lam b) : ℝ) * v t b = 0 := by
      intro c hc
      rw [hsum]
      have : ∀ c' < q, ∑ t ∈ range d, ∑ b ∈ range p, star (A.val [t, b, c]) * (Real.sqrt (lam b) : ℝ) * ((Real.sqrt (lam b) : ℝ) * A.val [t, b, c']) =
          if c = c' then (mu c : ℂ) else 0 := by
        intro c' hc'
        rw [← next c hc c' hc']
        exact Finset.sum_congr rfl fun t _ => Finset.sum_congr rfl fun b hb => by
          rw [← hsq b (Finset.mem_range.1 hb)]
          ring
      rw [Finset.sum_congr rfl fun c' hc' => by rw [this c' (Finset.mem_range.1 hc')]]
      simp only [ite_mul, zero_mul, Finset.sum_ite_eq, Finset.mem_range, if_pos hc, hX]
      have hne : (mu c : ℂ) ≠ 0 := Complex.ofReal_ne_zero.2 (hmu c hc).ne'
      field_simp
      ring
    have h := hb.complete v hn s hs a ha
    have hk : ∀ k1 < k, ∑ t ∈ range d, ∑ b ∈ range p, star (vL.val [t, b, k1]) * v t b = star (vL.val [s, a, k1]) := by
      intro k1 hk1
      rw [hsum, sub_eq_self]
      refine Finset.sum_eq_zero fun c hc => ?_
      have h0 := congrArg star (hb.null c (Finset.mem_range.1 hc) k1 hk1)
      rw [star_zero, star_sum] at h0
      rw [mul_eq_zero]
      left
      rw [← h0]
      refine Finset.sum_congr rfl fun t _ => ?_
      rw [star_sum]
      refine Finset.sum_congr rfl fun b _ => ?_
      rw [star_mul', star_mul', star_star, show star ((Real.sqrt (lam b) : ℝ) : ℂ) = _ from Complex.conj_ofReal _]
      ring
    rw [Finset.sum_congr rfl fun k1 hk1 => by rw [hk k1 (Finset.mem_range.1 hk1)]] at h
    have hvs : v s a = 1 - ∑ c ∈ range q, (Real.sqrt (lam a) : ℝ) * A.val [s, a, c] * X c := by simp [hv]
    rw [hvs, sub_eq_iff_eq_add] at h
    rw [h]
    refine congrArg₂ _ (Finset.sum_congr rfl fun k1 _ => by ring) (Finset.sum_congr rfl fun c _ => ?_)
    rw [hX, ← hsq a ha]
    ring
  have htot : ((d * p : ℕ) : ℂ) = ((k + q : ℕ) : ℂ) := by
    calc ((d * p : ℕ) : ℂ) = ∑ s ∈ range d, ∑ a ∈ range p, (1 : ℂ) := by simp
      _ = ∑ s ∈ range d, ∑ a ∈ range p, (∑ k1 ∈ range k, star (vL.val [s, a, k1]) * vL.val [s, a, k1] +
          ∑ c ∈ range q, star (A.val [s, a, c]) * (lam a : ℂ) * A.val [s, a, c] * (mu c : ℂ)⁻¹) :=
        Finset.sum_congr rfl fun s hs => Finset.sum_congr rfl fun a ha => key s (Finset.mem_range.1 hs) a (Finset.mem_range.1 ha)
      _ = ∑ k1 ∈ range k, 1 + ∑ c ∈ range q, 1 := by
        simp only [Finset.sum_add_distrib]
        refine congrArg₂ _ ?_ ?_
        · rw [sum_swap2]
          refine Finset.sum_congr rfl fun k1 hk1 => ?_
          rw [hb.orth k1 (Finset.mem_range.1 hk1) k1 (Finset.mem_range.1 hk1), if_pos rfl]
        · rw [sum_swap2]
          refine Finset.sum_congr rfl fun c hc => ?_
          simp only [← Finset.sum_mul]
          have hc := Finset.mem_range.1 hc
          rw [next c hc c hc, if_pos rfl, mul_inv_cancel₀ (Complex.ofReal_ne_zero.2 (hmu c hc).ne')]
      _ = _ := by simp
  exact_mod_cast htot.symm

/-! ### one site -/

/-- what `get_envs` and `left_null_projector` give at the site `i` -/
structure TSite (L d : ℕ) (As ls rs : List (ND ℂ)) (i : ℕ) (A vL l r : ND ℂ) (p q k : ℕ) (lam rho : ℕ → ℝ) : Prop where
  hp : MpsChain ((List.replicate L d).take i) (As.take i) 1 p
  hA : A.shape = [d, p, q]
  hn : MpsChain ((List.replicate L d).drop (i + 1)) (As.drop (i + 1)) q 1
  left : ∀ a < p, ∀ b < p, leftEnv ((List.replicate L d).take i) (As.take i) a b = if a = b then (lam a : ℂ) else 0
  right : ∀ a < q, ∀ b < q, rightEnv ((List.replicate L d).drop (i + 1)) (As.drop (i + 1)) a b = if a = b then (rho a : ℂ) else 0
  el : FMPS.envAt ls ((i : ℤ) - 1) = .ok l
  er : FMPS.envAt rs (i : ℤ) = .ok r
  hl : l.shape = [p, p]
  hr : r.shape = [q, q]
  hlv : ∀ a < p, ∀ b < p, l.val [a, b] = if a = b then (lam a : ℂ) else 0
  hrv : ∀ a < q, ∀ b < q, r.val [a, b] = if a = b then (rho a : ℂ) else 0
  pos : ∀ a < p, 0 < lam a
  pos' : ∀ a < q, 0 < rho a
  bp : 0 < p
  bq : 0 < q
  basis : NullBasis d p q k A lam vL
  count : k + q = d * p

theorem TSite.extract {chol inv null : ND ℂ → Py (ND ℂ)} (hchol : CholTriLaw chol) (O : SetOrder) {x : FMPS ℂ} {L d i p q k : ℕ}
    {ls rs dA : List (ND ℂ)} {A vL l r pr B : ND ℂ} {lam rho : ℕ → ℝ} (h : TSite L d x.data ls rs i A vL l r p q k lam rho)
    (hN : FMPS.leftNull chol inv null O x ls i = .ok (pr, vL)) (hB : pyGet dA i = .ok B) (hs : B.shape = [d, p, q]) :
    ∃ w : ND ℂ, FMPS.extractSite chol inv null O x ls rs dA i = .ok w.flat ∧ w.shape = [k, q] ∧ ∀ k1 < k, ∀ c < q,
      w.val [k1, c] = ∑ s ∈ range d, ∑ a ∈ range p, star (vL.val [s, a, k1]) *
        (((Real.sqrt (lam a) : ℝ) : ℂ) * B.val [s, a, c] * ((Real.sqrt (rho c) : ℝ) : ℂ)) := by
  obtain ⟨X, e1, hX, hXv⟩ := chol_diag hchol h.hl h.hlv h.pos
  obtain ⟨Y, e2, hY, hYv⟩ := chol_diag hchol h.hr h.hrv h.pos'
  obtain ⟨t1, e3, ht1, ht1v⟩ := diag_mul_left hX hs hXv
  obtain ⟨t2, e4, ht2, ht2v⟩ := diag_mul_right ht1 hY hYv
  obtain ⟨w, e5, hw, hwv⟩ := nc_eval O (AA := [vL.conj, t2]) (v := [[1, 2, -1], [1, 2, -2]])
    (dimOf [(1, d), (2, p), (-1, k), (-2, q)]) [1, 2] [-1, -2]
    ⟨by simp, by simp [ND.conj, h.basis.shape, ht2, dimOf, List.lookup], by simp, by simp, by decide, by decide, by decide, by decide, by decide⟩
    (by decide) (by decide)
  refine ⟨w, ?_, ?_, ?_⟩
  · unfold FMPS.extractSite
    rw [hN, ok_bind]
    simp only
    rw [h.el, ok_bind, e1, ok_bind, hB, ok_bind, e3, ok_bind, h.er, ok_bind, e2, ok_bind, e4, ok_bind, e5, ok_bind]
  · rw [hw]
    simp [dimOf, List.lookup]
  · intro k1 hk1 c hc
    rw [hwv _ rfl]
    simp [labelSum, netTerm, assign, dimOf, List.lookup, Function.update, ND.conj]
    refine Finset.sum_congr rfl fun s _ => Finset.sum_congr rfl fun a ha => ?_
    rw [ht2v s a c hc, ht1v s a (Finset.mem_range.1 ha) c]

theorem TSite.import {chol inv : ND ℂ → Py (ND ℂ)} (hchol : CholTriLaw chol) (hinv : InvLaw inv) {L d i p q k : ℕ}
    {As ls rs : List (ND ℂ)} {A vL l r x : ND ℂ} {lam rho : ℕ → ℝ} (h : TSite L d As ls rs i A vL l r p q k lam rho) (hx : x.shape = [k, q]) :
    ∃ B : ND ℂ, FMPS.importSite chol inv l r vL x = .ok B ∧ B.shape = [d, p, q] ∧ ∀ s, ∀ a < p, ∀ c < q,
      B.val [s, a, c] = (((Real.sqrt (lam a))⁻¹ : ℝ) : ℂ) * (∑ k1 ∈ range k, vL.val [s, a, k1] * x.val [k1, c]) * (((Real.sqrt (rho c))⁻¹ : ℝ) : ℂ) := by
  obtain ⟨X, X', e1, e2, hX, hX', -, hXv⟩ := inv_chol_diag hchol hinv h.hl h.hlv h.pos
  obtain ⟨Y, Y', e3, e4, hY, hY', -, hYv⟩ := inv_chol_diag hchol hinv h.hr h.hrv h.pos'
  obtain ⟨t1, e5, ht1, ht1v⟩ := diag_mul_left hX' h.basis.shape hXv
  obtain ⟨t2, e6, ht2, ht2v⟩ := ND.matmul32 ht1 hx
  obtain ⟨t3, e7, ht3, ht3v⟩ := diag_mul_right ht2 hY' hYv
  refine ⟨t3, ?_, ht3, ?_⟩
  · unfold FMPS.importSite
    rw [e1, ok_bind, e2, ok_bind, e5, ok_bind, e6, ok_bind, e3, ok_bind, e4, ok_bind, e7]
  · intro s a ha c hc
    rw [ht3v s a c hc, ht2v, Finset.mul_sum]
    congr 1
    exact Finset.sum_congr rfl fun k1 _ => by rw [ht1v s a ha k1]; ring

/-- all sites -/
theorem tangent_facts {chol inv null : ND ℂ → Py (ND ℂ)} (hchol : CholTriLaw chol) (hinv : InvLaw inv) (hnull : NullLaw null) (O : SetOrder)
    {x : FMPS ℂ} {L d : ℕ} (hd : 0 < d) (hx : x.Holds (List.replicate L d)) (hf : FullEnvs (List.replicate L d) x.data) :
    ∃ ls rs, x.getEnvs = .ok (ls, rs) ∧ ∃ (pr vL l r : ℕ → ND ℂ) (p q k : ℕ → ℕ) (lam rho : ℕ → ℕ → ℝ),
      (∀ i (hi : i < x.data.length), FMPS.leftNull chol inv null O x ls i = .ok (pr i, vL i) ∧
        TSite L d x.data ls rs i x.data[i] (vL i) (l i) (r i) (p i) (q i) (k i) (lam i) (rho i)) ∧
      x.tangentSpaceDims chol inv null O ls = .ok ((List.range L).map vL, (List.range L).map fun i => (k i, q i)) := by
  have hlen := hx.chain.length_eq
  rw [List.length_replicate] at hlen
  have hxL : x.L = L := by rw [hx.len]; simp
  obtain ⟨ls, rs, e, henv0⟩ := getEnvs_full hx hf
  have henv : ∀ k ≤ L, ∀ p, MpsChain ((List.replicate L d).take k) (x.data.take k) 1 p →
      ∃ l r lam rho, EnvCut (List.replicate L d) x.data ls rs k p l r lam rho := by
    intro k hk
    exact henv0 k (by simpa using hk)
  have hsite : ∀ i, ∃ (pr vL l r : ND ℂ) (p q k : ℕ) (lam rho : ℕ → ℝ), ∀ (hi : i < x.data.length),
      FMPS.leftNull chol inv null O x ls i = .ok (pr, vL) ∧ TSite L d x.data ls rs i x.data[i] vL l r p q k lam rho := by
    intro i
    by_cases hi : i < x.data.length
    · have hxd : x.d = d := by
        rw [hx.d]
        obtain ⟨L, rfl⟩ : ∃ L', L = L' + 1 := ⟨L - 1, by omega⟩
        simp [List.replicate_succ]
      obtain ⟨p, q, c1, sA, c2, c3⟩ := chain_site hx.chain hi
      obtain ⟨l, r, lam, rho, E⟩ := henv i (by omega) p c1
      obtain ⟨l2, r2, mu, rho2, E2⟩ := henv (i + 1) (by omega) q c2
      have hp0 := hf.bond_pos hx.chain c1
      have hq0 := hf.bond_pos hx.chain c2
      have hv : ∀ a < p, ∀ b < p, l.val [a, b] = if a = b then (lam a : ℂ) else 0 := by
        intro a ha b hb
        rw [E.hlv a ha b hb, E.left a ha b hb]
      obtain ⟨vL, k, e1, hb⟩ := nullVecs_ok hchol hnull hd hp0 hq0 sA E.hl hv E.pos
      obtain ⟨pr, e2, hpr⟩ := projector_ok hchol hinv O E.hl hv E.pos hb
      refine ⟨pr, vL, l, r2, p, q, k, lam, rho2, fun _ => ⟨?_, c1, sA, c3, E.left, E2.right, E.el, ?_, E.hl, E2.hr, hv, ?_, E.pos, E2.pos', hp0, hq0, hb, ?_⟩⟩
      · unfold FMPS.leftNull
        rw [pyGet_ok hi, ok_bind, E.el, ok_bind, hxd, e1, ok_bind, e2, ok_bind]
      · have := E2.er
        rwa [show ((i + 1 : ℕ) : ℤ) - 1 = (i : ℤ) by push_cast; ring] at this
      · intro a ha b hb
        rw [E2.hrv a ha b hb, E2.right a ha b hb]
      · refine hb.count (mu := mu) ?_ E.pos E2.pos
        intro a ha b hb
        have hsn := leftEnv_snoc (A := x.data[i]) c1 sA a b ha hb
        have t1 : (List.replicate L d).take (i + 1) = (List.replicate L d).take i ++ [d] := by
          rw [List.take_succ_eq_append_getElem (by simp; omega)]
          simp
        have t2 : x.data.take (i + 1) = x.data.take i ++ [x.data[i]] := List.take_succ_eq_append_getElem hi
        rw [← t1, ← t2, E2.left a ha b hb] at hsn
        rw [hsn]
        refine Finset.sum_congr rfl fun s _ => ?_
        refine Finset.sum_congr rfl fun c hc => ?_
        rw [Finset.sum_eq_single c]
        · rw [E.left c (Finset.mem_range.1 hc) c (Finset.mem_range.1 hc), if_pos rfl]
        · intro c' hc' hne
          rw [E.left c (Finset.mem_range.1 hc) c' (Finset.mem_range.1 hc'), if_neg (Ne.symm hne)]
          ring
        · intro hn
          exact absurd hc hn
    · exact ⟨zerosND [], zerosND [], zerosND [], zerosND [], 0, 0, 0, fun _ => 0, fun _ => 0, fun h => absurd h hi⟩
  choose pr vL l r p q k lam rho hs using hsite
  refine ⟨ls, rs, e, pr, vL, l, r, p, q, k, lam, rho, hs, ?_⟩
  have e1 : ((List.range x.L).mapM fun n => FMPS.leftNull chol inv null O x ls n) = .ok ((List.range L).map fun n => (pr n, vL n)) := by
    rw [hxL]
    refine mapM_ok ?_
    intro n hn
    rw [List.mem_range, ← hlen] at hn
    exact (hs n hn).1
  have e2 : (((List.range L).map vL).zipIdx.mapM fun a => (do
      let q ← x.dimAfter a.2
      .ok (a.1.dim 2, q) : Py (ℕ × ℕ))) = .ok ((List.range L).map fun i => (k i, q i)) := by
    have := mapM_zipIdx (l := (List.range L).map vL) (g := fun i => (k i, q i)) (f := fun a => (do
      let q ← x.dimAfter a.2
      .ok (a.1.dim 2, q) : Py (ℕ × ℕ))) (by
      intro j hj
      have hj : j < x.data.length := by simpa [hlen] using hj
      have hsj := (hs j hj).2
      simp only [List.getElem_map, List.getElem_range]
      rw [dim2 hsj.basis.shape]
      unfold FMPS.dimAfter
      by_cases hj1 : j + 1 < x.L
      · rw [if_pos hj1, pyGet_ok (by omega : j + 1 < x.data.length)]
        have hsj1 := (hs (j + 1) (by omega)).2
        simp only [ok_bind]
        rw [dim1 hsj1.hA]
        obtain ⟨p', q', c1, sA, c2, c3⟩ := chain_site hx.chain hj
        obtain rfl := chain_bond_unique c2 hsj1.hp
        rw [hsj.hA] at sA
        simp at sA
        rw [sA.2]
      · rw [if_neg hj1, ok_bind]
        have hn := hsj.hn
        rw [List.drop_eq_nil_of_le (by simp; omega), List.drop_eq_nil_of_le (by omega)] at hn
        rw [show q j = 1 from hn])
    simpa using this
  unfold FMPS.tangentSpaceDims
  rw [e1, ok_bind]
  simp only [List.map_map]
  have : ((List.range L).map (Prod.snd ∘ fun n => (pr n, vL n))) = (List.range L).map vL := rfl
  rw [this, e2, ok_bind]

end Xmps
