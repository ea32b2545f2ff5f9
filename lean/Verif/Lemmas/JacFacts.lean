import Verif.Lemmas.Jac
import Verif.Lemmas.F1Diag
import Verif.Props.Christoffel
import Verif.Props.Tdvp
import Verif.Props.TangentVec

/-!
# What `jac` computes, block by block
-/

namespace Xmps

open Finset Spec Xmps.Ncon

section
variable {L d : ℕ} {x : FMPS ℂ} {ls rs : List (ND ℂ)} {E : FMPS.InvEnvs} {N : ℝ} {vL l r : ℕ → ND ℂ} {p q k : ℕ → ℕ} {lam rho : ℕ → ℕ → ℝ} {i j : ℕ}

theorem F2Ctx.dims (c : F2Ctx L d x ls rs E N vL l r p q k lam rho) :
    x.dimsWith ((List.range L).map vL) = .ok ((List.range L).map fun i => (k i, q i)) := by
  have hlen := c.len
  have hxL : x.L = L := by simpa using c.hx.len
  have := mapM_zipIdx (l := (List.range L).map vL) (g := fun i => (k i, q i)) (f := fun a => (do
    let q ← x.dimAfter a.2
    .ok (a.1.dim 2, q) : Py (ℕ × ℕ))) (by
    intro j hj
    have hj : j < x.data.length := by simpa [hlen] using hj
    have hsj := c.site j hj
    simp only [List.getElem_map, List.getElem_range]
    rw [dim2 hsj.basis.shape]
    unfold FMPS.dimAfter
    by_cases hj1 : j + 1 < x.L
    · rw [if_pos hj1, pyGet_ok (by omega : j + 1 < x.data.length)]
      simp only [ok_bind]
      rw [dim1 (c.site (j + 1) (by omega)).hA, ← c.link (i := j) (by omega)]
    · rw [if_neg hj1, ok_bind, c.last (i := j) (by omega)])
  unfold FMPS.dimsWith
  simpa using this

theorem F2Ctx.spaceDims (c : F2Ctx L d x ls rs E N vL l r p q k lam rho) {chol inv null : ND ℂ → Py (ND ℂ)} {O : SetOrder} {pr : ℕ → ND ℂ}
    (h : ((List.range x.L).mapM fun n => FMPS.leftNull chol inv null O x ls n) = .ok ((List.range L).map fun n => (pr n, vL n))) :
    x.tangentSpaceDims chol inv null O ls = .ok ((List.range L).map vL, (List.range L).map fun i => (k i, q i)) := by
  unfold FMPS.tangentSpaceDims
  rw [h, ok_bind]
  simp only [List.map_map]
  rw [show ((List.range L).map (Prod.snd ∘ fun n => (pr n, vL n))) = (List.range L).map vL from rfl]
  have := c.dims
  unfold FMPS.dimsWith at this
  rw [this, ok_bind]

theorem F2Ctx.projector_null (c : F2Ctx L d x ls rs E N vL l r p q k lam rho) {chol inv null : ND ℂ → Py (ND ℂ)} {O : SetOrder} {pr : ℕ → ND ℂ} {i : ℕ}
    (hi : i < x.data.length) (e : FMPS.leftNull chol inv null O x ls i = .ok (pr i, vL i)) : FMPS.projector chol inv O (vL i) (l i) = .ok (pr i) := by
  unfold FMPS.leftNull at e
  rw [pyGet_ok hi, ok_bind, (c.site i hi).el, ok_bind] at e
  obtain ⟨v, e1, e⟩ := bind_eq_ok e
  obtain ⟨pr', e2, e⟩ := bind_eq_ok e
  obtain ⟨rfl, rfl⟩ : pr' = pr i ∧ v = vL i := by simpa using e
  exact e2

theorem F2Ctx.prsWith' (c : F2Ctx L d x ls rs E N vL l r p q k lam rho) {chol inv : ND ℂ → Py (ND ℂ)} {O : SetOrder} {pr : ℕ → ND ℂ}
    (h : ∀ i < L, FMPS.projector chol inv O (vL i) (l i) = .ok (pr i)) :
    FMPS.prsWith chol inv O x ls ((List.range L).map vL) = .ok ((List.range L).map pr) := by
  have hlen := c.len
  have hxL : x.L = L := by simpa using c.hx.len
  unfold FMPS.prsWith
  rw [hxL]
  refine mapM_ok ?_
  intro i hi
  have hi := List.mem_range.1 hi
  rw [c.vs hi, ok_bind, (c.site i (by omega)).el, ok_bind, h i hi]

theorem F2Ctx.prFix' (c : F2Ctx L d x ls rs E N vL l r p q k lam rho) {chol inv : ND ℂ → Py (ND ℂ)} (hchol : CholTriLaw chol) (hinv : InvLaw inv)
    (O : SetOrder) {i : ℕ} (hi : i < x.data.length) {pr : ND ℂ} (h : FMPS.projector chol inv O (vL i) (l i) = .ok pr) :
    PrFix d (p i) (q i) x.data[i] (lam i) pr := by
  have hs := c.site i hi
  obtain ⟨pr', e, hp⟩ := projector_ok hchol hinv O hs.hl hs.hlv hs.pos hs.basis
  rw [e] at h
  obtain rfl : pr' = pr := by simpa using h
  exact hp.prFix

/-- `F1(i, j)` returns an array of the expected shape, also for distant sites -/
theorem F2Ctx.f1all (c : F2Ctx L 2 x ls rs E N vL l r p q k lam rho) (O : SetOrder) (hi : i < L) (hj : j < L) {H : List (ND ℂ)} (hL : H.length < L)
    (hH : ∀ h ∈ H, h.shape = [4, 4]) :
    ∃ G, FMPS.f1With O x ls rs ((List.range L).map vL) E H i j = .ok G ∧ G.shape = [k i, q i, k j, q j] := by
  unfold FMPS.f1With
  rcases Nat.lt_trichotomy i j with h | h | h
  · rw [if_neg (by omega)]
    obtain ⟨G, g1, g2, -⟩ := c.f1sorted O h hj hL hH
    exact ⟨G, g1, g2⟩
  · subst h
    rw [if_neg (by omega)]
    obtain ⟨G, g1, g2, -⟩ := c.f1diag O hi hL hH
    exact ⟨G, g1, g2⟩
  · rw [if_pos h]
    obtain ⟨G, g1, g2, -⟩ := c.f1sorted O h hi hL hH
    rw [g1, ok_bind, ND.transpose_ok (by rw [ND.rank, g2]; exact (by decide : List.Perm [2, 3, 0, 1] (List.range 4))), ok_bind]
    exact ⟨_, rfl, by simp [ND.conj, ND.transposeR, ND.dim, g2]⟩

theorem F2Ctx.f2all (c : F2Ctx L d x ls rs E N vL l r p q k lam rho) (O : SetOrder) (hi : i < L) (hj : j < L) {H : List (ND ℂ)}
    (hL : H.length < L) (hH : ∀ h ∈ H, h.shape = [d * d, d * d]) :
    ∃ G, FMPS.f2With O x ls ((List.range L).map vL) E H i j = .ok G ∧ G.shape = [k i, q i, k j, q j] ∧ ∀ Bi Bj : ND ℂ, c.Tan i Bi → c.Tan j Bj →
      ∑ a ∈ range (k i), ∑ b ∈ range (q i), ∑ a' ∈ range (k j), ∑ e ∈ range (q j),
        star (siteCoord d (p i) (vL i) (lam i) (rho i) Bi a b) * star (siteCoord d (p j) (vL j) (lam j) (rho j) Bj a' e) * G.val [a, b, a', e] =
          if i = j then 0 else (if i = 0 ∨ j = 0 then ((Real.sqrt N : ℝ) : ℂ) else 1) *
            pairing (List.replicate L d) (psi ((x.data.set i Bi).set j Bj)) (hamAct d H (psi x.data)) := by
  have hl := c.len
  by_cases h : i = j
  · subst h
    refine ⟨zerosND [k i, q i, k i, q i], ?_, rfl, ?_⟩
    · unfold FMPS.f2With FMPS.f2Sorted
      rw [if_neg (by omega), if_pos rfl, c.coord hi, ok_bind]
      simp only [ok_bind]
    · intros
      simp [zerosND]
  · obtain ⟨G, g1, g2, g3⟩ := c.value O h hi hj hL hH
    refine ⟨G, g1, g2, ?_⟩
    intro Bi Bj hBi hBj
    rw [if_neg h]
    refine g3 _ _ Bi Bj hBi.1 hBj.1 ?_ ?_
    · intro s hs a ha b hb
      exact ((c.site i (by omega)).tensor_coord (hBi.2 (by omega)) hs ha hb).symm
    · intro s hs a ha b hb
      exact ((c.site j (by omega)).tensor_coord (hBj.2 (by omega)) hs ha hb).symm

end

/-- the state has no overlap with second tangent vectors -/
theorem F2Ctx.chPsi {L d : ℕ} {x : FMPS ℂ} {ls rs : List (ND ℂ)} {E : FMPS.InvEnvs} {N : ℝ} {vL l r : ℕ → ND ℂ} {p q k : ℕ → ℕ} {lam rho : ℕ → ℕ → ℝ}
    (c : F2Ctx L d x ls rs E N vL l r p q k lam rho) {i j : ℕ} (hij : i < j) (hj : j < x.data.length) {U W : ND ℂ} (hU : U.shape = [d, p i, q i])
    (hW : W.shape = [d, p j, q j]) (hgU : LeftGauge d (p i) (q i) (leftEnv ((List.replicate L d).take i) (x.data.take i)) x.data[i] U) :
    pairing (List.replicate L d) (psi ((x.data.set i U).set j W)) (psi x.data) = 0 := by
  have hl := c.len
  have hUc : MpsChain (List.replicate L d) (x.data.set i U) 1 1 := chain_set (by omega) c.hx.chain (by rw [hU, (c.site i (by omega)).hA])
  have hUW : MpsChain (List.replicate L d) ((x.data.set i U).set j W) 1 1 := chain_set (by simp; omega) hUc
    (by rw [List.getElem_set_ne (by omega), hW, (c.site j (by omega)).hA])
  have e1 : (x.data.set i U).set j W = x.data.take i ++ U :: ((x.data.set i U).set j W).drop (i + 1) := by
    conv_lhs => rw [list_cut (As := (x.data.set i U).set j W) (i := i) (by simp; omega)]
    rw [List.take_set_of_le (by omega), List.take_set_of_le (by omega), List.getElem_set_ne (by omega), List.getElem_set_self]
  have e2 : x.data = x.data.take i ++ x.data[i] :: x.data.drop (i + 1) := list_cut (by omega)
  have key := c.orth (S := ((x.data.set i U).set j W).drop (i + 1)) (T := x.data.drop (i + 1)) (by omega) hU hgU ?_ ?_
  · rw [e1]
    exact (congrArg (fun z => pairing (List.replicate L d) (psi (x.data.take i ++ U :: ((x.data.set i U).set j W).drop (i + 1))) (psi z)) e2).trans key
  · obtain ⟨p', q', g1, g2, g3, g4⟩ := chain_site hUW (i := i) (by simp; omega)
    rw [List.getElem_set_ne (by omega), List.getElem_set_self, hU] at g2
    rw [show q i = q' from ((List.cons.inj (List.cons.inj (List.cons.inj g2).2).2).1)]
    exact g4
  · exact (c.site i (by omega)).hn

/-- the blocks `jac` computes for given null vectors, before they are put together -/
def JacBlocks {L : ℕ} {x : FMPS ℂ} {ls rs : List (ND ℂ)} {E : FMPS.InvEnvs} {N : ℝ} {vL l r : ℕ → ND ℂ} {p q k : ℕ → ℕ} {lam rho : ℕ → ℕ → ℝ}
    (c : F2Ctx L 2 x ls rs E N vL l r p q k lam rho) (O : SetOrder) (H : List (ND ℂ)) (y : FMPS ℂ) (parts : Py (ND ℂ × ND ℂ × ND ℂ)) : Prop :=
  ∃ (F1 F2 G : ℕ → ℕ → ND ℂ) (f1 f2 g : ℕ → ℕ → Py (ND ℂ)),
    parts = jacFill f1 f2 g ((List.range L).map fun i => (k i, q i)) ∧
    ∀ i < L, ∀ j < L, f1 i j = .ok ((F1 i j).smul (-Complex.I)) ∧ f2 i j = .ok ((F2 i j).smul (-Complex.I)) ∧ g i j = .ok (G i j) ∧
      (F1 i j).shape = [k i, q i, k j, q j] ∧ (F2 i j).shape = [k i, q i, k j, q j] ∧ (G i j).shape = [k i, q i, k j, q j] ∧
      FMPS.f1With O x ls rs ((List.range L).map vL) E H i j = .ok (F1 i j) ∧ FMPS.f2With O x ls ((List.range L).map vL) E H i j = .ok (F2 i j) ∧
      (∀ Bi Bj : ND ℂ, c.Tan i Bi → c.Tan j Bj → ∑ a ∈ range (k i), ∑ b ∈ range (q i), ∑ a' ∈ range (k j), ∑ e ∈ range (q j),
        star (siteCoord 2 (p i) (vL i) (lam i) (rho i) Bi a b) * star (siteCoord 2 (p j) (vL j) (lam j) (rho j) Bj a' e) * (F2 i j).val [a, b, a', e] =
          if i = j then 0 else (if i = 0 ∨ j = 0 then ((Real.sqrt N : ℝ) : ℂ) else 1) *
            pairing (List.replicate L 2) (psi ((x.data.set i Bi).set j Bj)) (hamAct 2 H (psi x.data))) ∧
      ∀ Bi Bj : ND ℂ, c.Tan i Bi → c.Tan j Bj → ∑ a ∈ range (k i), ∑ b ∈ range (q i), ∑ a' ∈ range (k j), ∑ e ∈ range (q j),
        star (siteCoord 2 (p i) (vL i) (lam i) (rho i) Bi a b) * star (siteCoord 2 (p j) (vL j) (lam j) (rho j) Bj a' e) * (G i j).val [a, b, a', e] =
          if i = j then 0 else -pairing (List.replicate L 2) (psi ((x.data.set i Bi).set j Bj)) (psi (x.data.set (min i j) (y.data.getD (min i j) (zerosND []))))

section
variable {L : ℕ} {x : FMPS ℂ} {ls rs : List (ND ℂ)} {E : FMPS.InvEnvs} {N : ℝ} {vL l r : ℕ → ND ℂ} {p q k : ℕ → ℕ} {lam rho : ℕ → ℕ → ℝ}
  (c : F2Ctx L 2 x ls rs E N vL l r p q k lam rho)

theorem F2Ctx.jacBlocks {chol inv : ND ℂ → Py (ND ℂ)} (hchol : CholTriLaw chol) (hinv : InvLaw inv) (O : SetOrder)
    {H : List (ND ℂ)} (hL : H.length < L) (hH : ∀ h ∈ H, h.shape = [4, 4]) (eE : FMPS.invEnvs chDiag invDiag x.L ls rs = .ok E) {pr : ℕ → ND ℂ}
    (hpr : ∀ i < L, FMPS.projector chol inv O (vL i) (l i) = .ok (pr i)) {y : FMPS ℂ} (ey : FMPS.dAdtWith inv O x ls rs ((List.range L).map pr) H = .ok y)
    (hyl : y.data.length = L) (hyT : ∀ i (hi : i < y.data.length), c.Tan i y.data[i]) :
    JacBlocks c O H y (FMPS.jacWith chol inv O x ls rs ((List.range L).map vL) H) := by
  have hl := c.len
  have hprs : ∀ n < L, pyGet ((List.range L).map pr) n = .ok (pr n) := by
    intro n hn
    rw [pyGet_ok (by simpa using hn)]
    simp
  have hP : ∀ n (hn : n < x.data.length), PrFix 2 (p n) (q n) x.data[n] (lam n) (pr n) := fun n hn => c.prFix' hchol hinv O hn (hpr n (by omega))
  obtain ⟨cache, ec, hcache, -⟩ := c.dACacheWith O hprs hP
  have h1 : ∀ i j, ∃ G, i < L → j < L → FMPS.f1With O x ls rs ((List.range L).map vL) E H i j = .ok G ∧ G.shape = [k i, q i, k j, q j] := by
    intro i j
    by_cases h : i < L ∧ j < L
    · obtain ⟨G, hG⟩ := c.f1all O h.1 h.2 hL hH
      exact ⟨G, fun _ _ => hG⟩
    · exact ⟨zerosND [], fun h1 h2 => absurd ⟨h1, h2⟩ h⟩
  have h2 : ∀ i j, ∃ G, i < L → j < L → FMPS.f2With O x ls ((List.range L).map vL) E H i j = .ok G ∧ G.shape = [k i, q i, k j, q j] ∧
      ∀ Bi Bj : ND ℂ, c.Tan i Bi → c.Tan j Bj →
      ∑ a ∈ range (k i), ∑ b ∈ range (q i), ∑ a' ∈ range (k j), ∑ e ∈ range (q j),
        star (siteCoord 2 (p i) (vL i) (lam i) (rho i) Bi a b) * star (siteCoord 2 (p j) (vL j) (lam j) (rho j) Bj a' e) * G.val [a, b, a', e] =
          if i = j then 0 else (if i = 0 ∨ j = 0 then ((Real.sqrt N : ℝ) : ℂ) else 1) *
            pairing (List.replicate L 2) (psi ((x.data.set i Bi).set j Bj)) (hamAct 2 H (psi x.data)) := by
    intro i j
    by_cases h : i < L ∧ j < L
    · obtain ⟨G, hG⟩ := c.f2all O h.1 h.2 hL hH
      exact ⟨G, fun _ _ => hG⟩
    · exact ⟨zerosND [], fun h1 h2 => absurd ⟨h1, h2⟩ h⟩
  have h3 : ∀ i j, ∃ G W, i < L → j < L → FMPS.weighted ls rs (min i j) (y.data.getD (min i j) (zerosND [])) = .ok W ∧
      FMPS.christoffelWith chol inv O x cache ls rs ((List.range L).map pr) ((List.range L).map vL) i j (min i j) W = .ok G ∧
      G.shape = [k i, q i, k j, q j] ∧
      ∀ Bi Bj : ND ℂ, c.Tan i Bi → c.Tan j Bj → ∑ a ∈ range (k i), ∑ b ∈ range (q i), ∑ a' ∈ range (k j), ∑ e ∈ range (q j),
        star (siteCoord 2 (p i) (vL i) (lam i) (rho i) Bi a b) * star (siteCoord 2 (p j) (vL j) (lam j) (rho j) Bj a' e) * G.val [a, b, a', e] =
          if i = j then 0 else -pairing (List.replicate L 2) (psi ((x.data.set i Bi).set j Bj))
            (psi (x.data.set (min i j) (y.data.getD (min i j) (zerosND [])))) := by
    intro i j
    by_cases h : i < L ∧ j < L
    · have hmin : min i j < y.data.length := by omega
      have tC := hyT (min i j) hmin
      rw [← List.getD_eq_getElem _ (zerosND []) hmin] at tC
      obtain ⟨W, w1, w2, w3⟩ := c.wt_ok (by omega) tC.1
      obtain ⟨G, hG⟩ := c.christoffelWith hchol hinv O hprs hP hcache (by omega : i < x.data.length) (by omega : j < x.data.length) (by omega) tC w2 w3
      exact ⟨G, W, fun _ _ => ⟨w1, hG⟩⟩
    · exact ⟨zerosND [], zerosND [], fun h1 h2 => absurd ⟨h1, h2⟩ h⟩
  choose F1 hF1 using h1
  choose F2 hF2 using h2
  choose G W hG using h3
  refine ⟨F1, F2, G,
    (fun i j => do
      let G ← FMPS.f1With O x ls rs ((List.range L).map vL) E H i j
      .ok (G.smul (-Complex.I))),
    (fun i j => do
      let G ← FMPS.f2With O x ls ((List.range L).map vL) E H i j
      .ok (G.smul (-Complex.I))),
    (fun i j => do
      let B ← pyGet y.data (min i j)
      let M' ← FMPS.weighted ls rs (min i j) B
      FMPS.christoffelWith chol inv O x cache ls rs ((List.range L).map pr) ((List.range L).map vL) i j (min i j) M'), ?_, ?_⟩
  · unfold FMPS.jacWith
    rw [c.prsWith' hpr, ok_bind, ey, ok_bind, ec, ok_bind, eE, ok_bind, c.dims, ok_bind]
  · intro i hi j hj
    obtain ⟨a1, a2⟩ := hF1 i j hi hj
    obtain ⟨b1, b2, b3⟩ := hF2 i j hi hj
    obtain ⟨c1, c2, c3, c4⟩ := hG i j hi hj
    have hmin : min i j < y.data.length := by omega
    rw [List.getD_eq_getElem _ _ hmin] at c1
    exact ⟨by beta_reduce; rw [a1, ok_bind], by beta_reduce; rw [b1, ok_bind], by beta_reduce; rw [pyGet_ok hmin, ok_bind, c1, ok_bind, c2], a2, b2, c3, a1, b1, b3, c4⟩


end

theorem F2Ctx.jacForm {L : ℕ} {x : FMPS ℂ} {ls rs : List (ND ℂ)} {E : FMPS.InvEnvs} {N : ℝ} {vL l r : ℕ → ND ℂ} {p q k : ℕ → ℕ} {lam rho : ℕ → ℕ → ℝ}
    (c : F2Ctx L 2 x ls rs E N vL l r p q k lam rho) {O : SetOrder} {H : List (ND ℂ)} {m : ℕ} (hm : EmptyPrefix 2 x.data m) {y : FMPS ℂ}
    {parts : Py (ND ℂ × ND ℂ × ND ℂ)} (hB : JacBlocks c O H y parts) :
    ∃ M, L = m + M ∧ 0 < M ∧ (∀ i < L, k i = 0 ↔ i < m) ∧ tangentDim 2 x.data = jacOff (fun t => k (m + t) * q (m + t)) M ∧
    ∃ (F1 F2 G : ℕ → ℕ → ND ℂ) (J1 J2 J3 : ND ℂ), (∀ i < L, ∀ j < L, FMPS.f1With O x ls rs ((List.range L).map vL) E H i j = .ok (F1 i j) ∧ FMPS.f2With O x ls ((List.range L).map vL) E H i j = .ok (F2 i j) ∧
        (∀ Bi Bj : ND ℂ, c.Tan i Bi → c.Tan j Bj → ∑ a ∈ range (k i), ∑ b ∈ range (q i), ∑ a' ∈ range (k j), ∑ e ∈ range (q j),
          star (siteCoord 2 (p i) (vL i) (lam i) (rho i) Bi a b) * star (siteCoord 2 (p j) (vL j) (lam j) (rho j) Bj a' e) * (F2 i j).val [a, b, a', e] =
            if i = j then 0 else (if i = 0 ∨ j = 0 then ((Real.sqrt N : ℝ) : ℂ) else 1) *
              pairing (List.replicate L 2) (psi ((x.data.set i Bi).set j Bj)) (hamAct 2 H (psi x.data))) ∧
        ∀ Bi Bj : ND ℂ, c.Tan i Bi → c.Tan j Bj → ∑ a ∈ range (k i), ∑ b ∈ range (q i), ∑ a' ∈ range (k j), ∑ e ∈ range (q j),
          star (siteCoord 2 (p i) (vL i) (lam i) (rho i) Bi a b) * star (siteCoord 2 (p j) (vL j) (lam j) (rho j) Bj a' e) * (G i j).val [a, b, a', e] =
            if i = j then 0 else -pairing (List.replicate L 2) (psi ((x.data.set i Bi).set j Bj)) (psi (x.data.set (min i j) (y.data.getD (min i j) (zerosND []))))) ∧
      parts = .ok (J1, J2, J3) ∧
      J1.shape = [tangentDim 2 x.data, tangentDim 2 x.data] ∧ J2.shape = [tangentDim 2 x.data, tangentDim 2 x.data] ∧
      J3.shape = [tangentDim 2 x.data, tangentDim 2 x.data] ∧
      ∀ i < M, ∀ j < M, ∀ a < k (m + i) * q (m + i), ∀ b < k (m + j) * q (m + j),
        J1.val [jacOff (fun t => k (m + t) * q (m + t)) i + a, jacOff (fun t => k (m + t) * q (m + t)) j + b] =
          blkVal ((F1 (m + i) (m + j)).smul (-Complex.I)) (q (m + i)) (q (m + j)) a b ∧
        J2.val [jacOff (fun t => k (m + t) * q (m + t)) i + a, jacOff (fun t => k (m + t) * q (m + t)) j + b] =
          blkVal ((F2 (m + i) (m + j)).smul (-Complex.I)) (q (m + i)) (q (m + j)) a b ∧
        J3.val [jacOff (fun t => k (m + t) * q (m + t)) i + a, jacOff (fun t => k (m + t) * q (m + t)) j + b] =
          blkVal (G (m + i) (m + j)) (q (m + i)) (q (m + j)) a b := by
  obtain ⟨F1, F2, G, f1, f2, g, eJ, hF⟩ := hB
  have hl := c.len
  have hL0 : 0 < L := by
    have := c.hx.ne
    rcases Nat.eq_zero_or_pos L with rfl | h
    · simp at this
    · exact h
  have hz : ∀ i < L, k i = 0 ↔ i < m := by
    intro i hi
    have h := c.site i (by omega)
    rw [← hm i (by omega), dim1 h.hA, dim2 h.hA, ← h.count]
    omega
  have hmL : m < L := by
    by_contra hc
    have h := c.site (L - 1) (by omega)
    have h0 := (hz (L - 1) (by omega)).2 (by omega)
    have hp : ∀ i < L, 2 ^ (i + 1) = q i := by
      intro i
      induction i with
      | zero =>
        intro h0
        have s := c.site 0 (by omega)
        have h1 := s.hp
        have : p 0 = 1 := by
          have : (1 : ℕ) = p 0 := by simpa [MpsChain] using h1
          exact this.symm
        have h2 := s.count
        have h3 := (hz 0 h0).2 (by omega)
        omega
      | succ i ih =>
        intro hi
        have s := c.site (i + 1) (by omega)
        have h1 := c.link (i := i) (by omega)
        have h2 := s.count
        have h3 := (hz (i + 1) hi).2 (by omega)
        have h4 := ih (by omega)
        rw [pow_succ]
        omega
    have h1 := hp (L - 1) (by omega)
    rw [c.last (by omega)] at h1
    have : 1 < 2 ^ (L - 1 + 1) := Nat.one_lt_two_pow (by omega)
    omega
  obtain ⟨M, rfl⟩ : ∃ M, L = m + M := ⟨L - m, by omega⟩
  have hdim : tangentDim 2 x.data = jacOff (fun t => k (m + t) * q (m + t)) M := by
    unfold tangentDim
    have e1 : x.data.map (fun A => (2 * A.dim 1 - A.dim 2) * A.dim 2) = (List.range (m + M)).map fun i => k i * q i := by
      refine List.ext_getElem (by simpa using hl) ?_
      intro i h1 h2
      have hs := c.site i (by simpa using h1)
      have := hs.count
      rw [List.getElem_map, List.getElem_map, List.getElem_range, dim1 hs.hA, dim2 hs.hA, ← this, Nat.add_sub_cancel]
    rw [e1]
    show ∑ i ∈ range (m + M), k i * q i = _
    rw [Finset.sum_range_add, Finset.sum_eq_zero, zero_add]
    · rfl
    · intro i hi
      have hi := Finset.mem_range.1 hi
      rw [(hz i (by omega)).2 hi, zero_mul]
  obtain ⟨J1, J2, J3, eJ', s1, s2, s3, hJ⟩ := jacFill_ok (m := m) (N := M) (k := k) (q := q) (by omega) (fun i hi => (c.site i (by omega)).bq) hz
    (F1 := f1) (F2 := f2) (G2 := g)
    (A1 := fun i j => (F1 (m + i) (m + j)).smul (-Complex.I)) (A2 := fun i j => (F2 (m + i) (m + j)).smul (-Complex.I)) (A3 := fun i j => G (m + i) (m + j)) (by
      intro i hi j hj
      obtain ⟨a1, a2, a3, a4, a5, a6, -⟩ := hF (m + i) (by omega) (m + j) (by omega)
      simp only [add_comm i m, add_comm j m]
      exact ⟨a1, a2, a3, a4, a5, a6⟩)
  exact ⟨M, rfl, by omega, hz, hdim, F1, F2, G, J1, J2, J3,
    fun i hi j hj => (hF i hi j hj).2.2.2.2.2.2, eJ.trans eJ', by rw [hdim]; exact s1, by rw [hdim]; exact s2, by rw [hdim]; exact s3, hJ⟩


section
variable {chol inv null : ND ℂ → Py (ND ℂ)} (hchol : CholTriLaw chol) (hinv : InvLaw inv) (hnull : NullLaw null) (O : SetOrder)
  {x : FMPS ℂ} {L : ℕ} (hx : x.Holds (List.replicate L 2)) (hf : FullEnvs (List.replicate L 2) x.data)
  {H : List (ND ℂ)} (hL : H.length < L) (hH : ∀ h ∈ H, h.shape = [4, 4])
include hchol hinv hnull hx hf hL hH

/-- the blocks `jac` computes, before they are put together -/
theorem jac_pre : ∃ ls rs E, x.getEnvs = .ok (ls, rs) ∧
    ∃ (pr vL l r : ℕ → ND ℂ) (p q k : ℕ → ℕ) (lam rho : ℕ → ℕ → ℝ),
    (∀ i < L, FMPS.leftNull chol inv null O x ls i = .ok (pr i, vL i)) ∧
    x.tangentSpaceDims chol inv null O ls = .ok ((List.range L).map vL, (List.range L).map fun i => (k i, q i)) ∧
    ∃ c : F2Ctx L 2 x ls rs E (pairing (List.replicate L 2) (psi x.data) (psi x.data)).re vL l r p q k lam rho,
    ∃ y, FMPS.dAdt chol inv null O x H = .ok y ∧ y.Holds (List.replicate L 2) ∧ (∀ i (hi : i < y.data.length), c.Tan i y.data[i]) ∧
    JacBlocks c O H y (FMPS.jacParts chol inv null O x H) := by
  obtain ⟨ls, rs, E, e, eE, pr, vL, l, r, p, q, k, lam, rho, hnl, epr, c⟩ := f2Ctx_gen chDiag_roots hchol hinv hnull O (by omega) hx hf
  have hl := c.len
  obtain ⟨y, ey, hy, hg⟩ := FMPS.dAdt_gauge hchol hinv hnull O (by omega) hx hf hL hH
  have hyl : y.data.length = L := by
    have := hy.chain.length_eq
    simp only [List.length_replicate] at this
    omega
  have hyT : ∀ i (hi : i < y.data.length), c.Tan i y.data[i] := fun i hi =>
    ⟨(hg i (by omega) hi _ _ (c.site i (by omega)).hA).1, fun hi' => (hg i (by omega) hi _ _ (c.site i (by omega)).hA).2⟩
  have hpr : ∀ i < L, FMPS.projector chol inv O (vL i) (l i) = .ok (pr i) := fun i hi => c.projector_null (by omega) (hnl i hi)
  refine ⟨ls, rs, E, e, pr, vL, l, r, p, q, k, lam, rho, hnl, c.spaceDims epr, c, y, ey, hy, hyT, ?_⟩
  have ey' : FMPS.dAdtWith inv O x ls rs ((List.range L).map pr) H = .ok y := by
    unfold FMPS.dAdt at ey
    rw [e, ok_bind] at ey
    simp only at ey
    rw [epr, ok_bind, List.map_map] at ey
    exact ey
  have := c.jacBlocks hchol hinv O hL hH eE hpr ey' hyl hyT
  unfold FMPS.jacParts
  rw [e, ok_bind]
  simp only
  rw [epr, ok_bind]
  simp only [List.map_map]
  rwa [show (Prod.snd ∘ fun n => (pr n, vL n)) = vL from rfl]

variable {m : ℕ} (hm : EmptyPrefix 2 x.data m)
include hm

theorem jac_facts : ∃ M ls rs E, L = m + M ∧ 0 < M ∧ x.getEnvs = .ok (ls, rs) ∧
    ∃ (pr vL l r : ℕ → ND ℂ) (p q k : ℕ → ℕ) (lam rho : ℕ → ℕ → ℝ),
    (∀ i < L, FMPS.leftNull chol inv null O x ls i = .ok (pr i, vL i)) ∧
    x.tangentSpaceDims chol inv null O ls = .ok ((List.range L).map vL, (List.range L).map fun i => (k i, q i)) ∧
    (∀ i < L, k i = 0 ↔ i < m) ∧ tangentDim 2 x.data = jacOff (fun t => k (m + t) * q (m + t)) M ∧
    ∃ c : F2Ctx L 2 x ls rs E (pairing (List.replicate L 2) (psi x.data) (psi x.data)).re vL l r p q k lam rho,
    ∃ y, FMPS.dAdt chol inv null O x H = .ok y ∧ y.Holds (List.replicate L 2) ∧ (∀ i (hi : i < y.data.length), c.Tan i y.data[i]) ∧
    ∃ (F1 F2 G : ℕ → ℕ → ND ℂ) (J1 J2 J3 : ND ℂ), (∀ i < L, ∀ j < L, FMPS.f1With O x ls rs ((List.range L).map vL) E H i j = .ok (F1 i j) ∧ FMPS.f2With O x ls ((List.range L).map vL) E H i j = .ok (F2 i j) ∧
        (∀ Bi Bj : ND ℂ, c.Tan i Bi → c.Tan j Bj → ∑ a ∈ range (k i), ∑ b ∈ range (q i), ∑ a' ∈ range (k j), ∑ e ∈ range (q j),
          star (siteCoord 2 (p i) (vL i) (lam i) (rho i) Bi a b) * star (siteCoord 2 (p j) (vL j) (lam j) (rho j) Bj a' e) * (F2 i j).val [a, b, a', e] =
            if i = j then 0 else (if i = 0 ∨ j = 0 then ((Real.sqrt (pairing (List.replicate L 2) (psi x.data) (psi x.data)).re : ℝ) : ℂ) else 1) *
              pairing (List.replicate L 2) (psi ((x.data.set i Bi).set j Bj)) (hamAct 2 H (psi x.data))) ∧
        ∀ Bi Bj : ND ℂ, c.Tan i Bi → c.Tan j Bj → ∑ a ∈ range (k i), ∑ b ∈ range (q i), ∑ a' ∈ range (k j), ∑ e ∈ range (q j),
          star (siteCoord 2 (p i) (vL i) (lam i) (rho i) Bi a b) * star (siteCoord 2 (p j) (vL j) (lam j) (rho j) Bj a' e) * (G i j).val [a, b, a', e] =
            if i = j then 0 else -pairing (List.replicate L 2) (psi ((x.data.set i Bi).set j Bj)) (psi (x.data.set (min i j) (y.data.getD (min i j) (zerosND []))))) ∧
      FMPS.jacParts chol inv null O x H = .ok (J1, J2, J3) ∧
      J1.shape = [tangentDim 2 x.data, tangentDim 2 x.data] ∧ J2.shape = [tangentDim 2 x.data, tangentDim 2 x.data] ∧
      J3.shape = [tangentDim 2 x.data, tangentDim 2 x.data] ∧
      ∀ i < M, ∀ j < M, ∀ a < k (m + i) * q (m + i), ∀ b < k (m + j) * q (m + j),
        J1.val [jacOff (fun t => k (m + t) * q (m + t)) i + a, jacOff (fun t => k (m + t) * q (m + t)) j + b] =
          blkVal ((F1 (m + i) (m + j)).smul (-Complex.I)) (q (m + i)) (q (m + j)) a b ∧
        J2.val [jacOff (fun t => k (m + t) * q (m + t)) i + a, jacOff (fun t => k (m + t) * q (m + t)) j + b] =
          blkVal ((F2 (m + i) (m + j)).smul (-Complex.I)) (q (m + i)) (q (m + j)) a b ∧
        J3.val [jacOff (fun t => k (m + t) * q (m + t)) i + a, jacOff (fun t => k (m + t) * q (m + t)) j + b] =
          blkVal (G (m + i) (m + j)) (q (m + i)) (q (m + j)) a b := by
  obtain ⟨ls, rs, E, e, pr, vL, l, r, p, q, k, lam, rho, hnl, hD, c, y, ey, hy, hyT, hB⟩ := jac_pre hchol hinv hnull O hx hf hL hH
  obtain ⟨M, h1, h2, h3, h4, h5⟩ := c.jacForm hm hB
  exact ⟨M, ls, rs, E, h1, h2, e, pr, vL, l, r, p, q, k, lam, rho, hnl, hD, h3, h4, c, y, ey, hy, hyT, h5⟩

end

end Xmps
