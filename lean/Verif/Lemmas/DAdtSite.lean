import Verif.Lemmas.DAdtTerm

/-!
# `B(i)` of `dA_dt`
-/

namespace Xmps

open Finset Spec Xmps.Ncon

theorem replicate_cut {L d i : ℕ} (hi : i < L) : List.replicate L d = (List.replicate L d).take i ++ d :: (List.replicate L d).drop (i + 1) := by
  conv_lhs => rw [← List.take_append_drop i (List.replicate L d)]
  congr 1
  rw [List.drop_eq_getElem_cons (by simpa using hi)]
  simp

theorem list_cut {K : Type} {As : List K} {i : ℕ} (hi : i < As.length) : As = As.take i ++ As[i] :: As.drop (i + 1) := by
  conv_lhs => rw [← List.take_append_drop i As]
  congr 1
  rw [List.drop_eq_getElem_cons hi]

/-- a site of a chain -/
theorem chain_site {L d i : ℕ} {As : List (ND ℂ)} (h : MpsChain (List.replicate L d) As 1 1) (hi : i < As.length) :
    ∃ p q, MpsChain ((List.replicate L d).take i) (As.take i) 1 p ∧ As[i].shape = [d, p, q] ∧
      MpsChain ((List.replicate L d).take (i + 1)) (As.take (i + 1)) 1 q ∧
      MpsChain ((List.replicate L d).drop (i + 1)) (As.drop (i + 1)) q 1 := by
  have hlen := h.length_eq
  rw [List.length_replicate] at hlen
  have hi' : i < L := by omega
  rw [replicate_cut hi'] at h
  have e := list_cut hi
  have h2 := h
  rw [e] at h2
  obtain ⟨p, h1, q, h3, h4⟩ := (mpsChain_append (by simp; omega)).1 h2
  refine ⟨p, q, h1, h3, ?_, h4⟩
  have e1 : (List.replicate L d).take (i + 1) = (List.replicate L d).take i ++ [d] := by
    rw [List.take_succ_eq_append_getElem (by simpa using hi')]
    simp
  have e2 : As.take (i + 1) = As.take i ++ [As[i]] := List.take_succ_eq_append_getElem hi
  rw [e1, e2]
  exact (mpsChain_append (by simp; omega)).2 ⟨p, h1, q, h3, rfl⟩

/-- what `get_envs` returned at the cut `k` -/
structure EnvCut (ds : List ℕ) (As ls rs : List (ND ℂ)) (k : ℕ) (p : ℕ) (l r : ND ℂ) (lam rho : ℕ → ℝ) : Prop where
  el : FMPS.envAt ls ((k : ℤ) - 1) = .ok l
  er : FMPS.envAt rs ((k : ℤ) - 1) = .ok r
  hl : l.shape = [p, p]
  hr : r.shape = [p, p]
  left : ∀ a < p, ∀ b < p, leftEnv (ds.take k) (As.take k) a b = if a = b then (lam a : ℂ) else 0
  right : ∀ a < p, ∀ b < p, rightEnv (ds.drop k) (As.drop k) a b = if a = b then (rho a : ℂ) else 0
  hlv : ∀ a < p, ∀ b < p, l.val [a, b] = leftEnv (ds.take k) (As.take k) a b
  hrv : ∀ a < p, ∀ b < p, r.val [a, b] = rightEnv (ds.drop k) (As.drop k) a b
  pos : ∀ a < p, 0 < lam a
  pos' : ∀ a < p, 0 < rho a

theorem EnvCut.sym {ds : List ℕ} {As ls rs : List (ND ℂ)} {k p : ℕ} {l r : ND ℂ} {lam rho : ℕ → ℝ} (h : EnvCut ds As ls rs k p l r lam rho) :
    ∀ a < p, ∀ b < p, leftEnv (ds.take k) (As.take k) a b = leftEnv (ds.take k) (As.take k) b a := by
  intro a ha b hb
  rw [h.left a ha b hb, h.left b hb a ha]
  by_cases e : a = b
  · rw [e]
  · rw [if_neg e, if_neg (Ne.symm e)]

theorem Spec.FullEnvs.diag {ds : List ℕ} {As : List (ND ℂ)} (h : FullEnvs ds As) : DiagEnvs ds As := by
  intro k hk p hp
  obtain ⟨lam, rho, -, hv⟩ := h k hk p hp
  refine ⟨fun a ha b hb => ⟨fun e => ?_, ?_⟩, fun a ha b hb => ⟨fun e => ?_, ?_⟩⟩
  · rw [(hv a ha b hb).1, if_neg e]
  · rw [(hv a ha a ha).1, if_pos rfl, Complex.ofReal_im]
  · rw [(hv a ha b hb).2, if_neg e]
  · rw [(hv a ha a ha).2, if_pos rfl, Complex.ofReal_im]

/-- the bonds of a chain with positive environments are not empty -/
theorem Spec.FullEnvs.bond_pos {ds : List ℕ} {As : List (ND ℂ)} (h : FullEnvs ds As) (hc : MpsChain ds As 1 1) {k p : ℕ}
    (hp : MpsChain (ds.take k) (As.take k) 1 p) : 0 < p := by
  obtain ⟨lam, rho, hpos, hv⟩ := h ds.length le_rfl 1 (by
    rw [List.take_length, ← hc.length_eq, List.take_length]
    exact hc)
  have h0 := (hv 0 (by omega) 0 (by omega)).1
  rw [List.take_length, ← hc.length_eq, List.take_length] at h0
  by_contra hne
  obtain rfl : p = 0 := by omega
  obtain ⟨m, c1, c2⟩ := chain_cut hc k
  obtain rfl := chain_bond_unique hp c1
  have : leftEnv ds As 0 0 = 0 := by
    unfold leftEnv
    conv_lhs => rw [← List.take_append_drop k ds, ← List.take_append_drop k As]
    rw [sumIdx_append, sumIdx_congr (g := fun _ => 0), sumIdx_zero]
    intro s hs
    rw [sumIdx_congr (g := fun _ => 0), sumIdx_zero]
    intro s' _
    rw [amp_append c1 hs.length_eq 0 0 (by omega)]
    simp
  rw [this, if_pos rfl] at h0
  have := (hpos 0 (by omega)).1
  have h0' : lam 0 = 0 := by exact_mod_cast h0.symm
  linarith

theorem getEnvs_full {x : FMPS ℂ} {ds : List ℕ} (hx : x.Holds ds) (hf : FullEnvs ds x.data) :
    ∃ ls rs, x.getEnvs = .ok (ls, rs) ∧ ∀ k ≤ ds.length, ∀ p, MpsChain (ds.take k) (x.data.take k) 1 p →
      ∃ l r lam rho, EnvCut ds x.data ls rs k p l r lam rho := by
  obtain ⟨ls, rs, e, henv⟩ := FMPS.getEnvs_diag_partial hx hf.diag
  refine ⟨ls, rs, e, ?_⟩
  intro k hk p hp
  obtain ⟨l, r, p', el, er, hp', hl, hr, hlv, hrv⟩ := henv k hk
  obtain rfl := chain_bond_unique hp hp'
  obtain ⟨lam, rho, hpos, hv⟩ := hf k hk p hp
  exact ⟨l, r, lam, rho, el, er, hl, hr, fun a ha b hb => (hv a ha b hb).1, fun a ha b hb => (hv a ha b hb).2, hlv, hrv,
    fun a ha => (hpos a ha).1, fun a ha => (hpos a ha).2⟩

/-- every term of `B(i)` -/
theorem term_any {inv : ND ℂ → Py (ND ℂ)} (hinv : InvLaw inv) (O : SetOrder) {x : FMPS ℂ} {L d i m p q : ℕ} (hx : x.Holds (List.replicate L d))
    {ls rs Rs : List (ND ℂ)} {pr h h4 : ND ℂ}
    (henv : ∀ k ≤ L, ∀ p, MpsChain ((List.replicate L d).take k) (x.data.take k) 1 p → ∃ l r lam rho, EnvCut (List.replicate L d) x.data ls rs k p l r lam rho)
    (hi : i < x.data.length) (hp : MpsChain ((List.replicate L d).take i) (x.data.take i) 1 p) (hA : x.data[i].shape = [d, p, q])
    {R : ND ℂ} (hR : nc O [pr, x.data[i]] [[-3, -4, 1, -2], [1, -1, -5]] = .ok R) (hRs : x.leftTransfer R 0 i = .ok Rs)
    (hpr : pr.shape = [d, p, d, p]) {rho : ℕ → ℝ} (hrho : ∀ a < q, 0 < rho a)
    (hrv : ∀ a < q, ∀ b < q, rightEnv ((List.replicate L d).drop (i + 1)) (x.data.drop (i + 1)) a b = if a = b then (rho a : ℂ) else 0)
    (h4v : Four d h h4) (hm : m ≤ i) (hmL : m + 1 < L) :
    ∃ T e, FMPS.dAdtTerm inv O x ls rs pr Rs i m h4 = .ok (T, e) ∧ T.shape = [d, p, q] ∧ ∀ s < d, ∀ a < p, ∀ c < q,
      T.val [s, a, c] = -Complex.I * ∑ t ∈ range d, ∑ b ∈ range p, pr.val [s, a, t, b] *
        (envAmp ((List.replicate L d).take i) (x.data.take i) ((List.replicate L d).drop (i + 1)) (x.data.drop (i + 1))
          (gateAct d h m (m + 1) (psi x.data)) t b c * (rho c : ℂ)⁻¹) := by
  have hlen := hx.chain.length_eq
  rw [List.length_replicate] at hlen
  have hm1 : m < x.data.length := by omega
  have hm2 : m + 1 < x.data.length := by omega
  obtain ⟨pm, qm, c1, sA, c2, c3⟩ := chain_site hx.chain hm1
  obtain ⟨qm', nm, c2', sB, c4, c5⟩ := chain_site hx.chain hm2
  obtain rfl := chain_bond_unique c2 c2'
  obtain ⟨l, _, lam, _, E1⟩ := henv m (by omega) pm c1
  obtain ⟨_, rm, _, rhom, E2⟩ := henv (m + 1) (by omega) qm c2
  obtain ⟨_, r, _, rho2, E3⟩ := henv (m + 1 + 1) (by omega) nm c4
  have eA : pyGet x.data m = .ok x.data[m] := pyGet_ok hm1
  have eB : pyGet x.data (m + 1) = .ok x.data[m + 1] := pyGet_ok hm2
  have er : FMPS.envAt rs ((m : ℤ) + 1) = .ok r := by
    rw [show (m : ℤ) + 1 = ((m + 1 + 1 : ℕ) : ℤ) - 1 by push_cast; ring]
    exact E3.er
  have dcut : (List.replicate L d).drop (m + 1) = d :: (List.replicate L d).drop (m + 1 + 1) := by
    rw [List.drop_eq_getElem_cons (by simpa using hmL)]
    simp
  have acut : x.data.drop (m + 1) = x.data[m + 1] :: x.data.drop (m + 1 + 1) := List.drop_eq_getElem_cons hm2
  have hpsi : x.data = x.data.take m ++ x.data[m] :: x.data[m + 1] :: x.data.drop (m + 1 + 1) := by
    rw [← acut]
    exact list_cut hm1
  have hlm : ((List.replicate L d).take m).length = m := by simp; omega
  have hne : ∀ a < q, (rho a : ℂ) ≠ 0 := fun a ha => Complex.ofReal_ne_zero.2 (hrho a ha).ne'
  rcases Nat.lt_or_ge m i with hlt | hge
  · rcases Nat.lt_or_ge (m + 1) i with hlt2 | hge2
    · -- far to the left
      set M := (x.data.take i).drop (m + 1 + 1) with hM
      set dM := ((List.replicate L d).take i).drop (m + 1 + 1) with hdM
      have t1 : (List.replicate L d).take i = (List.replicate L d).take m ++ d :: d :: dM := by
        have hmi : m + 1 < ((List.replicate L d).take i).length := by simp; omega
        conv_lhs => rw [list_cut (As := (List.replicate L d).take i) (i := m) (by simp; omega)]
        rw [List.drop_eq_getElem_cons hmi, List.take_take, min_eq_left (by omega)]
        simp [hdM]
      have t2 : x.data.take i = x.data.take m ++ x.data[m] :: x.data[m + 1] :: M := by
        have hmi : m + 1 < (x.data.take i).length := by simp; omega
        conv_lhs => rw [list_cut (As := x.data.take i) (i := m) (by simp; omega)]
        rw [List.drop_eq_getElem_cons hmi, List.take_take, min_eq_left (by omega)]
        simp [hM]
      have hp' := hp
      rw [t1, t2] at hp'
      obtain ⟨p1, g1, q1, g2, n1, g3, g4⟩ := (mpsChain_append (by simp; omega)).1 hp'
      obtain rfl := chain_bond_unique c1 g1
      rw [sA] at g2
      obtain rfl : qm = q1 := by simpa using g2
      rw [sB] at g3
      obtain rfl : nm = n1 := by simpa using g3
      obtain ⟨p2, q2, k1, k2, k3, k4⟩ := chain_site hx.chain hi
      obtain rfl := chain_bond_unique hp k1
      rw [hA] at k2
      obtain rfl : q = q2 := by simpa using k2
      obtain ⟨R', f1, f2, f3⟩ := nc_eval O (AA := [pr, x.data[i]]) (v := [[-3, -4, 1, -2], [1, -1, -5]])
        (dimOf [(1, d), (-1, p), (-2, p), (-3, d), (-4, p), (-5, q)]) [1] [-1, -2, -3, -4, -5]
        ⟨by simp, by simp [hpr, hA, dimOf, List.lookup], by simp, by simp, by decide, by decide, by decide, by decide, by decide⟩
        (by decide) (by decide)
      rw [hR] at f1
      injection f1 with f1
      subst f1
      have hRsh : R.shape = p :: p :: [d, p, q] := by rw [f2]; simp [dimOf, List.lookup]
      obtain ⟨Ls, w1, w2⟩ := FMPS.leftTransfer_spec hx (j := 0) (i := i) (by omega) (by simp; omega) hp hRsh
      rw [hRs] at w1
      injection w1 with w1
      subst w1
      obtain ⟨R2, n2, v1, v2, v3, v4⟩ := w2 (m + 1 + 1) (by omega) (by omega)
      obtain rfl := chain_bond_unique c4 v2
      have hpsi2 : x.data = x.data.take m ++ x.data[m] :: x.data[m + 1] :: (M ++ x.data[i] :: x.data.drop (i + 1)) := by
        conv_lhs => rw [list_cut hi, t2]
        simp
      have := term_left (inv := inv) (ls := ls) (rs := rs) (Rs := Rs) (pr := pr) (i := i) (m := m) (x := x) (l := l) (r := r) (ds0 := (List.replicate L d).take m) (As0 := x.data.take m)
        (ds3 := (List.replicate L d).drop (i + 1)) (As3 := x.data.drop (i + 1)) (A := x.data[m]) (B := x.data[m + 1]) (E := x.data[i])
        (dM := dM) (M := M) (R := R2) (r' := p) (n' := q) (p := pm) (q := qm) (n := nm) (rho := fun a => (rho a : ℂ)) O h4v c1 sA sB g4 hA k4 hlm hlt2
        eA eB E1.el er E1.hl E3.hr E1.hlv E1.sym hrv hne (by rw [← v1]; congr 1) v3 (by
          intro k' hk' k hk s hs a ha c hc
          rw [v4 k' hk' k hk [s, a, c] ⟨hs, ha, hc, trivial⟩]
          unfold pullBack
          refine sumIdx_congr fun v _ => Finset.sum_congr rfl fun y' _ => Finset.sum_congr rfl fun y hy => ?_
          congr 2
          show R.val [y', y, s, a, c] = ∑ t ∈ range d, pr.val [s, a, t, y] * x.data[i].val [t, y', c]
          rw [f3 _ rfl]
          simp [labelSum, netTerm, assign, dimOf, List.lookup, Function.update])
      rw [← t1, ← t2, ← hpsi2] at this
      exact this
    · -- the site before
      obtain rfl : i = m + 1 := by omega
      obtain rfl := chain_bond_unique c2 hp
      rw [sB] at hA
      obtain rfl : nm = q := by simpa using hA
      have t1 : (List.replicate L d).take (m + 1) = (List.replicate L d).take m ++ [d] := by
        rw [List.take_succ_eq_append_getElem (by simp; omega)]
        simp
      have t2 : x.data.take (m + 1) = x.data.take m ++ [x.data[m]] := List.take_succ_eq_append_getElem hm1
      obtain ⟨T, e, w1, w2, w3⟩ := term_here (inv := inv) (ls := ls) (rs := rs) (Rs := Rs) (pr := pr) (x := x) (l := l) (r := r)
        (rho := fun a => (rho a : ℂ)) O h4v c1 sA sB c5 hlm eA eB E1.el er E1.hl E3.hr E1.hlv E1.sym hrv hne hpr
      rw [← t1, ← t2, ← hpsi] at w3
      exact ⟨T, e, w1, w2, fun s _ a ha c hc => w3 s a ha c hc⟩
  · obtain rfl : i = m := by omega
    obtain rfl := chain_bond_unique c1 hp
    rw [sA] at hA
    obtain rfl : qm = q := by simpa using hA
    have em : FMPS.envAt rs (i : ℤ) = .ok rm := by
      rw [show (i : ℤ) = ((i + 1 : ℕ) : ℤ) - 1 by push_cast; ring]
      exact E2.er
    obtain ⟨T, e, w1, w2, w3⟩ := term_right (ls := ls) (rs := rs) (Rs := Rs) (pr := pr) (x := x) (l := l) (r := r) (rm := rm)
      (rho := fun a => (rho a : ℂ)) hinv O h4v c1 sA sB c5 hlm eA eB E1.el er em E1.hl E3.hr E2.hr E1.hlv E3.hrv
      (by intro a ha b hb; rw [E2.hrv a ha b hb, hrv a ha b hb]) hne hpr
    rw [← hpsi] at w3
    rw [dcut, acut]
    exact ⟨T, e, w1, w2, fun s _ a ha c hc => w3 s a ha c hc⟩

end Xmps
