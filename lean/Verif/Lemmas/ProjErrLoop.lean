import Verif.Lemmas.ProjErr
import Verif.Spec.ProjError

/-!
# The loop of `projection_error`
-/

namespace Xmps

open Finset Spec Xmps.Ncon

/-- the shapes around a bond -/
theorem bond_shapes {L d m : ℕ} {As : List (ND ℂ)} (hc : MpsChain (List.replicate L d) As 1 1) (h0 : m < As.length) (h1 : m + 1 < As.length) :
    As[m].shape = [d, bondL As m, bondR As m] ∧ As[m + 1].shape = [d, bondR As m, bondR As (m + 1)] ∧
      MpsChain ((List.replicate L d).take m) (As.take m) 1 (bondL As m) ∧
      MpsChain ((List.replicate L d).take (m + 1)) (As.take (m + 1)) 1 (bondR As m) ∧
      MpsChain ((List.replicate L d).take (m + 2)) (As.take (m + 2)) 1 (bondR As (m + 1)) ∧
      MpsChain ((List.replicate L d).drop (m + 1)) (As.drop (m + 1)) (bondR As m) 1 ∧
      MpsChain ((List.replicate L d).drop (m + 2)) (As.drop (m + 2)) (bondR As (m + 1)) 1 := by
  obtain ⟨p, q, c1, sA, c2, c3⟩ := chain_site hc h0
  obtain ⟨q', n, c2', sB, c4, c5⟩ := chain_site hc h1
  obtain rfl := chain_bond_unique c2 c2'
  have e1 : bondL As m = p := by
    unfold bondL
    rw [List.getD_eq_getElem _ _ h0]
    simp [ND.dim, sA]
  have e2 : bondR As m = q := by
    unfold bondR
    rw [List.getD_eq_getElem _ _ h0]
    simp [ND.dim, sA]
  have e3 : bondR As (m + 1) = n := by
    unfold bondR
    rw [List.getD_eq_getElem _ _ h1]
    simp [ND.dim, sB]
  rw [e1, e2, e3]
  exact ⟨sA, sB, c1, c2, c4, c3, c5⟩

/-- a singular value from the matrix -/
theorem svd_value {U V : ND ℂ} {s : List ℝ} {kL kR M j : ℕ} (hj : j < M)
    (hU : ∀ k < M, ∀ k' < M, ∑ i ∈ range kL, star (U.val [i, k]) * U.val [i, k'] = if k = k' then 1 else 0)
    (hV : ∀ k < M, ∀ k' < M, ∑ i ∈ range kR, V.val [k, i] * star (V.val [k', i]) = if k = k' then 1 else 0) :
    ∑ k1 ∈ range kL, ∑ k2 ∈ range kR, star (U.val [k1, j]) * (∑ k ∈ range M, U.val [k1, k] * (s.getD k 0 : ℝ) * V.val [k, k2]) * star (V.val [j, k2]) =
      ((s.getD j 0 : ℝ) : ℂ) := by
  calc _ = ∑ k ∈ range M, (∑ k1 ∈ range kL, star (U.val [k1, j]) * U.val [k1, k]) * ((s.getD k 0 : ℝ) : ℂ) * ∑ k2 ∈ range kR, V.val [k, k2] * star (V.val [j, k2]) := by
        simp only [Finset.mul_sum, Finset.sum_mul]
        rw [sum_swap2]
        refine Finset.sum_congr rfl fun k _ => ?_
        rw [Finset.sum_comm]
        exact Finset.sum_congr rfl fun k2 _ => Finset.sum_congr rfl fun k1 _ => by ring
    _ = _ := by
        rw [Finset.sum_eq_single j]
        · rw [hU j hj j hj, hV j hj j hj, if_pos rfl, one_mul, mul_one]
        · intro k hk hne
          rw [hU j hj k (Finset.mem_range.1 hk), if_neg (Ne.symm hne), zero_mul, zero_mul]
        · intro hn
          exact absurd (Finset.mem_range.2 hj) hn

/-- a left canonical chain with positive environments, what `get_envs` returned for it and the terms of the Hamiltonian -/
structure ProjSetup (x : FMPS ℂ) (L d : ℕ) (H ls rs : List (ND ℂ)) : Prop where
  hx : x.Holds (List.replicate L d)
  hd : 1 < d
  hD : 0 < x.D
  hf : FullEnvs (List.replicate L d) x.data
  hiso : ∀ A ∈ x.data, LeftIso A
  hHL : H.length + 1 = L
  hH : ∀ h ∈ H, h.shape = [d * d, d * d]
  env : ∀ k ≤ L, ∀ p, MpsChain ((List.replicate L d).take k) (x.data.take k) 1 p → ∃ l r lam rho, EnvCut (List.replicate L d) x.data ls rs k p l r lam rho

section
variable {x : FMPS ℂ} {L d : ℕ} {H ls rs : List (ND ℂ)} (S : ProjSetup x L d H ls rs)
include S

theorem ProjSetup.len : x.data.length = L := S.hx.rep_L.1
theorem ProjSetup.dd : x.d = d := S.hx.rep_L.2.2 (by have := S.hHL; omega)

theorem ProjSetup.left {k p : ℕ} (hp : MpsChain ((List.replicate L d).take k) (x.data.take k) 1 p) :
    ∀ a < p, ∀ b < p, leftEnv ((List.replicate L d).take k) (x.data.take k) a b = if a = b then 1 else 0 :=
  fun a ha b hb => leftEnv_iso hp (fun A hA => S.hiso A (List.mem_of_mem_take hA)) a ha b hb

theorem ProjSetup.iso {m : ℕ} (h0 : m < x.data.length) (h1 : m + 1 < x.data.length) : ∀ c < bondR x.data m, ∀ c' < bondR x.data m,
    ∑ s ∈ range d, ∑ a ∈ range (bondL x.data m), star (x.data[m].val [s, a, c]) * x.data[m].val [s, a, c'] = if c = c' then 1 else 0 := by
  obtain ⟨sA, -⟩ := bond_shapes S.hx.chain h0 h1
  have := S.hiso x.data[m] (List.getElem_mem h0)
  simpa [LeftIso, ND.dim, sA] using this

/-- the right environments around a bond -/
theorem ProjSetup.right {m : ℕ} (h0 : m < x.data.length) (h1 : m + 1 < x.data.length) : ∃ (r : ND ℂ) (rho mu : ℕ → ℝ), FMPS.envAt rs ((m : ℤ) + 1) = .ok r ∧
    r.shape = [bondR x.data (m + 1), bondR x.data (m + 1)] ∧
    (∀ a < bondR x.data (m + 1), ∀ b < bondR x.data (m + 1), r.val [a, b] = if a = b then (rho a : ℂ) else 0) ∧
    (∀ a < bondR x.data (m + 1), ∀ b < bondR x.data (m + 1),
      rightEnv ((List.replicate L d).drop (m + 2)) (x.data.drop (m + 2)) a b = if a = b then (rho a : ℂ) else 0) ∧
    (∀ a < bondR x.data (m + 1), 0 < rho a) ∧ (∀ a < bondR x.data m, 0 < mu a) ∧
    ∀ c < bondR x.data m, ∀ c' < bondR x.data m, ∑ s ∈ range d, ∑ a ∈ range (bondR x.data (m + 1)),
      x.data[m + 1].val [s, c, a] * (rho a : ℂ) * star (x.data[m + 1].val [s, c', a]) = if c = c' then ((mu c : ℝ) : ℂ) else 0 := by
  obtain ⟨sA, sB, c1, c2, c4, c3, c5⟩ := bond_shapes S.hx.chain h0 h1
  have hlen := S.len
  obtain ⟨l, r, lam, rho, E⟩ := S.env (m + 2) (by omega) _ c4
  obtain ⟨l', r', lam', mu, E'⟩ := S.env (m + 1) (by omega) _ c2
  refine ⟨r, rho, mu, ?_, E.hr, ?_, E.right, E.pos', E'.pos', ?_⟩
  · have := E.er
    rwa [show (((m + 2 : ℕ) : ℤ) - 1) = (m : ℤ) + 1 by push_cast; ring] at this
  · intro a ha b hb
    rw [E.hrv a ha b hb, E.right a ha b hb]
  · intro c hc c' hc'
    rw [← E'.right c hc c' hc']
    have t3 : (List.replicate L d).drop (m + 1) = d :: (List.replicate L d).drop (m + 2) := by
      rw [List.drop_eq_getElem_cons (by simp; omega)]
      simp
    have t4 : x.data.drop (m + 1) = x.data[m + 1] :: x.data.drop (m + 2) := List.drop_eq_getElem_cons h1
    rw [t3, t4, rightEnv_cons sB]
    refine Finset.sum_congr rfl fun s _ => Finset.sum_congr rfl fun a ha => ?_
    rw [Finset.sum_eq_single a]
    · rw [E.right a (Finset.mem_range.1 ha) a (Finset.mem_range.1 ha), if_pos rfl]
    · intro b hb hne
      rw [E.right a (Finset.mem_range.1 ha) b (Finset.mem_range.1 hb), if_neg (Ne.symm hne)]
      ring
    · intro hn
      exact absurd ha hn

variable {chol inv null : ND ℂ → Py (ND ℂ)} {svd : ND ℂ → Py (ND ℂ × List ℝ × ND ℂ)}

/-- the null vectors of both sides of a bond -/
theorem ProjSetup.nulls (hchol : CholTriLaw chol) (hinv : InvLaw inv) (hnull : NullLaw null) (O : SetOrder) {m : ℕ} (h0 : m < x.data.length) (h1 : m + 1 < x.data.length)
    {l : ND ℂ} {lf : ℤ → Py (ND ℂ)} (elf : lf ((m : ℤ) - 1) = .ok l) (hl : l.shape = [bondL x.data m, bondL x.data m])
    (hlv : ∀ a < bondL x.data m, ∀ b < bondL x.data m, l.val [a, b] = if a = b then 1 else 0)
    {r : ND ℂ} {rho mu : ℕ → ℝ} (er : FMPS.envAt rs ((m : ℤ) + 1) = .ok r) (hr : r.shape = [bondR x.data (m + 1), bondR x.data (m + 1)])
    (hrv : ∀ a < bondR x.data (m + 1), ∀ b < bondR x.data (m + 1), r.val [a, b] = if a = b then (rho a : ℂ) else 0)
    (hpos : ∀ a < bondR x.data (m + 1), 0 < rho a) (hmu : ∀ a < bondR x.data m, 0 < mu a)
    (next : ∀ c < bondR x.data m, ∀ c' < bondR x.data m, ∑ s ∈ range d, ∑ a ∈ range (bondR x.data (m + 1)),
      x.data[m + 1].val [s, c, a] * (rho a : ℂ) * star (x.data[m + 1].val [s, c', a]) = if c = c' then ((mu c : ℝ) : ℂ) else 0) :
    ∃ prL vL prR vR kL kR, FMPS.leftNullF chol inv null O x lf m = .ok (prL, vL) ∧ FMPS.rightNull chol inv null O x rs (m + 1) = .ok (prR, vR) ∧
      NullBasis d (bondL x.data m) (bondR x.data m) kL x.data[m] (fun _ => 1) vL ∧
      RNullBasis d (bondR x.data m) (bondR x.data (m + 1)) kR x.data[m + 1] rho vR ∧
      kL + bondR x.data m = d * bondL x.data m ∧ (kR = 0 ↔ bondR x.data m = d * bondR x.data (m + 1)) := by
  obtain ⟨sA, sB, c1, c2, c4, c3, c5⟩ := bond_shapes S.hx.chain h0 h1
  have hd : 0 < d := by have := S.hd; omega
  have p0 := S.hf.bond_pos S.hx.chain c1
  have q0 := S.hf.bond_pos S.hx.chain c2
  have n0 := S.hf.bond_pos S.hx.chain c4
  have hlv' : ∀ i < bondL x.data m, ∀ j < bondL x.data m, l.val [i, j] = if i = j then (((fun _ => 1 : ℕ → ℝ) i : ℝ) : ℂ) else 0 := by
    intro i hi j hj
    rw [hlv i hi j hj]
    simp
  obtain ⟨vL, kL, e1, bL⟩ := nullVecs_ok hchol hnull hd p0 q0 sA hl hlv' (fun _ _ => one_pos)
  obtain ⟨prL, e2, -⟩ := projector_ok hchol hinv O hl hlv' (fun _ _ => one_pos) bL
  obtain ⟨prR, vR, kR, e3, bR⟩ := rightNull_ok hchol hinv hnull O S.dd h1 rfl hd q0 n0 sB (i := m + 1) (by exact_mod_cast er) hr hrv hpos
  refine ⟨prL, vL, prR, vR, kL, kR, ?_, e3, bL, bR, ?_, (bR.count hchol hnull hd q0 n0 next hpos hmu).2⟩
  · unfold FMPS.leftNullF
    rw [pyGet_ok h0, ok_bind, elf, ok_bind, S.dd, e1, ok_bind, e2, ok_bind]
  · refine bL.count (mu := fun _ => 1) ?_ (fun _ _ => one_pos) (fun _ _ => one_pos)
    intro a ha b hb
    have := S.iso h0 h1 a ha b hb
    simpa using this

/-- the Hamiltonian gives a tangent vector exactly when every gate splits at its bond -/
theorem ProjSetup.tangent_iff (hchol : CholTriLaw chol) (hinv : InvLaw inv) (hnull : NullLaw null) (O : SetOrder) :
    HamTangent L d H x.data ↔ ∀ m (hm : m < H.length) (h0 : m < x.data.length) (h1 : m + 1 < x.data.length),
      TwoTangent d (bondL x.data m) (bondR x.data m) (bondR x.data (m + 1)) x.data[m] x.data[m + 1]
        (hAA d (bondR x.data m) H[m] x.data[m] x.data[m + 1]) := by
  have hlen := S.len
  have hHL := S.hHL
  constructor
  · rintro ⟨Bs, hB, hBs, hT⟩ m hm h0 h1
    obtain ⟨sA, sB, c1, c2, c4, c3, c5⟩ := bond_shapes S.hx.chain h0 h1
    obtain ⟨r, rho, mu, er, hr, hrv, hre, hpos, hmu, next⟩ := S.right h0 h1
    obtain ⟨l, _, lam, _, E⟩ := S.env m (by omega) _ c1
    obtain ⟨prL, vL, prR, vR, kL, kR, -, -, bL, bR, -, -⟩ := S.nulls hchol hinv hnull O h0 h1 E.el E.hl (by
      intro a ha b hb
      rw [E.hlv a ha b hb, S.left c1 a ha b hb]) er hr hrv hpos hmu next
    refine tangent_of_gSum bL (fun _ _ => rfl) bR (S.iso h0 h1) next hpos hmu ?_
    intro k1 hk1 k2 hk2
    exact tangent_gSum S.hx.chain (by omega) hB hBs hT hm h1 sA sB (S.left c1) hre (fun c hc => bL.null_one (fun _ _ => rfl) hc hk1)
      (fun c hc => bR.null_star hc hk2)
  · intro h
    refine ham_tangent S.hx.chain (by omega) ?_
    intro m hm h1
    obtain ⟨sA, sB, -⟩ := bond_shapes S.hx.chain (by omega) h1
    exact ⟨_, _, _, sA, sB, h m hm (by omega) h1⟩

/-- a bond that is full adds nothing -/
theorem ProjSetup.full_tangent (hchol : CholTriLaw chol) (hinv : InvLaw inv) (hnull : NullLaw null) (O : SetOrder) {m : ℕ}
    (h0 : m < x.data.length) (h1 : m + 1 < x.data.length) (hfull : BondFull d x.data m) (X : ℕ → ℕ → ℕ → ℕ → ℂ) :
    TwoTangent d (bondL x.data m) (bondR x.data m) (bondR x.data (m + 1)) x.data[m] x.data[m + 1] X := by
  have hlen := S.len
  obtain ⟨sA, sB, c1, c2, c4, c3, c5⟩ := bond_shapes S.hx.chain h0 h1
  obtain ⟨r, rho, mu, er, hr, hrv, hre, hpos, hmu, next⟩ := S.right h0 h1
  obtain ⟨l, _, lam, _, E⟩ := S.env m (by omega) _ c1
  obtain ⟨prL, vL, prR, vR, kL, kR, -, -, bL, bR, hkL, hkR⟩ := S.nulls hchol hinv hnull O h0 h1 E.el E.hl (by
    intro a ha b hb
    rw [E.hlv a ha b hb, S.left c1 a ha b hb]) er hr hrv hpos hmu next
  refine tangent_of_gSum bL (fun _ _ => rfl) bR (S.iso h0 h1) next hpos hmu ?_
  intro k1 hk1 k2 hk2
  rcases hfull with h | h
  · omega
  · have := hkR.2 h
    omega

/-- the body of the loop -/
theorem ProjSetup.body_ok (hchol : CholTriLaw chol) (hinv : InvLaw inv) (hnull : NullLaw null) (hsvd : SVDLaw svd) (O : SetOrder) {m : ℕ}
    (h0 : m < x.data.length) (h1 : m + 1 < x.data.length) (hm : m < H.length) (hns : ¬ BondFull d x.data m)
    {l : ND ℂ} {lf : ℤ → Py (ND ℂ)} (elf : lf ((m : ℤ) - 1) = .ok l) (hl : l.shape = [bondL x.data m, bondL x.data m])
    (hlv : ∀ a < bondL x.data m, ∀ b < bondL x.data m, l.val [a, b] = if a = b then 1 else 0) :
    ∃ (e : ℝ) (ln : ND ℂ), 0 ≤ e ∧ (∀ dt : ℝ, 0 ≤ dt →
        FMPS.projBody chol inv null svd O x rs (H.map fun h => h.reshapeR [d, d, d, d]) dt lf m = .ok (dt ^ 2 * e, ln)) ∧
      ln.shape = [bondR x.data m, bondR x.data m] ∧ (∀ a < bondR x.data m, ∀ b < bondR x.data m, ln.val [a, b] = if a = b then 1 else 0) ∧
      (e = 0 ↔ TwoTangent d (bondL x.data m) (bondR x.data m) (bondR x.data (m + 1)) x.data[m] x.data[m + 1]
        (hAA d (bondR x.data m) H[m] x.data[m] x.data[m + 1])) := by
  have hlen := S.len
  obtain ⟨sA, sB, c1, c2, c4, c3, c5⟩ := bond_shapes S.hx.chain h0 h1
  obtain ⟨r, rho, mu, er, hr, hrv, hre, hpos, hmu, next⟩ := S.right h0 h1
  obtain ⟨prL, vL, prR, vR, kL, kR, eL, eR, bL, bR, hkL, hkR⟩ := S.nulls hchol hinv hnull O h0 h1 elf hl hlv er hr hrv hpos hmu next
  have kL0 : 0 < kL := by
    rcases Nat.eq_zero_or_pos kL with h | h
    · exact absurd (Or.inl (by omega)) hns
    · exact h
  have kR0 : 0 < kR := by
    rcases Nat.eq_zero_or_pos kR with h | h
    · exact absurd (Or.inr (hkR.1 h)) hns
    · exact h
  have h4v : Four d H[m] (H[m].reshapeR [d, d, d, d]) := four_reshape (S.hH _ (List.getElem_mem hm))
  obtain ⟨G, eG, sG, vG⟩ := projG_ok O h4v sA sB hl hlv hr hrv bL.shape bR.shape
  obtain ⟨U, s, V, eS, sU, ls, sV, oU, oV, s0, sdec, hG⟩ := hsvd G kL kR sG kL0 kR0
  set N := stopAt (min kL kR) ((x.d * x.D : ℕ) - (x.D : ℤ)) with hN
  have hN1 : N ≤ min kL kR ∧ 0 < N := by
    have h2 : (x.D : ℤ) ≤ ((x.d * x.D : ℕ) : ℤ) - x.D := by
      rw [S.dd]
      have : 2 * x.D ≤ d * x.D := Nat.mul_le_mul_right _ S.hd
      push_cast at this ⊢
      nlinarith [this]
    have hD := S.hD
    have : N = min (min kL kR) (((x.d * x.D : ℕ) : ℤ) - x.D).toNat := by
      rw [hN, stopAt, if_pos (by omega)]
    rw [this]
    constructor
    · exact Nat.min_le_left _ _
    · have : 0 < (((x.d * x.D : ℕ) : ℤ) - x.D).toNat := by omega
      simp only [lt_min_iff]
      exact ⟨⟨kL0, kR0⟩, this⟩
  have etr : FMPS.trSvd svd G ((x.d * x.D : ℕ) - (x.D : ℤ)) = .ok (⟨[kL, N], U.val⟩, s.take N, ⟨[N, kR], V.val⟩) := by
    unfold FMPS.trSvd
    rw [eS, ok_bind]
    simp [ND.dim, sU, sV, ls, hN]
  have hs0 : ∀ j, 0 ≤ s.getD j 0 := by
    intro j
    by_cases hj : j < s.length
    · rw [List.getD_eq_getElem _ _ hj]
      exact s0 _ (List.getElem_mem hj)
    · rw [List.getD_eq_default _ _ (by omega)]
  have hst : ∀ j < N, (s.take N).getD j 0 = s.getD j 0 := by
    intro j hj
    rw [List.getD_eq_getElem _ _ (by rw [List.length_take]; omega), List.getD_eq_getElem _ _ (by omega), List.getElem_take]
  have hst0 : ∀ j, 0 ≤ (s.take N).getD j 0 := by
    intro j
    by_cases hj : j < N
    · rw [hst j hj]
      exact hs0 j
    · rw [List.getD_eq_default _ _ (by rw [List.length_take]; omega)]
  have oU' : ∀ i < N, ∀ j < N, ∑ k ∈ range kL, star (U.val [k, i]) * U.val [k, j] = if i = j then 1 else 0 := by
    intro i hi j hj
    have := oU i (by simp [ND.dim, sU]; omega) j (by simp [ND.dim, sU]; omega)
    simpa [ND.dim, sU] using this
  have oV' : ∀ i < N, ∑ k ∈ range kR, V.val [i, k] * star (V.val [i, k]) = 1 := by
    intro i hi
    have := oV i (by simp [ND.dim, sV]; omega) i (by simp [ND.dim, sV]; omega)
    simpa [ND.dim, sV] using this
  have hw : ∀ j < N, 0 < legWeight d (bondR x.data (m + 1)) kR rho vR ⟨[N, kR], V.val⟩ j := fun j hj => legWeight_pos hpos bR.orth (oV' j hj)
  obtain ⟨sAh, vAh⟩ := hc3 sA
  obtain ⟨t1, f1, st1, vt1⟩ := diag_mul_right (mu := fun _ => 1) sAh hl hlv
  obtain ⟨t2, f2, st2, vt2⟩ := ND.matmul33 st1 sA
  obtain ⟨ln, f3, sln, vln⟩ := sum0_ok st2
  refine ⟨∑ j ∈ range N, (s.take N).getD j 0 ^ 2 * legWeight d (bondR x.data (m + 1)) kR rho vR ⟨[N, kR], V.val⟩ j, ln, ?_, ?_, sln, ?_, ?_⟩
  · exact Finset.sum_nonneg fun j hj => mul_nonneg (sq_nonneg _) (hw j (Finset.mem_range.1 hj)).le
  · intro dt hdt
    obtain ⟨X, Y, eXY, sX, sY, vX, vY⟩ := newLegs_ok dt hl hlv hr hrv bL.shape bR.shape (U := ⟨[kL, N], U.val⟩) (V := ⟨[N, kR], V.val⟩) (χ := N) rfl rfl (s := s.take N)
      (by rw [List.length_take]; omega)
    have eN := legsNorm_ok hdt hl hlv hr hrv bL.orth (U := ⟨[kL, N], U.val⟩) oU' hst0 sX sY vX vY
    unfold FMPS.projBody
    rw [pyGet_ok h0, ok_bind, pyGet_ok h1, ok_bind, pyGet_ok (by simpa using hm), ok_bind, elf, ok_bind, er, ok_bind, eL, ok_bind, eR, ok_bind]
    simp only [List.getElem_map]
    rw [eG, ok_bind, etr, ok_bind]
    simp only
    rw [eXY, ok_bind]
    simp only
    rw [eN, ok_bind]
    unfold FMPS.nextLeft
    rw [f1, ok_bind, f2, ok_bind, f3, ok_bind]
  · intro a ha b hb
    rw [vln, ← S.iso h0 h1 a ha b hb]
    refine Finset.sum_congr rfl fun t ht => ?_
    rw [vt2 t (Finset.mem_range.1 ht)]
    refine Finset.sum_congr rfl fun c hc => ?_
    rw [vt1 _ _ _ (Finset.mem_range.1 hc), vAh, mul_one]
  · constructor
    · intro h
      have hz := (Finset.sum_eq_zero_iff_of_nonneg fun j hj => mul_nonneg (sq_nonneg _) (hw j (Finset.mem_range.1 hj)).le).1 h 0 (Finset.mem_range.2 hN1.2)
      have hz0 : s.getD 0 0 = 0 := by
        rcases mul_eq_zero.1 hz with h | h
        · rw [hst 0 hN1.2] at h
          exact pow_eq_zero_iff (two_ne_zero) |>.1 h
        · exact absurd h (hw 0 hN1.2).ne'
      have hall : ∀ j < min kL kR, s.getD j 0 = 0 := by
        intro j hj
        rcases Nat.eq_zero_or_pos j with rfl | hj0
        · exact hz0
        · refine le_antisymm ?_ (hs0 j)
          rw [← hz0, List.getD_eq_getElem _ _ (by omega), List.getD_eq_getElem _ _ (by omega)]
          exact List.pairwise_iff_getElem.1 sdec 0 j (by omega) (by omega) hj0
      refine tangent_of_gSum bL (fun _ _ => rfl) bR (S.iso h0 h1) next hpos hmu ?_
      intro k1 hk1 k2 hk2
      rw [← vG, hG k1 hk1 k2 hk2]
      exact Finset.sum_eq_zero fun j hj => by rw [hall j (Finset.mem_range.1 hj)]; simp
    · intro hT
      have hG0 : ∀ k1 < kL, ∀ k2 < kR, G.val [k1, k2] = 0 := by
        intro k1 hk1 k2 hk2
        rw [vG]
        exact gSum_tangent bL (fun _ _ => rfl) bR hT hk1 hk2
      refine Finset.sum_eq_zero fun j hj => ?_
      have hj := Finset.mem_range.1 hj
      have hsj : ((s.getD j 0 : ℝ) : ℂ) = 0 := by
        rw [← svd_value (M := min kL kR) (U := U) (V := V) (s := s) (kL := kL) (kR := kR) (j := j) (by omega) (by simpa [ColsOrtho, ND.dim, sU] using oU)
          (by simpa [RowsOrtho, ND.dim, sV] using oV)]
        refine Finset.sum_eq_zero fun k1 hk1 => Finset.sum_eq_zero fun k2 hk2 => ?_
        rw [← hG k1 (Finset.mem_range.1 hk1) k2 (Finset.mem_range.1 hk2), hG0 k1 (Finset.mem_range.1 hk1) k2 (Finset.mem_range.1 hk2)]
        ring
      rw [hst j hj]
      have : s.getD j 0 = 0 := by exact_mod_cast hsj
      rw [this]
      ring

/-- the body of the loop with a left environment of the wrong size -/
theorem ProjSetup.body_stale (hchol : CholTriLaw chol) (O : SetOrder) {m : ℕ} (h0 : m < x.data.length) (h1 : m + 1 < x.data.length) (hm : m < H.length)
    {l : ND ℂ} {k : ℕ} {lf : ℤ → Py (ND ℂ)} (elf : lf ((m : ℤ) - 1) = .ok l) (hl : l.shape = [k, k])
    (hlv : ∀ a < k, ∀ b < k, l.val [a, b] = if a = b then 1 else 0) (hne : bondL x.data m ≠ k) (dt : ℝ) :
    FMPS.projBody chol inv null svd O x rs (H.map fun h => h.reshapeR [d, d, d, d]) dt lf m = .error .valueError := by
  obtain ⟨sA, sB, c1, c2, c4, c3, c5⟩ := bond_shapes S.hx.chain h0 h1
  obtain ⟨r, rho, mu, er, -⟩ := S.right h0 h1
  obtain ⟨X, eX, sX, -⟩ := chol_diag hchol hl (lam := fun _ => 1) (by intro i hi j hj; rw [hlv i hi j hj]; simp) (fun _ _ => one_pos)
  obtain ⟨sAh, -⟩ := hc3 sA
  have e1 : x.data[m].hc.matmul X = .error .valueError := by
    simp [ND.matmul, sAh, sX, hne]
  have e2 : FMPS.leftNullF chol inv null O x lf m = .error .valueError := by
    unfold FMPS.leftNullF FMPS.nullVecs
    rw [pyGet_ok h0, ok_bind, elf, ok_bind, eX, ok_bind, e1, err_bind, err_bind]
  unfold FMPS.projBody
  rw [pyGet_ok h0, ok_bind, pyGet_ok h1, ok_bind, pyGet_ok (by simpa using hm), ok_bind, elf, ok_bind, er, ok_bind, e2, err_bind]

theorem ProjSetup.full_iff {m : ℕ} (h0 : m < x.data.length) (h1 : m + 1 < x.data.length) :
    FMPS.fullBond x.d (x.data[m].dim 1) (x.data[m].dim 2) (x.data[m + 1].dim 2) = true ↔ BondFull d x.data m := by
  unfold FMPS.fullBond BondFull bondL bondR
  rw [S.dd, List.getD_eq_getElem _ _ h0, List.getD_eq_getElem _ _ h1]
  simp

/-- `l` gives the environment of the next site that is not skipped -/
def LeftGood (d : ℕ) (As : List (ND ℂ)) (lf : ℤ → Py (ND ℂ)) (a : ℕ) : Prop :=
  ∀ m, a ≤ m → m + 1 < As.length → ¬ BondFull d As m → (∀ k, a ≤ k → k < m → BondFull d As k) →
    ∃ l, lf ((m : ℤ) - 1) = .ok l ∧ l.shape = [bondL As m, bondL As m] ∧ ∀ i < bondL As m, ∀ j < bondL As m, l.val [i, j] = if i = j then 1 else 0

omit S in
theorem LeftGood.skip {As : List (ND ℂ)} {lf : ℤ → Py (ND ℂ)} {a : ℕ} (h : LeftGood d As lf a) (hfull : BondFull d As a) : LeftGood d As lf (a + 1) := by
  intro m hm h1 h2 h3
  refine h m (by omega) h1 h2 fun k hk hk' => ?_
  rcases Nat.eq_or_lt_of_le hk with rfl | hlt
  · exact hfull
  · exact h3 k hlt hk'

theorem ProjSetup.good : LeftGood d x.data (FMPS.envAt ls) 0 := by
  intro m _ h1 _ _
  have hlen := S.len
  obtain ⟨sA, sB, c1, -⟩ := bond_shapes S.hx.chain (by omega) h1
  obtain ⟨l, _, lam, _, E⟩ := S.env m (by omega) _ c1
  exact ⟨l, E.el, E.hl, fun a ha b hb => by rw [E.hlv a ha b hb, S.left c1 a ha b hb]⟩

/-- the sites that are skipped -/
theorem ProjSetup.loop_skip (O : SetOrder) (dt : ℝ) (H' : List (ND ℂ)) : ∀ (i a k : ℕ) (lf : ℤ → Py (ND ℂ)) (ε : ℝ), a + (i + k) + 1 = L →
    (∀ j, a ≤ j → j < a + i → BondFull d x.data j) →
    FMPS.projLoop chol inv null svd O x rs H' dt (List.range' a (i + k)) lf ε = FMPS.projLoop chol inv null svd O x rs H' dt (List.range' (a + i) k) lf ε
  | 0, a, k, lf, ε, _, _ => by simp
  | i + 1, a, k, lf, ε, hL, hj => by
    have hlen := S.len
    have h0 : a < x.data.length := by omega
    have h1 : a + 1 < x.data.length := by omega
    rw [show i + 1 + k = (i + k) + 1 by omega, List.range'_succ, FMPS.projLoop, pyGet_ok h0, ok_bind, pyGet_ok h1, ok_bind,
      if_pos ((S.full_iff h0 h1).2 (hj a le_rfl (by omega))),
      ProjSetup.loop_skip O dt H' i (a + 1) k lf ε (by omega) fun j h2 h3 => hj j (by omega) (by omega), show a + 1 + i = a + (i + 1) by omega]

/-- the loop when the bonds match -/
theorem ProjSetup.loop_ok (hchol : CholTriLaw chol) (hinv : InvLaw inv) (hnull : NullLaw null) (hsvd : SVDLaw svd) (O : SetOrder)
    (hmatch : OpenBondsMatch d x.data) : ∀ (k a : ℕ) (lf : ℤ → Py (ND ℂ)), a + k + 1 = L → LeftGood d x.data lf a → ∃ E : ℝ, 0 ≤ E ∧
      (∀ dt : ℝ, 0 ≤ dt → ∀ ε, FMPS.projLoop chol inv null svd O x rs (H.map fun h => h.reshapeR [d, d, d, d]) dt (List.range' a k) lf ε = .ok (ε + dt ^ 2 * E)) ∧
      (E = 0 ↔ ∀ m (hm : m < H.length) (h0 : m < x.data.length) (h1 : m + 1 < x.data.length), a ≤ m →
        TwoTangent d (bondL x.data m) (bondR x.data m) (bondR x.data (m + 1)) x.data[m] x.data[m + 1]
          (hAA d (bondR x.data m) H[m] x.data[m] x.data[m + 1]))
  | 0, a, lf, hL, _ => by
    refine ⟨0, le_rfl, fun dt _ ε => by simp [FMPS.projLoop], fun _ m hm h0 h1 ham => ?_, fun _ => rfl⟩
    have := S.len
    omega
  | k + 1, a, lf, hL, hg => by
    have hlen := S.len
    have hHL := S.hHL
    have h0 : a < x.data.length := by omega
    have h1 : a + 1 < x.data.length := by omega
    by_cases hfull : BondFull d x.data a
    · obtain ⟨E, hE, hv, hz⟩ := ProjSetup.loop_ok hchol hinv hnull hsvd O hmatch k (a + 1) lf (by omega) (hg.skip hfull)
      refine ⟨E, hE, ?_, ?_⟩
      · intro dt hdt ε
        rw [List.range'_succ, FMPS.projLoop, pyGet_ok h0, ok_bind, pyGet_ok h1, ok_bind, if_pos ((S.full_iff h0 h1).2 hfull)]
        exact hv dt hdt ε
      · rw [hz]
        constructor
        · intro h m hm g0 g1 ham
          rcases Nat.eq_or_lt_of_le ham with rfl | hlt
          · exact S.full_tangent hchol hinv hnull O h0 h1 hfull _
          · exact h m hm g0 g1 hlt
        · exact fun h m hm g0 g1 ham => h m hm g0 g1 (by omega)
    · obtain ⟨l, elf, hl, hlv⟩ := hg a le_rfl h1 hfull fun k h2 h3 => by omega
      obtain ⟨e, ln, he, hb, sln, vln, hz1⟩ := S.body_ok hchol hinv hnull hsvd O h0 h1 (by omega) hfull elf hl hlv
      obtain ⟨E, hE, hv, hz⟩ := ProjSetup.loop_ok hchol hinv hnull hsvd O hmatch k (a + 1) (fun _ => .ok ln) (by omega) (by
        intro m hm g1 g2 g3
        have := hmatch a m ⟨by omega, g1, hfull, g2, fun k h2 h3 => g3 k h2 h3⟩
        rw [this]
        exact ⟨ln, rfl, sln, vln⟩)
      refine ⟨e + E, add_nonneg he hE, ?_, ?_⟩
      · intro dt hdt ε
        rw [List.range'_succ, FMPS.projLoop, pyGet_ok h0, ok_bind, pyGet_ok h1, ok_bind, if_neg (by rw [S.full_iff h0 h1]; exact hfull), hb dt hdt, ok_bind]
        simp only
        rw [hv dt hdt]
        congr 1
        ring
      · constructor
        · intro h m hm g0 g1 ham
          have e0 : e = 0 := by linarith
          have E0 : E = 0 := by linarith
          rcases Nat.eq_or_lt_of_le ham with rfl | hlt
          · exact hz1.1 e0
          · exact hz.1 E0 m hm g0 g1 hlt
        · intro h
          rw [hz1.2 (h a (by omega) h0 h1 le_rfl), hz.2 fun m hm g0 g1 ham => h m hm g0 g1 (by omega), add_zero]

/-- the loop when they do not -/
theorem ProjSetup.loop_stale (hchol : CholTriLaw chol) (hinv : InvLaw inv) (hnull : NullLaw null) (hsvd : SVDLaw svd) (O : SetOrder) {dt : ℝ} (hdt : 0 ≤ dt) :
    ∀ (k a : ℕ) (lf : ℤ → Py (ND ℂ)) (ε : ℝ), a + k + 1 = L → LeftGood d x.data lf a →
      (∃ i j, a ≤ i ∧ NextOpen d x.data i j ∧ bondL x.data j ≠ bondR x.data i) →
      FMPS.projLoop chol inv null svd O x rs (H.map fun h => h.reshapeR [d, d, d, d]) dt (List.range' a k) lf ε = .error .valueError
  | 0, a, lf, ε, hL, _, ⟨i, j, hi, hn, _⟩ => by
    have := S.len
    have := hn.1
    have := hn.2.1
    omega
  | k + 1, a, lf, ε, hL, hg, ⟨i, j, hi, hn, hne⟩ => by
    have hlen := S.len
    have hHL := S.hHL
    have h0 : a < x.data.length := by omega
    have h1 : a + 1 < x.data.length := by omega
    rw [List.range'_succ, FMPS.projLoop, pyGet_ok h0, ok_bind, pyGet_ok h1, ok_bind]
    by_cases hfull : BondFull d x.data a
    · rw [if_pos ((S.full_iff h0 h1).2 hfull)]
      refine ProjSetup.loop_stale hchol hinv hnull hsvd O hdt k (a + 1) lf ε (by omega) (hg.skip hfull) ⟨i, j, ?_, hn, hne⟩
      rcases Nat.eq_or_lt_of_le hi with rfl | hlt
      · exact absurd hfull hn.2.2.1
      · exact hlt
    · rw [if_neg (by rw [S.full_iff h0 h1]; exact hfull)]
      obtain ⟨l, elf, hl, hlv⟩ := hg a le_rfl h1 hfull fun k h2 h3 => by omega
      obtain ⟨e, ln, he, hb, sln, vln, -⟩ := S.body_ok hchol hinv hnull hsvd O h0 h1 (by omega) hfull elf hl hlv
      rw [hb dt hdt, ok_bind]
      simp only
      by_cases hbad : ∃ j', NextOpen d x.data a j' ∧ bondL x.data j' ≠ bondR x.data a
      · obtain ⟨j', hn', hne'⟩ := hbad
        have hj1 := hn'.1
        have hj2 := hn'.2.1
        have hj0 : j' < x.data.length := by omega
        obtain ⟨k', rfl⟩ : ∃ k', k = (j' - (a + 1)) + (k' + 1) := ⟨k - 1 - (j' - (a + 1)), by omega⟩
        rw [S.loop_skip O dt _ (j' - (a + 1)) (a + 1) (k' + 1) _ _ (by omega) fun c h2 h3 => hn'.2.2.2.2 c (by omega) (by omega),
          show a + 1 + (j' - (a + 1)) = j' by omega, List.range'_succ, FMPS.projLoop, pyGet_ok hj0, ok_bind, pyGet_ok hj2, ok_bind,
          if_neg (by rw [S.full_iff hj0 hj2]; exact hn'.2.2.2.1), S.body_stale hchol O hj0 hj2 (by omega) rfl sln vln hne' dt, err_bind]
      · refine ProjSetup.loop_stale hchol hinv hnull hsvd O hdt k (a + 1) _ _ (by omega) ?_ ⟨i, j, ?_, hn, hne⟩
        · intro m hm g1 g2 g3
          have : bondL x.data m = bondR x.data a := by
            by_contra hc
            exact hbad ⟨m, ⟨by omega, g1, hfull, g2, fun k h2 h3 => g3 k h2 h3⟩, hc⟩
          rw [this]
          exact ⟨ln, rfl, sln, vln⟩
        · rcases Nat.eq_or_lt_of_le hi with rfl | hlt
          · exact absurd ⟨j, hn, hne⟩ hbad
          · exact hlt

end

end Xmps
