import Verif.Lemmas.F1Value

/-!
# `F1`: matrix elements between first tangent vectors (C90)
-/

namespace Xmps

open Finset Spec Xmps.Ncon

section main
variable {chol inv null : ND ℂ → Py (ND ℂ)} (hchol : CholTriLaw chol) (hinv : InvLaw inv) (hnull : NullLaw null) (O : SetOrder)
  {x : FMPS ℂ} {L : ℕ} (hx : x.Holds (List.replicate L 2)) (hf : FullEnvs (List.replicate L 2) x.data)
  {H : List (ND ℂ)} (hL : H.length < L) (hH : ∀ h ∈ H, h.shape = [4, 4])
include hchol hinv hnull hx hf hL hH

/-- `F1(i, j, H)`, `i < j`, for sites of dimension two, contracted with the conjugated coordinates at `i` and the coordinates at `j`: the matrix element
between the two tangent vectors of the terms with the matrices of all but the terms before `i - 1` transposed, times the norm of the state if `i` is the
first site; provided that the sites are neighbours or the bond after `i + 1` is trivial. -/
theorem FMPS.f1_lt {i j : ℕ} (hij : i < j) (hj : j < L) {dA : List (ND ℂ)} (hi' : i < x.data.length) (hj' : j < x.data.length)
    (hgap : j = i + 1 ∨ (x.data[i + 1]'(by omega)).dim 2 = 1)
    (hAi : i < dA.length) (hAj : j < dA.length) {pi qi pj qj : ℕ} (hsi : x.data[i].shape = [2, pi, qi]) (hsj : x.data[j].shape = [2, pj, qj])
    (hBi : dA[i].shape = [2, pi, qi]) (hBj : dA[j].shape = [2, pj, qj])
    (hgi : LeftGauge 2 pi qi (leftEnv ((List.replicate L 2).take i) (x.data.take i)) x.data[i] dA[i])
    (hgj : LeftGauge 2 pj qj (leftEnv ((List.replicate L 2).take j) (x.data.take j)) x.data[j] dA[j]) :
    ∃ ls rs, x.getEnvs = .ok (ls, rs) ∧ ∃ (X Y G : ND ℂ) (ki kj : ℕ), X.shape = [ki, qi] ∧ Y.shape = [kj, qj] ∧ G.shape = [ki, qi, kj, qj] ∧
      FMPS.extractSite chol inv null O x ls rs dA i = .ok X.flat ∧ FMPS.extractSite chol inv null O x ls rs dA j = .ok Y.flat ∧
      FMPS.f1 chol inv null O x i j H = .ok G ∧
      (∃ G', FMPS.f1 chol inv null O x j i H = .ok G' ∧ G'.shape = [kj, qj, ki, qi] ∧
        ∀ a b c e, G'.val [a, b, c, e] = star (G.val [c, e, a, b])) ∧
      ∑ a ∈ range ki, ∑ b ∈ range qi, ∑ c ∈ range kj, ∑ e ∈ range qj, star (X.val [a, b]) * Y.val [c, e] * G.val [a, b, c, e] =
        (if i = 0 then ((Real.sqrt (pairing (List.replicate L 2) (psi x.data) (psi x.data)).re : ℝ) : ℂ) else 1) *
          pairing (List.replicate L 2) (psi (x.data.set i dA[i])) (hamAct 2 (f1Ham i H) (psi (x.data.set j dA[j]))) := by
  obtain ⟨ls, rs, E, e, eE, pr, vL, l, r, p, q, k, lam, rho, hnl, epr, c⟩ := f2Ctx_exists hchol hinv hnull O (by omega) hx hf
  have hl := c.len
  have si := c.site i (by omega)
  have sj := c.site j (by omega)
  obtain ⟨rfl, rfl⟩ : p i = pi ∧ q i = qi := by simpa using si.hA.symm.trans hsi
  obtain ⟨rfl, rfl⟩ : p j = pj ∧ q j = qj := by simpa using sj.hA.symm.trans hsj
  rw [dim2 (c.site (i + 1) (by omega)).hA] at hgap
  obtain ⟨G, g1, g2, g3⟩ := c.f1value O hij hj hgap hL hH
  obtain ⟨X, x1, x2, x3⟩ := si.extract hchol O (hnl i (by omega)) (pyGet_ok hAi) hBi
  obtain ⟨Y, y1, y2, y3⟩ := sj.extract hchol O (hnl j hj) (pyGet_ok hAj) hBj
  have g1 : FMPS.f1Sorted O x ls rs ((List.range L).map (Prod.snd ∘ fun n => (pr n, vL n))) E H i j = .ok G := g1
  refine ⟨ls, rs, e, X, Y, G, k i, k j, x2, y2, g2, x1, y1, ?_, ⟨(G.transposeR [2, 3, 0, 1]).conj, ?_, ?_, ?_⟩, ?_⟩
  · unfold FMPS.f1
    rw [e, ok_bind]
    simp only
    rw [epr, ok_bind, eE, ok_bind, List.map_map]
    unfold FMPS.f1With
    rw [if_neg (by omega)]
    exact g1
  · unfold FMPS.f1
    rw [e, ok_bind]
    simp only
    rw [epr, ok_bind, eE, ok_bind, List.map_map]
    unfold FMPS.f1With
    rw [if_pos hij, g1, ok_bind, ND.transpose_ok (by rw [ND.rank, g2]; exact (by decide : List.Perm [2, 3, 0, 1] (List.range 4))), ok_bind]
  · simp [ND.conj, ND.transposeR, ND.dim, g2]
  · intro a b c e
    have : (List.range 4).map (fun p => [a, b, c, e].getD (List.idxOf p [2, 3, 0, 1]) 0) = [c, e, a, b] := by
      simp [List.range_succ, List.idxOf_cons]
    simp only [ND.conj, ND.transposeR, ND.rank, g2]
    exact congrArg (fun t => star (G.val t)) this
  · refine (Finset.sum_congr rfl fun a ha => Finset.sum_congr rfl fun b hb => Finset.sum_congr rfl fun c1 hc1 => Finset.sum_congr rfl fun e1 he1 => ?_).trans
      (g3 (siteCoord 2 (p i) (vL i) (lam i) (rho i) dA[i]) (siteCoord 2 (p j) (vL j) (lam j) (rho j) dA[j]) dA[i] dA[j] hBi hBj
        (fun s hs a ha b hb => (si.tensor_coord hgi hs ha hb).symm) (fun s hs a ha b hb => (sj.tensor_coord hgj hs ha hb).symm))
    simp only [Finset.mem_range] at ha hb hc1 he1
    rw [x3 a ha b hb, y3 c1 hc1 e1 he1]
    rfl

/-- `F1(i, j, H)` for different sites of dimension two and terms with real symmetric matrices, contracted with the conjugated coordinates at `i` and the
coordinates at `j`: the matrix element of `H` between the two tangent vectors, times the norm of the state if one of the sites is the first.  Partial: for
sites further apart the bond after the one next to the left of them must be trivial, see `exGap_wrong`; for complex Hermitian terms see `exTwist_wrong`, for
other dimensions `FMPS.f1_dim`; `i = j` is left out. -/
theorem FMPS.f1_real_partial {i j : ℕ} (hij : i ≠ j) (hi : i < L) (hj : j < L) {dA : List (ND ℂ)} (hi' : i < x.data.length) (hj' : j < x.data.length)
    (hr : ∀ h ∈ H, ∀ a < 4, ∀ b < 4, h.val [a, b] = h.val [b, a] ∧ star (h.val [a, b]) = h.val [a, b])
    (hgap : j = i + 1 ∨ i = j + 1 ∨ ∀ (h : min i j + 1 < x.data.length), (x.data[min i j + 1]).dim 2 = 1)
    (hAi : i < dA.length) (hAj : j < dA.length) {pi qi pj qj : ℕ} (hsi : x.data[i].shape = [2, pi, qi]) (hsj : x.data[j].shape = [2, pj, qj])
    (hBi : dA[i].shape = [2, pi, qi]) (hBj : dA[j].shape = [2, pj, qj])
    (hgi : LeftGauge 2 pi qi (leftEnv ((List.replicate L 2).take i) (x.data.take i)) x.data[i] dA[i])
    (hgj : LeftGauge 2 pj qj (leftEnv ((List.replicate L 2).take j) (x.data.take j)) x.data[j] dA[j]) :
    ∃ ls rs, x.getEnvs = .ok (ls, rs) ∧ ∃ (X Y G : ND ℂ) (ki kj : ℕ), X.shape = [ki, qi] ∧ Y.shape = [kj, qj] ∧ G.shape = [ki, qi, kj, qj] ∧
      FMPS.extractSite chol inv null O x ls rs dA i = .ok X.flat ∧ FMPS.extractSite chol inv null O x ls rs dA j = .ok Y.flat ∧
      FMPS.f1 chol inv null O x i j H = .ok G ∧
      ∑ a ∈ range ki, ∑ b ∈ range qi, ∑ c ∈ range kj, ∑ e ∈ range qj, star (X.val [a, b]) * Y.val [c, e] * G.val [a, b, c, e] =
        (if i = 0 ∨ j = 0 then ((Real.sqrt (pairing (List.replicate L 2) (psi x.data) (psi x.data)).re : ℝ) : ℂ) else 1) *
          pairing (List.replicate L 2) (psi (x.data.set i dA[i])) (hamAct 2 H (psi (x.data.set j dA[j]))) := by
  have hxl : x.data.length = L := by have := hx.chain.length_eq; rw [List.length_replicate] at this; omega
  rcases Nat.lt_or_gt_of_ne hij with h | h
  · obtain ⟨ls, rs, e, X, Y, G, ki, kj, h1, h2, h3, h4, h5, h6, -, h7⟩ := FMPS.f1_lt hchol hinv hnull O hx hf hL hH h hj hi' hj'
      (by
        rcases hgap with h' | h' | h'
        · exact .inl h'
        · omega
        · right
          have := h' (by omega)
          simpa [Nat.min_eq_left h.le] using this) hAi hAj hsi hsj hBi hBj hgi hgj
    refine ⟨ls, rs, e, X, Y, G, ki, kj, h1, h2, h3, h4, h5, h6, ?_⟩
    rw [h7, show (if i = 0 ∨ j = 0 then ((Real.sqrt (pairing (List.replicate L 2) (psi x.data) (psi x.data)).re : ℝ) : ℂ) else 1) =
      if i = 0 then ((Real.sqrt (pairing (List.replicate L 2) (psi x.data) (psi x.data)).re : ℝ) : ℂ) else 1 from if_congr (by omega) rfl rfl]
    congr 1
    exact pairing_congr (fun _ _ => rfl) fun s hs => f1Ham_symm hL (fun h hh a ha b hb => (hr h hh a ha b hb).1) _ hs
  · obtain ⟨ls, rs, e, Y, X, G, kj, ki, h1, h2, h3, h4, h5, h6, ⟨G', g1, g2, g3⟩, h7⟩ := FMPS.f1_lt hchol hinv hnull O hx hf hL hH h hi hj' hi'
      (by
        rcases hgap with h' | h' | h'
        · omega
        · exact .inl h'
        · right
          have := h' (by omega)
          simpa [Nat.min_eq_right (Nat.le_of_lt h)] using this) hAj hAi hsj hsi hBj hBi hgj hgi
    refine ⟨ls, rs, e, X, Y, G', ki, kj, h2, h1, g2, h5, h4, g1, ?_⟩
    rw [pairing_congr (fun _ _ => rfl) fun s hs => f1Ham_symm hL (fun h hh a ha b hb => (hr h hh a ha b hb).1) _ hs] at h7
    rw [show (if i = 0 ∨ j = 0 then ((Real.sqrt (pairing (List.replicate L 2) (psi x.data) (psi x.data)).re : ℝ) : ℂ) else 1) =
      if j = 0 then ((Real.sqrt (pairing (List.replicate L 2) (psi x.data) (psi x.data)).re : ℝ) : ℂ) else 1 from if_congr (by omega) rfl rfl,
      ← pairing_ham_star hL (fun h hh a ha b hb => by rw [(hr h hh b hb a ha).2, (hr h hh b hb a ha).1])]
    have h8 := congrArg star h7
    rw [star_mul', show star (if j = 0 then ((Real.sqrt (pairing (List.replicate L 2) (psi x.data) (psi x.data)).re : ℝ) : ℂ) else 1) =
      if j = 0 then ((Real.sqrt (pairing (List.replicate L 2) (psi x.data) (psi x.data)).re : ℝ) : ℂ) else 1 by
        split_ifs
        · exact Complex.conj_ofReal _
        · simp] at h8
    rw [← h8]
    simp only [star_sum, star_mul', star_star, g3]
    symm
    rw [sum_swap2]
    refine Finset.sum_congr rfl fun a _ => ?_
    rw [sum_swap2]
    refine Finset.sum_congr rfl fun b _ => Finset.sum_congr rfl fun c _ => Finset.sum_congr rfl fun e _ => ?_
    ring

end main

/-- `F1` reshapes the terms to `(2, 2, 2, 2)`: for another local dimension it raises, unless there are no coordinates at the left of the two sites -/
theorem FMPS.f1_dim {chol inv null : ND ℂ → Py (ND ℂ)} (hchol : CholTriLaw chol) (hinv : InvLaw inv) (hnull : NullLaw null) (O : SetOrder)
    {x : FMPS ℂ} {L d : ℕ} (hd : 0 < d) (hd2 : d ≠ 2) (hx : x.Holds (List.replicate L d)) (hf : FullEnvs (List.replicate L d) x.data)
    {h : ND ℂ} {H : List (ND ℂ)} (hh : h.shape = [d * d, d * d]) {i j p q : ℕ} (hi : i < L) (hj : j < L) (hm : min i j < x.data.length)
    (hA : x.data[min i j].shape = [d, p, q]) (hpq : d * p ≠ q) :
    FMPS.f1 chol inv null O x i j (h :: H) = .error .valueError := by
  obtain ⟨ls, rs, E, e, eE, pr, vL, l, r, p', q', k, lam, rho, hnl, epr, c⟩ := f2Ctx_exists hchol hinv hnull O hd hx hf
  have hl := c.len
  have key : ∀ i j, i < L → j < L → ∀ hm : i < x.data.length, x.data[i].shape = [d, p, q] →
      FMPS.f1Sorted O x ls rs ((List.range L).map vL) E (h :: H) i j = .error .valueError := by
    intro i j hi hj hm hA
    unfold FMPS.f1Sorted
    have hne : ¬ d * d * (d * d) = 16 := by
      intro h16
      have : d < 3 := by
        by_contra hge
        have h9 : 9 ≤ d * d := by nlinarith
        nlinarith
      interval_cases d
      · simp at h16
      · exact hd2 rfl
    rw [c.coord hi, ok_bind]
    simp only
    rw [c.coord hj, ok_bind]
    simp only
    rw [pyGet_ok hm, ok_bind, dim0 hA, dim1 hA, dim2 hA, if_neg hpq, List.mapM_cons, ND.reshape]
    simp [ND.size, hh, hne]
  have e' : FMPS.f1 chol inv null O x i j (h :: H) = FMPS.f1With O x ls rs ((List.range L).map vL) E (h :: H) i j := by
    unfold FMPS.f1
    rw [e, ok_bind]
    simp only
    rw [epr, ok_bind, eE, ok_bind, List.map_map]
    rfl
  rw [e']
  unfold FMPS.f1With
  split_ifs with hji
  · rw [key j i hj hi (by omega) (by simpa [Nat.min_eq_right hji.le] using hA), err_bind]
  · exact key i j hi hj (by omega) (by simpa [Nat.min_eq_left (not_lt.1 hji)] using hA)

/-! ### the hypotheses can be met -/

/-- `|10⟩⟨01| + |01⟩⟨10|` -/
def exHop : ND ℂ := ⟨[4, 4], fun
  | [a, b] => if a = 2 ∧ b = 1 ∨ a = 1 ∧ b = 2 then 1 else 0
  | _ => 0⟩

example {chol inv null : ND ℂ → Py (ND ℂ)} (hchol : CholTriLaw chol) (hinv : InvLaw inv) (hnull : NullLaw null) (O : SetOrder) := by
  exact FMPS.f1_real_partial hchol hinv hnull O (L := 2) (exScaled_holds (1 : ℝ)) (exScaled_full 1 one_ne_zero) (H := [exHop]) (by simp)
    (by simp [exHop]) (i := 1) (j := 0) (by omega) (by omega) (by omega) (dA := [exUp, exUp]) (by simp [exScaled]) (by simp [exScaled])
    (by
      intro h hh a ha b hb
      obtain rfl : h = exHop := by simpa using hh
      simp only [exHop]
      constructor
      · exact if_congr (by omega) rfl rfl
      · split_ifs <;> simp)
    (.inr (.inl rfl)) (by simp) (by simp)
    (pi := 1) (qi := 1) (pj := 1) (qj := 1) rfl rfl rfl rfl
    (by intro a ha b hb; simp [exScaled, exUp, Finset.sum_range_succ]) (by intro a ha b hb; simp [exScaled, exUp, Finset.sum_range_succ])

/-- three-dimensional sites -/
def exQutrits : FMPS ℂ := ⟨[⟨[3, 1, 1], fun
  | [s, _, _] => if s = 0 then 1 else 0
  | _ => 0⟩, ⟨[3, 1, 1], fun
  | [s, _, _] => if s = 0 then 1 else 0
  | _ => 0⟩], 2, 3, 1, false, false, none, none⟩

theorem exQutrits_full : FullEnvs (List.replicate 2 3) exQutrits.data := by
  intro k hk p hp
  match k, hk with
  | 0, _ =>
    obtain rfl := chain_bond_unique hp rfl
    refine ⟨fun _ => 1, fun _ => 1, by simp, ?_⟩
    intro a ha b hb
    obtain rfl : a = 0 := by omega
    obtain rfl : b = 0 := by omega
    simp [leftEnv, rightEnv, exQutrits, amp, ND.dim, Finset.sum_range_succ]
  | 1, _ =>
    obtain rfl := chain_bond_unique hp ⟨1, rfl, rfl⟩
    refine ⟨fun _ => 1, fun _ => 1, by simp, ?_⟩
    intro a ha b hb
    obtain rfl : a = 0 := by omega
    obtain rfl : b = 0 := by omega
    simp [leftEnv, rightEnv, exQutrits, amp, ND.dim, Finset.sum_range_succ]
  | 2, _ =>
    obtain rfl := chain_bond_unique hp ⟨1, rfl, 1, rfl, rfl⟩
    refine ⟨fun _ => 1, fun _ => 1, by simp, ?_⟩
    intro a ha b hb
    obtain rfl : a = 0 := by omega
    obtain rfl : b = 0 := by omega
    simp [leftEnv, rightEnv, exQutrits, amp, ND.dim, Finset.sum_range_succ]

/-- `F1` of a chain of sites of dimension three raises -/
example {chol inv null : ND ℂ → Py (ND ℂ)} (hchol : CholTriLaw chol) (hinv : InvLaw inv) (hnull : NullLaw null) (O : SetOrder) :
    FMPS.f1 chol inv null O exQutrits 0 1 [eyeND 9] = .error .valueError :=
  FMPS.f1_dim hchol hinv hnull O (x := exQutrits) (L := 2) (d := 3) (by omega) (by omega) ⟨⟨1, rfl, 1, rfl, rfl⟩, by simp, rfl, rfl⟩ exQutrits_full (by simp [eyeND])
    (by omega) (by omega) (by simp [exQutrits]) (p := 1) (q := 1) rfl (by omega)

/-! ### complex terms -/

/-- `i|10⟩⟨01| - i|01⟩⟨10|` -/
noncomputable def exTwist : ND ℂ := ⟨[4, 4], fun
  | [a, b] => if a = 2 ∧ b = 1 then Complex.I else if a = 1 ∧ b = 2 then -Complex.I else 0
  | _ => 0⟩

/-- For the state `|00⟩` and a Hermitian term `F1(0, 1)` has the wrong sign. -/
theorem exTwist_wrong {chol inv null : ND ℂ → Py (ND ℂ)} (hchol : CholTriLaw chol) (hinv : InvLaw inv) (hnull : NullLaw null) (O : SetOrder) :
    (∀ a < 4, ∀ b < 4, star (exTwist.val [b, a]) = exTwist.val [a, b]) ∧
    ∃ ls rs, (exScaled (1 : ℝ)).getEnvs = .ok (ls, rs) ∧ ∃ (X Y G : ND ℂ) (ki kj : ℕ), X.shape = [ki, 1] ∧ Y.shape = [kj, 1] ∧ G.shape = [ki, 1, kj, 1] ∧
      FMPS.extractSite chol inv null O (exScaled (1 : ℝ)) ls rs [exUp, exUp] 0 = .ok X.flat ∧
      FMPS.extractSite chol inv null O (exScaled (1 : ℝ)) ls rs [exUp, exUp] 1 = .ok Y.flat ∧
      FMPS.f1 chol inv null O (exScaled (1 : ℝ)) 0 1 [exTwist] = .ok G ∧
      ∑ a ∈ range ki, ∑ b ∈ range 1, ∑ c ∈ range kj, ∑ e ∈ range 1, star (X.val [a, b]) * Y.val [c, e] * G.val [a, b, c, e] = -Complex.I ∧
      pairing (List.replicate 2 2) (psi ((exScaled (1 : ℝ)).data.set 0 exUp)) (hamAct 2 [exTwist] (psi ((exScaled (1 : ℝ)).data.set 1 exUp))) = Complex.I := by
  have h1 : ∀ a b, psi ((exScaled (1 : ℝ)).data.set 1 exUp) [a, b] = if a = 0 ∧ b = 1 then 1 else 0 := by
    intro a b
    have hch : MpsChain (List.replicate 2 2) ((exScaled (1 : ℝ)).data.set 1 exUp) 1 1 := ⟨1, rfl, 1, rfl, rfl⟩
    rw [psi_eq_amp (ss := [a, b]) hch (by simp [exScaled]) rfl]
    simp [exScaled, exUp, amp, ND.dim]
    split_ifs <;> simp_all
  have h2 : ∀ a b, psi ((exScaled (1 : ℝ)).data.set 0 exUp) [a, b] = if a = 1 ∧ b = 0 then 1 else 0 := by
    intro a b
    have hch : MpsChain (List.replicate 2 2) ((exScaled (1 : ℝ)).data.set 0 exUp) 1 1 := ⟨1, rfl, 1, rfl, rfl⟩
    rw [psi_eq_amp (ss := [a, b]) hch (by simp [exScaled]) rfl]
    simp [exScaled, exUp, amp, ND.dim]
    split_ifs <;> simp_all
  have hn : (pairing (List.replicate 2 2) (psi (exScaled (1 : ℝ)).data) (psi (exScaled (1 : ℝ)).data)).re = 1 := by
    unfold pairing
    rw [sumIdx_congr fun s hs => by rw [psi_eq_amp (exScaled_holds (1 : ℝ)).chain (exScaled_holds (1 : ℝ)).data_ne hs.length_eq]]
    simp [exScaled, amp, ND.dim, Finset.sum_range_succ]
  refine ⟨?_, ?_⟩
  · intro a ha b hb
    simp only [exTwist]
    interval_cases a <;> interval_cases b <;> simp
  obtain ⟨ls, rs, e, X, Y, G, ki, kj, h3, h4, h5, h6, h7, h8, -, h9⟩ := FMPS.f1_lt hchol hinv hnull O (L := 2) (exScaled_holds (1 : ℝ))
    (exScaled_full 1 one_ne_zero) (H := [exTwist]) (by simp) (by simp [exTwist]) (i := 0) (j := 1) (by omega) (by omega) (dA := [exUp, exUp])
    (by simp [exScaled]) (by simp [exScaled]) (.inl rfl) (by simp) (by simp)
    (pi := 1) (qi := 1) (pj := 1) (qj := 1) rfl rfl rfl rfl
    (by intro a ha b hb; simp [exScaled, exUp, Finset.sum_range_succ]) (by intro a ha b hb; simp [exScaled, exUp, Finset.sum_range_succ])
  refine ⟨ls, rs, e, X, Y, G, ki, kj, h3, h4, h5, h6, h7, h8, ?_, ?_⟩
  · rw [h9, hn]
    have key : ∀ f g : List ℕ → ℂ, (∀ a b, f [a, b] = if a = 1 ∧ b = 0 then 1 else 0) → (∀ a b, g [a, b] = if a = 0 ∧ b = 1 then 1 else 0) →
        pairing (List.replicate 2 2) f (hamAct 2 (f1Ham 0 [exTwist]) g) = -Complex.I := by
      intro f g hf hg
      unfold pairing hamAct gateAct
      simp [List.replicate, sumIdx_cons, sumIdx_nil, Finset.sum_range_succ, hf, hg, f1Ham, f1Mat, matT, exTwist]
    refine (congrArg (_ * ·) (key _ _ h2 h1)).trans ?_
    simp
  · have key : ∀ f g : List ℕ → ℂ, (∀ a b, f [a, b] = if a = 1 ∧ b = 0 then 1 else 0) → (∀ a b, g [a, b] = if a = 0 ∧ b = 1 then 1 else 0) →
        pairing (List.replicate 2 2) f (hamAct 2 [exTwist] g) = Complex.I := by
      intro f g hf hg
      unfold pairing hamAct gateAct
      simp [List.replicate, sumIdx_cons, sumIdx_nil, Finset.sum_range_succ, hf, hg, exTwist]
    exact key _ _ h2 h1

/-! ### sites further apart -/

/-- `|0⟩ ⊗ (|00⟩ + |11⟩)` -/
def exGap : FMPS ℂ := ⟨[⟨[2, 1, 1], fun
  | [s, _, _] => if s = 0 then 1 else 0
  | _ => 0⟩, ⟨[2, 1, 2], fun
  | [s, _, c] => if s = c then 1 else 0
  | _ => 0⟩, ⟨[2, 2, 1], fun
  | [s, a, _] => if s = a then 1 else 0
  | _ => 0⟩], 3, 2, 2, false, false, none, none⟩

theorem exGap_holds : exGap.Holds (List.replicate 3 2) := ⟨⟨1, rfl, 2, rfl, 1, rfl, rfl⟩, by simp, rfl, rfl⟩

theorem exGap_full : FullEnvs (List.replicate 3 2) exGap.data := by
  intro k hk p hp
  match k, hk with
  | 0, _ =>
    obtain rfl := chain_bond_unique hp rfl
    refine ⟨fun _ => 1, fun _ => 2, by simp, ?_⟩
    intro a ha b hb
    obtain rfl : a = 0 := by omega
    obtain rfl : b = 0 := by omega
    simp [leftEnv, rightEnv, exGap, amp, ND.dim, Finset.sum_range_succ]
    norm_num
  | 1, _ =>
    obtain rfl := chain_bond_unique hp ⟨1, rfl, rfl⟩
    refine ⟨fun _ => 1, fun _ => 2, by simp, ?_⟩
    intro a ha b hb
    obtain rfl : a = 0 := by omega
    obtain rfl : b = 0 := by omega
    simp [leftEnv, rightEnv, exGap, amp, ND.dim, Finset.sum_range_succ]
    norm_num
  | 2, _ =>
    obtain rfl := chain_bond_unique hp ⟨1, rfl, 2, rfl, rfl⟩
    refine ⟨fun _ => 1, fun _ => 1, by simp, ?_⟩
    intro a ha b hb
    interval_cases a <;> interval_cases b <;> simp [leftEnv, rightEnv, exGap, amp, ND.dim, Finset.sum_range_succ]
  | 3, _ =>
    obtain rfl := chain_bond_unique hp ⟨1, rfl, 2, rfl, 1, rfl, rfl⟩
    refine ⟨fun _ => 2, fun _ => 1, by simp, ?_⟩
    intro a ha b hb
    obtain rfl : a = 0 := by omega
    obtain rfl : b = 0 := by omega
    simp [leftEnv, rightEnv, exGap, amp, ND.dim, Finset.sum_range_succ]
    norm_num

/-- a tangent tensor at the last site -/
def exGapB : ND ℂ := ⟨[2, 2, 1], fun
  | [s, a, _] => if s = 0 ∧ a = 1 then 1 else 0
  | _ => 0⟩

theorem exGapB_gauge : LeftGauge 2 2 1 (leftEnv ((List.replicate 3 2).take 2) (exGap.data.take 2)) exGap.data[2] exGapB := by
  intro a ha b hb
  obtain rfl : a = 0 := by omega
  obtain rfl : b = 0 := by omega
  simp [Finset.sum_range_succ, leftEnv, exGap, exGapB, amp, ND.dim]

theorem exGap_element : pairing (List.replicate 3 2) (psi (exGap.data.set 0 exUp)) (hamAct 2 [exHop] (psi (exGap.data.set 2 exGapB))) = 1 := by
  have h1 : ∀ a < 2, ∀ b < 2, ∀ c < 2, psi (exGap.data.set 2 exGapB) [a, b, c] = if a = 0 ∧ b = 1 ∧ c = 0 then 1 else 0 := by
    intro a ha b hb c hc
    have hch : MpsChain (List.replicate 3 2) (exGap.data.set 2 exGapB) 1 1 := ⟨1, rfl, 2, rfl, 1, rfl, rfl⟩
    rw [psi_eq_amp (ss := [a, b, c]) hch (by simp [exGap]) rfl]
    interval_cases a <;> interval_cases b <;> interval_cases c <;> simp [exGap, exGapB, amp, ND.dim, Finset.sum_range_succ]
  have h2 : ∀ a < 2, ∀ b < 2, ∀ c < 2, psi (exGap.data.set 0 exUp) [a, b, c] = if a = 1 ∧ c = b then 1 else 0 := by
    intro a ha b hb c hc
    have hch : MpsChain (List.replicate 3 2) (exGap.data.set 0 exUp) 1 1 := ⟨1, rfl, 2, rfl, 1, rfl, rfl⟩
    rw [psi_eq_amp (ss := [a, b, c]) hch (by simp [exGap]) rfl]
    interval_cases a <;> interval_cases b <;> interval_cases c <;> simp [exGap, exUp, amp, ND.dim, Finset.sum_range_succ]
  generalize psi (exGap.data.set 2 exGapB) = g at h1
  generalize psi (exGap.data.set 0 exUp) = f at h2
  unfold pairing hamAct gateAct
  simp [List.replicate, sumIdx_cons, sumIdx_nil, Finset.sum_range_succ, h1, h2, exHop]

/-- For the state `|0⟩ ⊗ (|00⟩ + |11⟩)` and a real symmetric term on the first two sites `F1(0, 2)` is zero where the matrix element is one. -/
theorem exGap_wrong {chol inv null : ND ℂ → Py (ND ℂ)} (hchol : CholTriLaw chol) (hinv : InvLaw inv) (hnull : NullLaw null) (O : SetOrder) :
    ∃ ls rs, exGap.getEnvs = .ok (ls, rs) ∧ ∃ (X Y G : ND ℂ) (ki kj : ℕ), X.shape = [ki, 1] ∧ Y.shape = [kj, 1] ∧ G.shape = [ki, 1, kj, 1] ∧
      FMPS.extractSite chol inv null O exGap ls rs [exUp, zerosND [2, 1, 2], exGapB] 0 = .ok X.flat ∧
      FMPS.extractSite chol inv null O exGap ls rs [exUp, zerosND [2, 1, 2], exGapB] 2 = .ok Y.flat ∧
      FMPS.f1 chol inv null O exGap 0 2 [exHop] = .ok G ∧
      ∑ a ∈ range ki, ∑ b ∈ range 1, ∑ c ∈ range kj, ∑ e ∈ range 1, star (X.val [a, b]) * Y.val [c, e] * G.val [a, b, c, e] = 0 ∧
      pairing (List.replicate 3 2) (psi (exGap.data.set 0 exUp)) (hamAct 2 [exHop] (psi (exGap.data.set 2 exGapB))) = 1 := by
  obtain ⟨ls, rs, E, e, eE, pr, vL, l, r, p, q, k, lam, rho, hnl, epr, c⟩ := f2Ctx_exists hchol hinv hnull O (by omega) exGap_holds exGap_full
  generalize (pairing (List.replicate 3 2) (psi exGap.data) (psi exGap.data)).re = N at c
  have hl := c.len
  have s0 := c.site 0 (by omega)
  have s1 := c.site 1 (by omega)
  have s2 := c.site 2 (by omega)
  obtain ⟨p0, q0⟩ : p 0 = 1 ∧ q 0 = 1 := by simpa using s0.hA.symm.trans (show exGap.data[0].shape = [2, 1, 1] from rfl)
  obtain ⟨p1, q1⟩ : p 1 = 1 ∧ q 1 = 2 := by simpa using s1.hA.symm.trans (show exGap.data[1].shape = [2, 1, 2] from rfl)
  obtain ⟨p2, q2⟩ : p 2 = 2 ∧ q 2 = 1 := by simpa using s2.hA.symm.trans (show exGap.data[2].shape = [2, 2, 1] from rfl)
  obtain ⟨G, g1, g2, g3⟩ := c.f1sorted O (i := 0) (j := 2) (by omega) (by omega) (H := [exHop]) (by simp) (by simp [exHop])
  obtain ⟨X, x1, x2, x3⟩ := s0.extract hchol O (hnl 0 (by omega)) (dA := [exUp, zerosND [2, 1, 2], exGapB]) (pyGet_ok (by simp)) (by rw [p0, q0]; rfl)
  obtain ⟨Y, y1, y2, y3⟩ := s2.extract hchol O (hnl 2 (by omega)) (dA := [exUp, zerosND [2, 1, 2], exGapB]) (pyGet_ok (by simp)) (by rw [p2, q2]; rfl)
  rw [q0] at x2 x3
  rw [q2] at y2 y3
  rw [q0, q2] at g2 g3
  refine ⟨ls, rs, e, X, Y, G, k 0, k 2, x2, y2, g2, x1, y1, ?_, ?_, ?_⟩
  · unfold FMPS.f1
    rw [e, ok_bind]
    simp only
    rw [epr, ok_bind, eE, ok_bind, List.map_map]
    unfold FMPS.f1With
    rw [if_neg (by omega)]
    exact g1
  · -- the tensor at the last site as a combination of units
    have hY : ∀ s < 2, ∀ al < 2, exGapB.val [s, al, 0] = ∑ a ∈ range (k 2), Y.val [a, 0] * (c.unit 2 a 0).val [s, al, 0] := by
      intro s hs al hal
      have h1 := s2.tensor_coord (W := exGapB) (by rw [p2, q2]; exact exGapB_gauge) hs (by rw [p2]; exact hal) (by rw [q2]; omega : 0 < q 2)
      rw [c.unit_sum _ (by rw [q2]; omega), q2] at h1
      rw [← h1]
      refine Finset.sum_congr rfl fun a ha => ?_
      rw [Finset.sum_range_one]
      congr 1
      exact (y3 a (Finset.mem_range.1 ha) 0 (by omega)).symm
    have hR : ∀ c1 < k 2, mixR ((List.replicate 3 2).drop 2) (exGap.data.drop 2) (tailV exGap.data 2 2 (c.unit 2 c1 0)) 0 1 = (c.unit 2 c1 0).val [1, 0, 0] := by
      intro c1 _
      simp [mixR, tailV, exGap, amp, F2Ctx.unit, tanUnit, ND.dim, q2, Finset.sum_range_succ]
    have hG : ∀ a < k 0, ∀ c1 < k 2, G.val [a, 0, c1, 0] = (((Real.sqrt N : ℝ) : ℂ) * (((Real.sqrt (lam 0 0) : ℝ) : ℂ) * star ((vL 0).val [1, 0, a]) *
        (((Real.sqrt (rho 0 0))⁻¹ : ℝ) : ℂ))) * (c.unit 2 c1 0).val [1, 0, 0] := by
      intro a ha c1 hc1
      rw [g3 a ha 0 (by omega) c1 hc1 0 (by omega), ← hR c1 hc1]
      simp only [List.length_singleton, Finset.sum_range_one, F2Ctx.f1Coeff]
      generalize mixR ((List.replicate 3 2).drop 2) (exGap.data.drop 2) (tailV exGap.data 2 2 (c.unit 2 c1 0)) = R
      simp [f1Gap, p0, q0, q1, Finset.sum_range_succ, hAA, exGap, matT, exHop]
      ring
    calc _ = ∑ a ∈ range (k 0), star (X.val [a, 0]) * (((Real.sqrt N : ℝ) : ℂ) * (((Real.sqrt (lam 0 0) : ℝ) : ℂ) * star ((vL 0).val [1, 0, a]) *
        (((Real.sqrt (rho 0 0))⁻¹ : ℝ) : ℂ))) * exGapB.val [1, 0, 0] := by
          refine Finset.sum_congr rfl fun a ha => ?_
          rw [Finset.sum_range_one, hY 1 (by omega) 0 (by omega), Finset.mul_sum]
          refine Finset.sum_congr rfl fun c1 hc1 => ?_
          rw [Finset.sum_range_one, hG a (Finset.mem_range.1 ha) c1 (Finset.mem_range.1 hc1)]
          ring
      _ = 0 := by simp [exGapB]
  · exact exGap_element

end Xmps
