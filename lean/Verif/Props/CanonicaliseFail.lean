import Verif.Props.Canonicalise

/-!
# What `left_canonicalise` does if `eig` only meets its documentation

`numpy.linalg.eig` returns the eigenvalues in no particular order, and the rank reduction of
`left_canonicalise` keeps the *first* `rank` of them.  For a chain with a redundant bond the zero
eigenvalue may come first, and then the non-zero one is cut off: the method returns the zero vector.
-/

namespace Xmps

open Finset Xmps.Spec

open Classical in
/-- a routine that returns `out` on the array `M` and otherwise what `f` returns -/
noncomputable def override {α : Type} (f : ND ℂ → Py α) (M : ND ℂ) (out : α) : ND ℂ → Py α :=
  fun A => if M ≈ A then .ok out else f A

theorem override_hit {α : Type} {f : ND ℂ → Py α} {M A : ND ℂ} {out : α} (h : M ≈ A) : override f M out A = .ok out := if_pos h

theorem override_miss {α : Type} {f : ND ℂ → Py α} {M A : ND ℂ} {out : α} (h : M.shape ≠ A.shape) : override f M out A = f A :=
  if_neg fun e => h (ND.eqv_def.1 e).1

theorem svdLaw_override {svd : Svd} (h : SVDLaw svd) {M U V : ND ℂ} {S : List ℝ} {m n : ℕ} (hM : M.shape = [m, n])
    (hU : U.shape = [m, min m n]) (hS : S.length = min m n) (hV : V.shape = [min m n, n]) (hoU : ColsOrtho U) (hoV : RowsOrtho V)
    (hS0 : ∀ x ∈ S, 0 ≤ x) (hSd : S.Pairwise (· ≥ ·))
    (hv : ∀ i < m, ∀ j < n, M.val [i, j] = ∑ k ∈ range (min m n), U.val [i, k] * (S.getD k 0 : ℝ) * V.val [k, j]) :
    SVDLaw (override svd M (U, S, V)) := by
  intro A m' n' hA hm hn
  by_cases hMA : M ≈ A
  · have hsh := (ND.eqv_def.1 hMA).1
    rw [hM, hA] at hsh
    obtain ⟨rfl, rfl⟩ : m = m' ∧ n = n' := by simpa using hsh
    refine ⟨U, S, V, override_hit hMA, hU, hS, hV, hoU, hoV, hS0, hSd, fun i hi j hj => ?_⟩
    rw [← hv i hi j hj]
    exact ((ND.eqv_def.1 hMA).2 _ (by rw [hM]; exact InB_cons.2 ⟨hi, InB_cons.2 ⟨hj, InB_nil⟩⟩)).symm
  · obtain ⟨U', S', V', e, rest⟩ := h A m' n' hA hm hn
    exact ⟨U', S', V', by rw [← e]; exact if_neg hMA, rest⟩

theorem eigLaw_override {eig : Eig} (h : EigLaw eig) {M V : ND ℂ} {w : List ℂ} {n : ℕ} (hM : M.shape = [n, n])
    (hw : w.length = n) (hV : V.shape = [n, n])
    (h1 : ∀ k < n, ∑ i ∈ range n, star (V.val [i, k]) * V.val [i, k] = 1)
    (h2 : ∀ c : ℕ → ℂ, (∀ i < n, ∑ k ∈ range n, V.val [i, k] * c k = 0) → ∀ k < n, c k = 0)
    (h3 : ∀ i < n, ∀ k < n, ∑ j ∈ range n, M.val [i, j] * V.val [j, k] = V.val [i, k] * w.getD k 0) :
    EigLaw (override eig M (w, V)) := by
  intro A n' hA hn hps
  by_cases hMA : M ≈ A
  · have hsh := (ND.eqv_def.1 hMA).1
    rw [hM, hA] at hsh
    obtain rfl : n = n' := by simpa using hsh
    refine ⟨w, V, override_hit hMA, hw, hV, h1, h2, fun i hi k hk => ?_⟩
    rw [← h3 i hi k hk]
    refine Finset.sum_congr rfl fun j hj => ?_
    rw [(ND.eqv_def.1 hMA).2 [i, j] (by rw [hM]; exact InB_cons.2 ⟨hi, InB_cons.2 ⟨by simpa using hj, InB_nil⟩⟩)]
  · obtain ⟨w', V', e, rest⟩ := h A n' hA hn hps
    exact ⟨w', V', by rw [← e]; exact if_neg hMA, rest⟩

theorem eqv2 {A B : ND ℂ} {m n : ℕ} (hA : A.shape = [m, n]) (hB : B.shape = [m, n])
    (h : ∀ i < m, ∀ j < n, A.val [i, j] = B.val [i, j]) : A ≈ B := by
  refine ND.eqv_def.2 ⟨by rw [hA, hB], ?_⟩
  rw [hA]
  intro idx hi
  match idx, hi with
  | [i, j], hi => exact h i hi.1 j hi.2.1

/-- `|1⟩|0⟩` written with a redundant bond: `A[s,0,c] = δ_{sc}`, `B[s,a,0] = δ_{a1} δ_{s0}`. -/
def redundant : FMPS ℂ :=
  ⟨[⟨[2, 1, 2], fun | [s, _, c] => if s = c then 1 else 0 | _ => 0⟩,
    ⟨[2, 2, 1], fun | [s, a, _] => if s = 0 ∧ a = 1 then 1 else 0 | _ => 0⟩], 2, 2, 2, false, false, none, none⟩

theorem redundant_holds : redundant.Holds [2, 2] := ⟨⟨2, rfl, 1, rfl, rfl⟩, by simp, rfl, rfl⟩

theorem redundant_psi : psi redundant.data [1, 0] = 1 := by
  simp [redundant, psi, ND.dim, pathProd, Finset.sum_range_succ]

/-- the column of the second tensor -/
def redCol : ND ℂ := ⟨[4, 1], fun | [i, _] => if i = 1 then 1 else 0 | _ => 0⟩

theorem eye_ortho (n : ℕ) : ColsOrtho (eyeND n : ND ℂ) ∧ RowsOrtho (eyeND n : ND ℂ) := by
  constructor
  · intro k hk k' hk'
    simp [eyeND, ND.dim] at hk hk' ⊢
    simp [hk', eq_comm]
  · intro k hk k' hk'
    simp [eyeND, ND.dim] at hk hk' ⊢
    omega

/-- an SVD routine that satisfies its contract and is the obvious one on the matrices met below -/
theorem badSvd_law {svd : Svd} (h : SVDLaw svd) :
    SVDLaw (override (override svd (eyeND 2) (eyeND 2, [1, 1], eyeND 2)) redCol (redCol, [1], eyeND 1)) := by
  refine svdLaw_override (svdLaw_override h (m := 2) (n := 2) rfl rfl rfl rfl (eye_ortho 2).1 (eye_ortho 2).2 (by simp) (by simp) ?_)
    (m := 4) (n := 1) rfl rfl rfl rfl ?_ (eye_ortho 1).2 (by simp) (by simp) ?_
  · intro i hi j hj
    have hi' : i = 0 ∨ i = 1 := by omega
    have hj' : j = 0 ∨ j = 1 := by omega
    rcases hi' with rfl | rfl <;> rcases hj' with rfl | rfl <;> simp [eyeND, Finset.sum_range_succ]
  · intro k hk k' hk'
    simp [redCol, ND.dim] at hk hk' ⊢
    simp [hk, hk']
  · intro i hi j hj
    obtain rfl : j = 0 := by omega
    simp [eyeND, redCol]

theorem badEig_law {eig : Eig} (h : EigLaw eig) :
    EigLaw (override (override eig (diagND [0, 1]) ([0, 1], eyeND 2)) (eyeND 1) ([1], eyeND 1)) := by
  refine eigLaw_override (eigLaw_override h (n := 2) rfl rfl rfl ?_ ?_ ?_) (n := 1) rfl rfl rfl ?_ ?_ ?_
  · intro k hk
    simp [eyeND, hk]
  · intro c hc k hk
    have := hc k hk
    simpa [eyeND, hk] using this
  · intro i hi k hk
    have hi' : i = 0 ∨ i = 1 := by omega
    have hk' : k = 0 ∨ k = 1 := by omega
    rcases hi' with rfl | rfl <;> rcases hk' with rfl | rfl <;> simp [eyeND, diagND, Finset.sum_range_succ]
  · intro k hk
    obtain rfl : k = 0 := by omega
    simp [eyeND]
  · intro c hc k hk
    obtain rfl : k = 0 := by omega
    have := hc 0 hk
    simpa [eyeND] using this
  · intro i hi k hk
    obtain rfl : i = 0 := by omega
    obtain rfl : k = 0 := by omega
    simp [eyeND]

theorem diagRank_ones (n : ℕ) : diagRank (diagC (List.replicate n 1)) = n := by
  unfold diagRank
  have e : min ((diagC (List.replicate n 1)).dim 0) ((diagC (List.replicate n 1)).dim 1) = n := by simp [ND.dim, diagC_shape]
  rw [e, Finset.filter_true_of_mem]
  · simp
  · intro i hi
    have hi : i < n := by simpa using hi
    rw [diagC_val, if_pos rfl]
    simp [hi]

theorem diagRank_bad : diagRank (diagND [(0 : ℂ), 1]) = 1 := by
  unfold diagRank
  have e : min ((diagND [(0 : ℂ), 1]).dim 0) ((diagND [(0 : ℂ), 1]).dim 1) = 2 := by simp [ND.dim, diagND]
  have : (range 2).filter (fun i => (diagND [(0 : ℂ), 1]).val [i, i] ≠ 0) = {1} := by
    ext i
    simp only [Finset.mem_filter, mem_range, mem_singleton]
    constructor
    · rintro ⟨h1, h2⟩
      have : i = 0 ∨ i = 1 := by omega
      rcases this with rfl | rfl
      · simp [diagND] at h2
      · rfl
    · rintro rfl
      simp [diagND]
  rw [e]
  convert congrArg Finset.card this using 2
  simp

/-- `left_canonicalise()` of `|1⟩|0⟩` returns the zero vector, for decompositions that meet their
documented contracts. -/
theorem FMPS.leftCanonicalise_not_preserved : ∃ svd : Svd, ∃ eig : Eig, SVDLaw svd ∧ EigLaw eig ∧
    ∃ y Ls, redundant.leftCanonicalise svd eig = .ok (y, some Ls) ∧ y.Holds [2, 2] ∧
      ∀ s, InB [2, 2] s → psi y.data s = 0 := by
  obtain ⟨svd0, hsvd0⟩ := svdLaw_exists
  obtain ⟨eig0, heig0⟩ := eigLaw_exists
  refine ⟨_, _, badSvd_law hsvd0, badEig_law heig0, ?_⟩
  set svd := override (override svd0 (eyeND 2) (eyeND 2, [1, 1], eyeND 2)) redCol (redCol, [1], eyeND 1) with hsvd
  set eig := override (override eig0 (diagND [0, 1]) ([0, 1], eyeND 2)) (eyeND 1) ([1], eyeND 1) with heig
  -- first site
  have step0 : ∃ A B, redundant.leftSvdStep svd none true 0 = .ok { redundant with data := [A, B] } ∧
      A.shape = [2, 1, 2] ∧ (∀ s a c, a < 1 → A.val [s, a, c] = if s = c then 1 else 0) ∧
      B.shape = [2, 2, 1] ∧ ∀ s, ∀ a < 2, ∀ c, B.val [s, a, c] = if s = 0 ∧ a = 1 then 1 else 0 := by
    obtain ⟨M, e1, hM, hMv⟩ := catRows_ok (A := redundant.data[0]) (d := 2) (l := 1) (r := 2) rfl (by omega)
    have e2 : svd M = .ok (eyeND 2, [1, 1], eyeND 2) := by
      rw [hsvd, override_miss (by rw [hM]; decide)]
      refine override_hit (eqv2 rfl hM fun i hi j hj => ?_)
      have := hMv i 0 j (by omega)
      simp only [Nat.mul_one, Nat.add_zero] at this
      rw [this]
      simp [eyeND, redundant]
    obtain ⟨A, e3, hA, hAv⟩ := chopRows_ok (M := (eyeND 2 : ND ℂ)) (d := 2) (l := 1) (n := 2) rfl (by omega)
    obtain ⟨k, hk, e4, -, -, hk'⟩ := truncateA_ok hA (diagC_shape [1, 1]) (V := eyeND 2) (r := 2) rfl none true
    have hk2 : k = 2 := by
      rw [hk' rfl rfl]
      have := diagRank_ones 2
      rw [show diagC [1, 1] = diagC (List.replicate 2 1) from rfl, this]
      rfl
    subst hk2
    obtain ⟨SV, e5, hSV, hSVv⟩ := ND.matmul22 (A := ⟨[2, 2], (diagC [1, 1]).val⟩) (B := (⟨[2, 2], (eyeND 2).val⟩ : ND ℂ)) rfl rfl
    obtain ⟨t, e6, ht, htv⟩ := ND.matmul23 hSV (B := redundant.data[1]) (b := 2) (n := 1) rfl
    refine ⟨⟨[2, 1, 2], A.val⟩, t, ?_, rfl, ?_, ht, ?_⟩
    · unfold FMPS.leftSvdStep
      have e0 : pyGet redundant.data 0 = .ok redundant.data[0] := rfl
      rw [e0, ok_bind, e1, ok_bind, e2, ok_bind]
      simp only
      rw [show redundant.d = 2 from rfl, e3, ok_bind]
      simp only [e4]
      rw [e5, ok_bind, if_pos (by simp [redundant])]
      have e7 : pyGet (redundant.data.set 0 ⟨[2, 1, 2], A.val⟩) (0 + 1) = .ok redundant.data[1] := rfl
      rw [e7, ok_bind, e6, ok_bind]
      rfl
    · intro s a c ha
      obtain rfl : a = 0 := by omega
      simp only [hAv]
      simp [eyeND]
    · intro s a ha c
      rw [htv]
      have hSV' : ∀ e < 2, SV.val [a, e] = if a = e then 1 else 0 := by
        intro e he
        rw [hSVv]
        simp only [diagC_val]
        have h1 : a = 0 ∨ a = 1 := by omega
        have h2 : e = 0 ∨ e = 1 := by omega
        rcases h1 with rfl | rfl <;> rcases h2 with rfl | rfl <;> simp [eyeND, Finset.sum_range_succ]
      rw [Finset.sum_congr rfl fun e he => by rw [hSV' e (by simpa using he), ite_mul, one_mul, zero_mul]]
      rw [Finset.sum_ite_eq, if_pos (by simpa using ha)]
      rfl
  obtain ⟨A, B, hs0, hA, hAv, hB, hBv⟩ := step0
  -- second site
  have step1 : ∃ B' R, ({ redundant with data := [A, B] } : FMPS ℂ).leftSvdStep svd none true 1 =
        .ok { redundant with data := [A, B'], norm_ := some R } ∧
      B'.shape = [2, 2, 1] ∧ ∀ s < 2, ∀ a < 2, ∀ c < 1, B'.val [s, a, c] = if s = 0 ∧ a = 1 then 1 else 0 := by
    obtain ⟨M, e1, hM, hMv⟩ := catRows_ok hB (by omega)
    have e2 : svd M = .ok (redCol, [1], eyeND 1) := by
      refine override_hit (eqv2 rfl hM fun i hi j hj => ?_)
      have := hMv (i / 2) (i % 2) j (Nat.mod_lt _ (by omega))
      rw [Nat.div_add_mod'] at this
      rw [this, hBv _ _ (Nat.mod_lt _ (by omega))]
      have : i = 0 ∨ i = 1 ∨ i = 2 ∨ i = 3 := by omega
      rcases this with rfl | rfl | rfl | rfl <;> simp [redCol]
    obtain ⟨B', e3, hB', hB'v⟩ := chopRows_ok (M := redCol) (d := 2) (l := 2) (n := 1) rfl (by omega)
    obtain ⟨k, hk, e4, -, -, hk'⟩ := truncateA_ok hB' (diagC_shape [1]) (V := eyeND 1) (r := 1) rfl none true
    have hk2 : k = 1 := by
      rw [hk' rfl rfl]
      have := diagRank_ones 1
      rw [show diagC [1] = diagC (List.replicate 1 1) from rfl, this]
      rfl
    subst hk2
    obtain ⟨SV, e5, hSV, hSVv⟩ := ND.matmul22 (A := ⟨[1, 1], (diagC [1]).val⟩) (B := (⟨[1, 1], (eyeND 1).val⟩ : ND ℂ)) rfl rfl
    refine ⟨⟨[2, 2, 1], B'.val⟩, SV, ?_, rfl, ?_⟩
    · unfold FMPS.leftSvdStep
      have e0 : pyGet [A, B] 1 = .ok B := rfl
      rw [e0, ok_bind, e1, ok_bind, e2, ok_bind]
      simp only
      rw [show redundant.d = 2 from rfl, e3, ok_bind]
      simp only [e4]
      rw [e5, ok_bind, if_neg (by simp)]
      rfl
    · intro s hs a ha c hc
      simp only [hB'v]
      obtain rfl : c = 0 := by omega
      have h1 : s = 0 ∨ s = 1 := by omega
      have h2 : a = 0 ∨ a = 1 := by omega
      rcases h1 with rfl | rfl <;> rcases h2 with rfl | rfl <;> simp [redCol]
  obtain ⟨B', R, hs1, hB', hB'v⟩ := step1
  -- one step of the sweep back
  have back1 : ∃ B2, FMPS.backLeftStep eig B' (eyeND 1) (eyeND 1) = .ok (B2, eyeND 2, diagND [0, 1]) ∧ B2.shape = [2, 2, 1] ∧
      ∀ s < 2, ∀ a < 2, ∀ c < 1, B2.val [s, a, c] = if s = 0 ∧ a = 1 then 1 else 0 := by
    obtain ⟨t1, e1, ht1, hv1⟩ := ND.matmul32 hB' (B := (eyeND 1 : ND ℂ)) (n := 1) rfl
    obtain ⟨t2, e2, ht2, hv2⟩ := ND.matmul32 ht1 (B := (eyeND 1 : ND ℂ)) (n := 1) rfl
    obtain ⟨hVh, hVhv⟩ := hc2 (A := (eyeND 1 : ND ℂ)) (m := 1) (n := 1) rfl
    obtain ⟨t3, e3, ht3, hv3⟩ := ND.matmul32 ht2 hVh
    obtain ⟨hAh, hAhv⟩ := hc3 hB'
    obtain ⟨t4, M, e4, e5, hM, hMv⟩ := env_trace ht3 hAh
    have e6 : eig M = .ok ([0, 1], eyeND 2) := by
      rw [heig, override_miss (by rw [hM]; decide)]
      refine override_hit (eqv2 (m := 2) (n := 2) rfl hM fun i hi j hj => ?_)
      rw [hMv]
      simp only [Finset.sum_range_one, hAhv, hv3, hv2, hv1, hVhv, Finset.sum_range_succ, Finset.sum_range_zero, zero_add]
      rw [hB'v 0 (by omega) i hi 0 (by omega), hB'v 1 (by omega) i hi 0 (by omega), hB'v 0 (by omega) j hj 0 (by omega),
        hB'v 1 (by omega) j hj 0 (by omega)]
      have h1 : i = 0 ∨ i = 1 := by omega
      have h2 : j = 0 ∨ j = 1 := by omega
      rcases h1 with rfl | rfl <;> rcases h2 with rfl | rfl <;> simp [diagND, eyeND]
    obtain ⟨hWh, hWhv⟩ := hc2 (A := (eyeND 2 : ND ℂ)) (m := 2) (n := 2) rfl
    obtain ⟨u, u', B2, e7, e8, e9, hB2, hB2v⟩ := gauge_eval hWh hB' (V := (eyeND 1 : ND ℂ)) (m := 1) rfl
    refine ⟨B2, ?_, hB2, ?_⟩
    · unfold FMPS.backLeftStep
      rw [e1, ok_bind, e2, ok_bind, e3, ok_bind, e4, ok_bind, e5, ok_bind, e6, ok_bind]
      simp only
      rw [e7, ok_bind, e8, ok_bind, e9, ok_bind]
    · intro s hs a ha c hc
      obtain rfl : c = 0 := by omega
      rw [hB2v]
      simp only [Finset.sum_range_one, hWhv, Finset.sum_range_succ, Finset.sum_range_zero, zero_add]
      rw [hB'v s hs 0 (by omega) 0 (by omega), hB'v s hs 1 (by omega) 0 (by omega)]
      have h2 : a = 0 ∨ a = 1 := by omega
      rcases h2 with rfl | rfl <;> simp [eyeND]
  obtain ⟨B2, hb1, hB2, hB2v⟩ := back1
  have back0 : ∃ A2, FMPS.backLeftStep eig A (eyeND 2) (diagND [0, 1]) = .ok (A2, eyeND 1, diagND [1]) ∧ A2.shape = [2, 1, 2] := by
    obtain ⟨t1, e1, ht1, hv1⟩ := ND.matmul32 hA (B := (eyeND 2 : ND ℂ)) (n := 2) rfl
    obtain ⟨t2, e2, ht2, hv2⟩ := ND.matmul32 ht1 (B := (diagND [0, 1] : ND ℂ)) (n := 2) rfl
    obtain ⟨hVh, hVhv⟩ := hc2 (A := (eyeND 2 : ND ℂ)) (m := 2) (n := 2) rfl
    obtain ⟨t3, e3, ht3, hv3⟩ := ND.matmul32 ht2 hVh
    obtain ⟨hAh, hAhv⟩ := hc3 hA
    obtain ⟨t4, M, e4, e5, hM, hMv⟩ := env_trace ht3 hAh
    have e6 : eig M = .ok ([1], eyeND 1) := by
      refine override_hit (eqv2 rfl hM fun i hi j hj => ?_)
      obtain rfl : i = 0 := by omega
      obtain rfl : j = 0 := by omega
      rw [hMv]
      simp only [hAhv, hv3, hv2, hv1, hVhv, Finset.sum_range_succ, Finset.sum_range_zero, zero_add, hAv _ 0 _ (by omega)]
      simp [diagND, eyeND]
    obtain ⟨hWh, hWhv⟩ := hc2 (A := (eyeND 1 : ND ℂ)) (m := 1) (n := 1) rfl
    obtain ⟨u, u', A2, e7, e8, e9, hA2, hA2v⟩ := gauge_eval hWh hA (V := (eyeND 2 : ND ℂ)) (m := 2) rfl
    refine ⟨A2, ?_, hA2⟩
    unfold FMPS.backLeftStep
    rw [e1, ok_bind, e2, ok_bind, e3, ok_bind, e4, ok_bind, e5, ok_bind, e6, ok_bind]
    simp only
    rw [e7, ok_bind, e8, ok_bind, e9, ok_bind]
  obtain ⟨A2, hb0, hA2⟩ := back0
  -- the rank reduction
  obtain ⟨data1, L0, p0, hf, hL0⟩ := projStep_zero (data := [A2, B2]) (Z := B2) (A0 := A2) (L0 := diagND [1])
    (Ls := [diagND [0, 1], FMPS.onesLike (diagND [1])]) (by simp [pyGet]) hB2 (by simp) hA2 (isDiag_diagND [1])
  match data1, hf with
  | [A3, B3], hf =>
    obtain ⟨hA23, hf⟩ := List.forall₂_cons.1 hf
    obtain ⟨hB23, _⟩ := List.forall₂_cons.1 hf
    have hA3 : A3.shape = [2, 1, 2] := by rw [← (ND.eqv_def.1 hA23).1, hA2]
    have hB3 : B3.shape = [2, 2, 1] := by rw [← (ND.eqv_def.1 hB23).1, hB2]
    have hrk : rk [0, 1] = 1 := diagRank_bad
    obtain ⟨A4, B4, L1, p1, hA4, -, hB4, hB4v, -⟩ := projStep_mid (pre := []) (As := []) (Lpre := [L0])
      (Ls := [FMPS.onesLike (diagND [1])]) rfl (isDiag_diagND [0, 1]) hA3 hB3 (by rw [hrk]; simp)
    rw [hrk] at hA4 hB4 hB4v
    refine ⟨{ redundant with data := [A4, B4], norm_ := some R, canonical := true, orthogonal := true, oc := some 2 },
      [L0, L1, FMPS.onesLike (diagND [1])], ?_, ⟨⟨1, hA4, 1, hB4, rfl⟩, by simp, rfl, rfl⟩, ?_⟩
    · unfold FMPS.leftCanonicalise
      have hfold : (List.range (redundant.capD none).data.length).foldlM (FMPS.leftSvdStep svd none true) (redundant.capD none) =
          .ok { redundant with data := [A, B'], norm_ := some R } := by
        rw [show (redundant.capD none).data.length = 2 from rfl]
        rw [show List.range 2 = [0, 1] from rfl, List.foldlM_cons, show redundant.capD none = redundant from rfl, hs0, ok_bind,
          List.foldlM_cons, hs1, ok_bind]
        rfl
      have hback : FMPS.backLeft eig [A, B'] = .ok ([A2, B2], eyeND 1, diagND [1], [diagND [1], diagND [0, 1]]) := by
        simp only [FMPS.backLeft, ok_bind, hb1, hb0]
      have hproj : FMPS.project [A2, B2] [diagND [1], diagND [0, 1], FMPS.onesLike (diagND [1])] =
          .ok ([A4, B4], [L0, L1, FMPS.onesLike (diagND [1])]) := by
        unfold FMPS.project
        rw [show List.range [A2, B2].length = [0, 1] from rfl, List.foldlM_cons, p0, ok_bind, List.foldlM_cons]
        have p1' : FMPS.projStep ([A3, B3], [L0, diagND [0, 1], FMPS.onesLike (diagND [1])]) 1 =
          .ok ([A4, B4], [L0, L1, FMPS.onesLike (diagND [1])]) := p1
        rw [p1', ok_bind]
        rfl
      simp only [hfold, ok_bind, Bool.and_self, if_true, hback, List.cons_append, List.nil_append, hproj]
      rfl
    · intro s hs
      match s, hs with
      | [t, u], hs =>
        have hu : u < 2 := hs.2.1
        have hch : MpsChain [2, 2] [A4, B4] 1 1 := ⟨1, hA4, 1, hB4, rfl⟩
        show psi [A4, B4] [t, u] = 0
        rw [psi_eq_amp (ss := [t, u]) hch (by simp) rfl]
        simp only [amp_cons, dim2 hA4, dim2 hB4, Finset.sum_range_one]
        rw [hB4v u 0 (by omega) 0, eqv_val3 hB23 hB2 hu (by omega) (by omega), hB2v u hu 0 (by omega) 0 (by omega)]
        simp

/-- the same input under the stronger contract: the state is kept -/
example {svd : Svd} {eig : Eig} (hsvd : SVDLaw svd) (heig : EigOrthoLaw eig) :=
  FMPS.leftCanonicalise_spec hsvd heig redundant_holds (by simp [redundant])
    (by
      intro A hA n hn
      simp only [redundant, List.mem_cons, List.not_mem_nil, or_false] at hA
      rcases hA with rfl | rfl <;> simp at hn <;> omega) none (by simp)
    (fun _ => ⟨[1, 0], by simp [InB], by rw [redundant_psi]; simp⟩)

end Xmps
