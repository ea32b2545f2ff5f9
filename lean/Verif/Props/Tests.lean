import Verif.Model.Tests
import Verif.Lemmas.CanonBack
import Verif.Spec.Env
import Verif.Props.Canonicalise

/-!
# Theorems about `tests.py` (C45)
-/

namespace Xmps

open Finset Spec Xmps.Tests

/-- `Σ_s A_s A_s†` -/
def Spec.gramRight (A : ND ℂ) (i j : ℕ) : ℂ := ∑ s ∈ range (A.dim 0), ∑ c ∈ range (A.dim 2), A.val [s, i, c] * star (A.val [s, j, c])

/-- `Σ_s A_s† A_s` -/
def Spec.gramLeft (A : ND ℂ) (i j : ℕ) : ℂ := ∑ s ∈ range (A.dim 0), ∑ a ∈ range (A.dim 1), star (A.val [s, a, i]) * A.val [s, a, j]

/-- the distance of the `n × n` matrix `f` from the identity, entry by entry -/
noncomputable def Spec.offId (f : ℕ → ℕ → ℂ) (i j : ℕ) : ℝ := ‖f i j - if i = j then 1 else 0‖

theorem tensordot_33 {A B : ND ℂ} {d l m r : ℕ} (hA : A.shape = [d, l, m]) (hB : B.shape = [d, m, r]) :
    ∃ R, A.tensordot B [0, 2] [0, 1] = .ok R ∧ R.shape = [l, r] ∧
      ∀ i j, R.val [i, j] = ∑ s ∈ range d, ∑ c ∈ range m, A.val [s, i, c] * B.val [s, c, j] := by
  refine ⟨A.tensordotR B [0, 2] [0, 1], by simp [ND.tensordot, ND.rank, ND.dim, hA, hB], ?_, ?_⟩
  · simp [ND.tensordotR, ND.transposeR, ND.rank, ND.others, ND.dim, hA, hB, List.range_succ]
  · intro i j
    simp [ND.tensordotR, ND.transposeR, ND.rank, ND.others, ND.dim, hA, hB, List.range_succ]

theorem defect_ok {x : ND ℂ} {n : ℕ} (hx : x.shape = [n, n]) (z : ℝ) : ∃ t, defect z x = .ok t ∧ 0 ≤ t ∧
    (0 ≤ z → z ≤ 1 → (∀ i < n, ∀ j < n, x.val [i, j] = if i = j then 1 else 0) → t = 0) ∧
    (z ≤ 1 / 2 → (∀ i < n, ∀ j < n, offId (fun i j => x.val [i, j]) i j < z) → t = 0) ∧
    ∀ c, c < 1 → z ≤ 1 → t ≤ c → ∀ i < n, ∀ j < n, offId (fun i j => x.val [i, j]) i j < z ∨ offId (fun i j => x.val [i, j]) i j ≤ c := by
  classical
  have hn : (clip z x).shape.foldl max 0 = n := by simp [clip, hx]
  set f : ℕ → ℕ → ℝ := fun i j => ‖((if i = j then 1 else 0) - (clip z x).val [i, j] : ℂ)‖ with hf
  have hval : defect z x = .ok (∑ i ∈ range n, ∑ j ∈ range n, if f i j < z then 0 else f i j) := by
    unfold defect
    simp only [hn]
    rw [if_pos (by simp [clip, hx])]
  have hpos : ∀ i j, 0 ≤ if f i j < z then 0 else f i j := by
    intro i j
    split
    · exact le_rfl
    · exact norm_nonneg _
  refine ⟨_, hval, Finset.sum_nonneg fun i _ => Finset.sum_nonneg fun j _ => hpos i j, ?_, ?_, ?_⟩
  · intro hz hz1 h
    refine Finset.sum_eq_zero fun i hi => Finset.sum_eq_zero fun j hj => ?_
    have e : f i j = 0 := by
      simp only [hf, clip]
      rw [h i (Finset.mem_range.1 hi) j (Finset.mem_range.1 hj)]
      by_cases e : i = j
      · simp [e, not_lt.2 hz1]
      · simp [e]
    rw [e]
    simp
  · intro hz h
    refine Finset.sum_eq_zero fun i hi => Finset.sum_eq_zero fun j hj => ?_
    rw [if_pos]
    have hh := h i (Finset.mem_range.1 hi) j (Finset.mem_range.1 hj)
    unfold offId at hh
    simp only [hf, clip]
    by_cases e : i = j
    · simp only [e, if_true] at hh ⊢
      rw [if_neg]
      · rwa [norm_sub_rev]
      · intro h2
        have := norm_sub_norm_le (1 : ℂ) (x.val [j, j])
        rw [norm_one, norm_sub_rev] at this
        linarith
    · simp only [if_neg e, sub_zero, zero_sub, norm_neg] at hh ⊢
      rw [if_pos hh, norm_zero]
      exact (norm_nonneg _).trans_lt hh
  · intro c hc hz ht i hi j hj
    have hle : (if f i j < z then 0 else f i j) ≤ c := by
      refine le_trans ?_ ht
      refine le_trans ?_ (Finset.single_le_sum (f := fun i => ∑ j ∈ range n, if f i j < z then 0 else f i j)
        (fun i _ => Finset.sum_nonneg fun j _ => hpos i j) (Finset.mem_range.2 hi))
      exact Finset.single_le_sum (f := fun j => if f i j < z then 0 else f i j) (fun j _ => hpos i j) (Finset.mem_range.2 hj)
    unfold offId
    by_cases e : i = j
    · subst e
      simp only [if_true]
      have hfi : f i i = ‖1 - (clip z x).val [i, i]‖ := by simp [hf]
      rw [norm_sub_rev]
      by_cases hcl : ‖x.val [i, i]‖ < z
      · have : (clip z x).val [i, i] = 0 := by simp only [clip]; rw [if_pos hcl]
        rw [hfi, this, sub_zero, norm_one, if_neg (by linarith)] at hle
        linarith
      · have : (clip z x).val [i, i] = x.val [i, i] := by simp only [clip]; rw [if_neg hcl]
        rw [hfi, this] at hle
        by_cases h3 : ‖1 - x.val [i, i]‖ < z
        · exact Or.inl h3
        · rw [if_neg h3] at hle
          exact Or.inr hle
    · simp only [if_neg e, sub_zero]
      by_cases hcl : ‖x.val [i, j]‖ < z
      · exact Or.inl hcl
      · have : (clip z x).val [i, j] = x.val [i, j] := by simp only [clip]; rw [if_neg hcl]
        have hfi : f i j = ‖x.val [i, j]‖ := by simp [hf, e, this]
        rw [hfi, if_neg hcl] at hle
        exact Or.inr hle

/-- the two tests differ only in the Gram matrix -/
theorem isoTest_ok {mats : List (ND ℂ)} {T : ND ℂ → Py (ND ℂ)} {g : ND ℂ → ℕ → ℕ → ℂ} {k : ℕ} {c z : ℝ}
    (hT : ∀ A ∈ mats, ∃ R, T A = .ok R ∧ R.shape = [A.dim k, A.dim k] ∧ ∀ i j, R.val [i, j] = g A i j) :
    ∃ b : Bool, (do
        let Is ← mats.mapM T
        let close ← Is.mapM (defect z)
        .ok (open Classical in close.all fun t => decide (|t| ≤ c)) : Py Bool) = .ok b ∧
      (0 ≤ c → 0 ≤ z → z ≤ 1 → (∀ A ∈ mats, ∀ i < A.dim k, ∀ j < A.dim k, g A i j = if i = j then 1 else 0) → b = true) ∧
      (0 ≤ c → z ≤ 1 / 2 → (∀ A ∈ mats, ∀ i < A.dim k, ∀ j < A.dim k, offId (g A) i j < z) → b = true) ∧
      (c < 1 → z ≤ 1 → b = true → ∀ A ∈ mats, ∀ i < A.dim k, ∀ j < A.dim k, offId (g A) i j < z ∨ offId (g A) i j ≤ c) := by
  classical
  choose! R h1 h2 h3 using hT
  have hD : ∀ A ∈ mats, ∃ t, defect z (R A) = .ok t ∧ 0 ≤ t ∧
      (0 ≤ z → z ≤ 1 → (∀ i < A.dim k, ∀ j < A.dim k, g A i j = if i = j then 1 else 0) → t = 0) ∧
      (z ≤ 1 / 2 → (∀ i < A.dim k, ∀ j < A.dim k, offId (g A) i j < z) → t = 0) ∧
      ∀ c, c < 1 → z ≤ 1 → t ≤ c → ∀ i < A.dim k, ∀ j < A.dim k, offId (g A) i j < z ∨ offId (g A) i j ≤ c := by
    intro A hA
    obtain ⟨t, e, g0, g1, g2, g3⟩ := defect_ok (h2 A hA) z
    simp only [offId, h3 A hA] at g1 g2 g3
    exact ⟨t, e, g0, g1, g2, g3⟩
  choose! t d1 d2 d3 d4 d5 using hD
  refine ⟨(mats.map t).all fun t => decide (|t| ≤ c), ?_, ?_, ?_, ?_⟩
  · rw [mapM_ok (g := R) h1, ok_bind, List.mapM_map, mapM_ok (f := defect z ∘ R) (g := t) (fun A hA => d1 A hA), ok_bind]
  · intro hc hz hz1 h
    rw [List.all_map, List.all_eq_true]
    intro A hA
    simp only [Function.comp, d3 A hA hz hz1 (h A hA), abs_zero, decide_eq_true_eq]
    exact hc
  · intro hc hz h
    rw [List.all_map, List.all_eq_true]
    intro A hA
    simp only [Function.comp, d4 A hA hz (h A hA), abs_zero, decide_eq_true_eq]
    exact hc
  · intro hc hz hb A hA
    rw [List.all_map, List.all_eq_true] at hb
    have := hb A hA
    simp only [Function.comp, decide_eq_true_eq] at this
    exact d5 A hA c hc hz ((le_abs_self _).trans this)

/-- **C45** `is_right_canonical(mats, c, z)` for tensors of rank 3: it returns; exact right isometries pass; tensors whose `Σ A_s A_s†` differs from the
identity by less than `z` in every entry pass; and for every list that passes, every entry differs by at most the larger of `c` and `z`. -/
theorem isRightCanonical_spec {mats : List (ND ℂ)} (hs : ∀ A ∈ mats, A.rank = 3) (c z : ℝ) : ∃ b, isRightCanonical mats c z = .ok b ∧
    (0 ≤ c → 0 ≤ z → z ≤ 1 → (∀ A ∈ mats, RightIso A) → b = true) ∧
    (0 ≤ c → z ≤ 1 / 2 → (∀ A ∈ mats, ∀ i < A.dim 1, ∀ j < A.dim 1, offId (gramRight A) i j < z) → b = true) ∧
    (c < 1 → z ≤ 1 → b = true → ∀ A ∈ mats, ∀ i < A.dim 1, ∀ j < A.dim 1, offId (gramRight A) i j < z ∨ offId (gramRight A) i j ≤ c) := by
  refine isoTest_ok (k := 1) (g := gramRight) ?_
  intro A hA
  obtain ⟨d, l, r, h⟩ := List.length_eq_three.1 (hs A hA)
  obtain ⟨s, v⟩ := hc3 h
  obtain ⟨R, e, hR, hv⟩ := tensordot_33 h s
  refine ⟨R, e, by rw [hR, dim1 h], ?_⟩
  intro i j
  rw [hv, gramRight, dim0 h, dim2 h]
  exact Finset.sum_congr rfl fun s _ => Finset.sum_congr rfl fun c _ => by rw [v]

/-- **C45** the same for `is_left_canonical`. -/
theorem isLeftCanonical_spec {mats : List (ND ℂ)} (hs : ∀ A ∈ mats, A.rank = 3) (c z : ℝ) : ∃ b, isLeftCanonical mats c z = .ok b ∧
    (0 ≤ c → 0 ≤ z → z ≤ 1 → (∀ A ∈ mats, LeftIso A) → b = true) ∧
    (0 ≤ c → z ≤ 1 / 2 → (∀ A ∈ mats, ∀ i < A.dim 2, ∀ j < A.dim 2, offId (gramLeft A) i j < z) → b = true) ∧
    (c < 1 → z ≤ 1 → b = true → ∀ A ∈ mats, ∀ i < A.dim 2, ∀ j < A.dim 2, offId (gramLeft A) i j < z ∨ offId (gramLeft A) i j ≤ c) := by
  refine isoTest_ok (k := 2) (g := gramLeft) ?_
  intro A hA
  obtain ⟨d, l, r, h⟩ := List.length_eq_three.1 (hs A hA)
  obtain ⟨s, v⟩ := hc3 h
  obtain ⟨R, e, hR, hv⟩ := tensordot_33 s h
  refine ⟨R, e, by rw [hR, dim2 h], ?_⟩
  intro i j
  rw [hv, gramLeft, dim0 h, dim1 h]
  exact Finset.sum_congr rfl fun s _ => Finset.sum_congr rfl fun c _ => by rw [v]

/-- **C45** with both tolerances 0 the tests are exact. -/
theorem isRightCanonical_iff {mats : List (ND ℂ)} (hs : ∀ A ∈ mats, A.rank = 3) :
    isRightCanonical mats 0 0 = .ok true ↔ ∀ A ∈ mats, RightIso A := by
  obtain ⟨b, e, h1, -, h3⟩ := isRightCanonical_spec hs 0 0
  rw [e]
  constructor
  · intro hb A hA i hi j hj
    rcases h3 one_pos zero_le_one (Except.ok.inj hb) A hA i hi j hj with h | h
    · exact absurd h (not_lt.2 (norm_nonneg _))
    · exact sub_eq_zero.1 (norm_le_zero_iff.1 h)
  · intro h
    rw [h1 le_rfl le_rfl zero_le_one h]

theorem isLeftCanonical_iff {mats : List (ND ℂ)} (hs : ∀ A ∈ mats, A.rank = 3) :
    isLeftCanonical mats 0 0 = .ok true ↔ ∀ A ∈ mats, LeftIso A := by
  obtain ⟨b, e, h1, -, h3⟩ := isLeftCanonical_spec hs 0 0
  rw [e]
  constructor
  · intro hb A hA i hi j hj
    rcases h3 one_pos zero_le_one (Except.ok.inj hb) A hA i hi j hj with h | h
    · exact absurd h (not_lt.2 (norm_nonneg _))
    · exact sub_eq_zero.1 (norm_le_zero_iff.1 h)
  · intro h
    rw [h1 le_rfl le_rfl zero_le_one h]

theorem chain_rank {ds : List ℕ} {As : List (ND ℂ)} {l r : ℕ} (h : MpsChain ds As l r) : ∀ A ∈ As, A.rank = 3 := by
  intro A hA
  induction As generalizing ds l with
  | nil => simp at hA
  | cons B As ih =>
    match ds, h with
    | d :: ds, ⟨m, hB, h⟩ =>
      rcases List.mem_cons.1 hA with rfl | hA
      · simp [ND.rank, hB]
      · exact ih h hA

/-- **C45** every chain that `left_canonicalise(D)` returns passes `is_left_canonical` with the default tolerances. -/
theorem FMPS.leftCanonicalise_passes {svd : Svd} {eig : Eig} (hsvd : SVDLaw svd) (heig : EigOrthoLaw eig) {x : FMPS ℂ}
    {ds : List ℕ} (hx : x.Holds ds) (hu : ∀ t ∈ ds, t = x.d) (hp : PosDims x.data) (D : Option ℕ)
    (hD : ∀ D0, D = some D0 → 0 < D0) (hnz : D = none → ∃ s, InB ds s ∧ psi x.data s ≠ 0) :
    ∃ y Ls, x.leftCanonicalise svd eig D = .ok (y, some Ls) ∧ isLeftCanonical y.data = .ok true := by
  obtain ⟨y, Ls, R, z, e, hy, -, hi, -⟩ := FMPS.leftCanonicalise_spec hsvd heig hx hu hp D hD hnz
  obtain ⟨b, e', h, -⟩ := isLeftCanonical_spec (chain_rank hy.chain) 1e-8 1e-8
  exact ⟨y, Ls, e, by rw [e', h (by norm_num) (by norm_num) (by norm_num) hi]⟩

/-- **C45** every chain that `right_canonicalise(D)` returns passes `is_right_canonical` with the default tolerances. -/
theorem FMPS.rightCanonicalise_passes {svd : Svd} {eig : Eig} (hsvd : SVDLaw svd) (heig : EigOrthoLaw eig) {x : FMPS ℂ}
    {ds : List ℕ} (hx : x.Holds ds) (hu : ∀ t ∈ ds, t = x.d) (hp : PosDims x.data) (D : Option ℕ)
    (hD : ∀ D0, D = some D0 → 0 < D0) (hnz : D = none → ∃ s, InB ds s ∧ psi x.data s ≠ 0) :
    ∃ y Ls, x.rightCanonicalise svd eig D = .ok (y, some Ls) ∧ isRightCanonical y.data = .ok true := by
  obtain ⟨y, Ls, e, hy, -, hi, -⟩ := FMPS.rightCanonicalise_spec hsvd heig hx hu hp D hD hnz
  obtain ⟨b, e', h, -⟩ := isRightCanonical_spec (chain_rank hy.chain) 1e-8 1e-8
  exact ⟨y, Ls, e, by rw [e', h (by norm_num) (by norm_num) (by norm_num) hi]⟩

/-! ### environments -/

/-- `Σ_s A_s† L A_s` -/
def Spec.pushEnv (A L : ND ℂ) (i j : ℕ) : ℂ :=
  ∑ s ∈ range (A.dim 0), ∑ b ∈ range (A.dim 1), ∑ a ∈ range (A.dim 1), star (A.val [s, a, i]) * L.val [a, b] * A.val [s, b, j]

/-- `Σ_s A_s L A_s†` -/
def Spec.pullEnv (A L : ND ℂ) (i j : ℕ) : ℂ :=
  ∑ s ∈ range (A.dim 0), ∑ b ∈ range (A.dim 2), ∑ a ∈ range (A.dim 2), A.val [s, i, a] * L.val [a, b] * star (A.val [s, j, b])

/-- the matrix `f` agrees with the array `L` within the default tolerances of `allclose` -/
def Spec.Near (f : ℕ → ℕ → ℂ) (L : ND ℂ) : Prop :=
  ∀ i < L.dim 0, ∀ j < L.dim 1, ‖f i j - L.val [i, j]‖ ≤ 1e-8 + 1e-5 * ‖L.val [i, j]‖

theorem pushEnv_ok {A L : ND ℂ} {d l r : ℕ} (hA : A.shape = [d, l, r]) (hL : L.shape = [l, l]) :
    ∃ R, (do
      let t ← A.hc.matmul L
      t.tensordot A [0, 2] [0, 1] : Py (ND ℂ)) = .ok R ∧ R.shape = [r, r] ∧ ∀ i j, R.val [i, j] = pushEnv A L i j := by
  obtain ⟨s, v⟩ := hc3 hA
  obtain ⟨T, e1, hT, hTv⟩ := ND.matmul32 s hL
  obtain ⟨R, e2, hR, hRv⟩ := tensordot_33 hT hA
  refine ⟨R, by rw [e1, ok_bind, e2], hR, ?_⟩
  intro i j
  rw [hRv, pushEnv, dim0 hA, dim1 hA]
  refine Finset.sum_congr rfl fun s _ => Finset.sum_congr rfl fun b _ => ?_
  rw [hTv, Finset.sum_mul]
  exact Finset.sum_congr rfl fun a _ => by rw [v]

theorem pullEnv_ok {A L : ND ℂ} {d l r : ℕ} (hA : A.shape = [d, l, r]) (hL : L.shape = [r, r]) :
    ∃ R, (do
      let t ← A.matmul L
      t.tensordot A.hc [0, 2] [0, 1] : Py (ND ℂ)) = .ok R ∧ R.shape = [l, l] ∧ ∀ i j, R.val [i, j] = pullEnv A L i j := by
  obtain ⟨s, v⟩ := hc3 hA
  obtain ⟨T, e1, hT, hTv⟩ := ND.matmul32 hA hL
  obtain ⟨R, e2, hR, hRv⟩ := tensordot_33 hT s
  refine ⟨R, by rw [e1, ok_bind, e2], hR, ?_⟩
  intro i j
  rw [hRv, pullEnv, dim0 hA, dim2 hA]
  refine Finset.sum_congr rfl fun s _ => Finset.sum_congr rfl fun b _ => ?_
  rw [hTv, Finset.sum_mul]
  exact Finset.sum_congr rfl fun a _ => by rw [v]

theorem allclose_ok {a b : ND ℂ} {n : ℕ} {f : ℕ → ℕ → ℂ} (ha : a.shape = [n, n]) (hb : b.shape = [n, n]) (hf : ∀ i j, a.val [i, j] = f i j) :
    ∃ t, allclose a b = .ok t ∧ (t = true ↔ Near f b) := by
  refine ⟨_, by unfold allclose; simp only [ha, hb, if_true]; rfl, ?_⟩
  simp [Near, ND.dim, hb, hf]

/-- the comparison of computed and given matrices, index by index -/
theorem closeAll_ok {Ls Ms : List (ND ℂ)} {f : ℕ → ℕ → ℕ → ℂ} (hl : Ls.length ≤ Ms.length)
    (h : ∀ n (h1 : n < Ls.length) (h2 : n < Ms.length), ∃ k, Ls[n].shape = [k, k] ∧ Ms[n].shape = [k, k] ∧ ∀ i j, Ls[n].val [i, j] = f n i j) :
    ∃ b : Bool, (do
      let close ← (Ls.zip Ms).mapM fun p => allclose p.1 p.2
      .ok (close.all id) : Py Bool) = .ok b ∧ (b = true ↔ ∀ n (h1 : n < Ls.length), Near (f n) Ms[n]) := by
  induction Ls generalizing Ms f with
  | nil =>
    exact ⟨true, rfl, by simp⟩
  | cons a Ls ih =>
    match Ms, hl with
    | m :: Ms, hl =>
      obtain ⟨k, h1, h2, h3⟩ := h 0 (by simp) (by simp)
      simp only [List.getElem_cons_zero] at h1 h2 h3
      obtain ⟨t, e, ht⟩ := allclose_ok h1 h2 h3
      obtain ⟨b, e', hb⟩ := ih (Ms := Ms) (f := fun n => f (n + 1)) (by simpa using hl) (by
        intro n g1 g2
        have := h (n + 1) (by simpa using g1) (by simpa using g2)
        simpa using this)
      cases hm : (Ls.zip Ms).mapM fun p => allclose p.1 p.2 with
      | error er => rw [hm] at e'; cases e'
      | ok cl =>
        rw [hm, ok_bind] at e'
        have e' := Except.ok.inj e'
        refine ⟨t && b, ?_, ?_⟩
        · simp only [List.zip_cons_cons, List.mapM_cons, e, hm, ok_bind, py_pure]
          simp only [List.all_cons, e', id]
        · rw [Bool.and_eq_true, ht, hb]
          constructor
          · rintro ⟨g1, g2⟩ n hn
            match n with
            | 0 => exact g1
            | n + 1 => exact g2 n (by simpa using hn)
          · intro g
            exact ⟨g 0 (by simp), fun n hn => g (n + 1) (by simpa using hn)⟩

/-- **C56** `is_right_env_canonical(mats, sings)` for a chain of `L` tensors with `L + 1` matrices on its bonds: it returns, and the result is True
exactly when `Σ_s A_n† L_n A_n` is close to `L_{n+1}` for every `n` except the last.
Partial: the last tensor is not checked (`isRightEnvCanonical_last`). -/
theorem isRightEnvCanonical_partial {mats sings : List (ND ℂ)} (hlen : sings.length = mats.length + 1)
    (h : ∀ n (hn : n < mats.length), ∃ d l r, mats[n].shape = [d, l, r] ∧ sings[n].shape = [l, l] ∧ sings[n + 1].shape = [r, r]) :
    ∃ b, isRightEnvCanonical mats sings = .ok b ∧
      (b = true ↔ ∀ n (hn : n + 1 < mats.length), Near (pushEnv mats[n] sings[n]) sings[n + 1]) := by
  haveI : Inhabited (ND ℂ) := ⟨onesND []⟩
  set zs := mats.zip sings with hzs
  have hzl : zs.length = mats.length := by simp [hzs]; omega
  have hzn : ∀ n (hn : n < mats.length), zs[n]'(by omega) = (mats[n], sings[n]) := by
    intro n hn
    simp [hzs]
  have hF : ∀ p ∈ zs, ∃ R, (do
      let t ← p.1.hc.matmul p.2
      t.tensordot p.1 [0, 2] [0, 1] : Py (ND ℂ)) = .ok R ∧ R.shape = [p.1.dim 2, p.1.dim 2] ∧
        ∀ i j, R.val [i, j] = pushEnv p.1 p.2 i j := by
    intro p hp
    obtain ⟨n, hn, rfl⟩ := List.mem_iff_getElem.1 hp
    have hn' : n < mats.length := by omega
    obtain ⟨d, l, r, h1, h2, h3⟩ := h n hn'
    rw [hzn n hn']
    obtain ⟨R, e, g1, g2⟩ := pushEnv_ok h1 h2
    exact ⟨R, e, by rw [g1, dim2 h1], g2⟩
  choose! F f1 f2 f3 using hF
  obtain ⟨b, e, hb⟩ := closeAll_ok (Ls := (zs.map F).dropLast) (Ms := sings.drop 1)
    (f := fun n i j => pushEnv (mats.getD n (onesND [])) (sings.getD n (onesND [])) i j) (by simp [hzl]; omega) (by
      intro n h1 h2
      have hn : n < mats.length := by simp [hzl] at h1; omega
      have hm : (mats[n], sings[n]) ∈ zs := by
        rw [← hzn n hn]
        exact List.getElem_mem _
      obtain ⟨d, l, r', g1, g2, g3⟩ := h n hn
      refine ⟨r', ?_, ?_, ?_⟩
      · simp only [List.getElem_dropLast, List.getElem_map, hzn n hn]
        rw [f2 _ hm, dim2 g1]
      · simp [Nat.add_comm 1 n, g3]
      · intro i j
        simp only [List.getElem_dropLast, List.getElem_map, hzn n hn]
        rw [f3 _ hm, List.getD_eq_getElem _ _ hn, List.getD_eq_getElem _ _ (by omega)])
  refine ⟨b, ?_, ?_⟩
  · unfold isRightEnvCanonical
    rw [mapM_ok (g := F) f1, ok_bind, e]
  · rw [hb]
    constructor
    · intro g n hn
      have := g n (by simp [hzl]; omega)
      rw [List.getD_eq_getElem _ _ (by omega), List.getD_eq_getElem _ _ (by omega)] at this
      simpa [Nat.add_comm 1 n] using this
    · intro g n hn
      simp [hzl] at hn
      rw [List.getD_eq_getElem _ _ (by omega), List.getD_eq_getElem _ _ (by omega)]
      simpa [Nat.add_comm 1 n] using g n (by omega)

/-- **C56 fails at the last tensor**: for one tensor the test passes whatever the matrices are. -/
theorem isRightEnvCanonical_last {A L L' : ND ℂ} {d l r : ℕ} (hA : A.shape = [d, l, r]) (hL : L.shape = [l, l]) :
    isRightEnvCanonical [A] [L, L'] = .ok true := by
  obtain ⟨R, e, -, -⟩ := pushEnv_ok hA hL
  unfold isRightEnvCanonical
  simp only [List.zip_cons_cons, List.zip_nil_left, List.zip_nil_right, List.drop_succ_cons, List.drop_zero, List.mapM_cons, List.mapM_nil, e, ok_bind, py_pure]
  rfl

/-- **C56** `is_left_env_canonical(mats, sings)` for a chain of `L` tensors with `L + 1` matrices on its bonds: it returns, and the result is True
exactly when `Σ_s A_n L_{n+1} A_n†` is close to `L_n` for every `n` except the last.
Partial: the last tensor is not checked (`isLeftEnvCanonical_last`). -/
theorem isLeftEnvCanonical_partial {mats sings : List (ND ℂ)} (hlen : sings.length = mats.length + 1)
    (h : ∀ n (hn : n < mats.length), ∃ d l r, mats[n].shape = [d, l, r] ∧ sings[n].shape = [l, l] ∧ sings[n + 1].shape = [r, r]) :
    ∃ b, isLeftEnvCanonical mats sings = .ok b ∧
      (b = true ↔ ∀ n (hn : n + 1 < mats.length), Near (pullEnv mats[n] sings[n + 1]) sings[n]) := by
  haveI : Inhabited (ND ℂ) := ⟨onesND []⟩
  set zs := mats.zip (sings.drop 1) with hzs
  have hzl : zs.length = mats.length := by simp [hzs]; omega
  have hzn : ∀ n (hn : n < mats.length), zs[n]'(by omega) = (mats[n], sings[n + 1]) := by
    intro n hn
    simp [hzs, Nat.add_comm]
  have hF : ∀ p ∈ zs, ∃ R, (do
      let t ← p.1.matmul p.2
      t.tensordot p.1.hc [0, 2] [0, 1] : Py (ND ℂ)) = .ok R ∧ R.shape = [p.1.dim 1, p.1.dim 1] ∧
        ∀ i j, R.val [i, j] = pullEnv p.1 p.2 i j := by
    intro p hp
    obtain ⟨n, hn, rfl⟩ := List.mem_iff_getElem.1 hp
    have hn' : n < mats.length := by omega
    obtain ⟨d, l, r, h1, h2, h3⟩ := h n hn'
    rw [hzn n hn']
    obtain ⟨R, e, g1, g2⟩ := pullEnv_ok h1 h3
    exact ⟨R, e, by rw [g1, dim1 h1], g2⟩
  choose! F f1 f2 f3 using hF
  obtain ⟨b, e, hb⟩ := closeAll_ok (Ls := (zs.map F).dropLast) (Ms := sings.dropLast)
    (f := fun n i j => pullEnv (mats.getD n (onesND [])) (sings.getD (n + 1) (onesND [])) i j) (by simp [hzl]; omega) (by
      intro n h1 h2
      have hn : n < mats.length := by simp [hzl] at h1; omega
      have hm : (mats[n], sings[n + 1]) ∈ zs := by
        rw [← hzn n hn]
        exact List.getElem_mem _
      obtain ⟨d, l, r', g1, g2, g3⟩ := h n hn
      refine ⟨l, ?_, ?_, ?_⟩
      · simp only [List.getElem_dropLast, List.getElem_map, hzn n hn]
        rw [f2 _ hm, dim1 g1]
      · simp [g2]
      · intro i j
        simp only [List.getElem_dropLast, List.getElem_map, hzn n hn]
        rw [f3 _ hm, List.getD_eq_getElem _ _ hn, List.getD_eq_getElem _ _ (by omega)])
  refine ⟨b, ?_, ?_⟩
  · unfold isLeftEnvCanonical
    rw [mapM_ok (g := F) f1, ok_bind, e]
  · rw [hb]
    constructor
    · intro g n hn
      have := g n (by simp [hzl]; omega)
      rw [List.getD_eq_getElem _ _ (by omega), List.getD_eq_getElem _ _ (by omega)] at this
      simpa using this
    · intro g n hn
      simp [hzl] at hn
      rw [List.getD_eq_getElem _ _ (by omega), List.getD_eq_getElem _ _ (by omega)]
      simpa using g n (by omega)

/-- **C56 fails at the last tensor**: for one tensor the test passes whatever the matrices are. -/
theorem isLeftEnvCanonical_last {A L L' : ND ℂ} {d l r : ℕ} (hA : A.shape = [d, l, r]) (hL : L'.shape = [r, r]) :
    isLeftEnvCanonical [A] [L, L'] = .ok true := by
  obtain ⟨R, e, -, -⟩ := pullEnv_ok hA hL
  unfold isLeftEnvCanonical
  simp only [List.zip_cons_cons, List.zip_nil_left, List.zip_nil_right, List.drop_succ_cons, List.drop_zero, List.mapM_cons, List.mapM_nil, e, ok_bind, py_pure]
  rfl

/-! ### ranks and traces -/

theorem diagOf_ok {S : ND ℂ} {n : ℕ} (h : S.shape = [n, n]) : diagOf S = .ok ((List.range n).map fun i => S.val [i, i]) := by
  simp [diagOf, h]

/-- **C56** `is_full_rank(sings)` for square matrices: no diagonal entry vanishes. -/
theorem isFullRank_spec {sings : List (ND ℂ)} (h : ∀ S ∈ sings, ∃ n, S.shape = [n, n]) :
    ∃ b, isFullRank sings = .ok b ∧ (b = true ↔ ∀ S ∈ sings, ∀ i < S.dim 0, S.val [i, i] ≠ 0) := by
  classical
  have h1 : ∀ S ∈ sings, diagOf S = .ok ((List.range (S.dim 0)).map fun i => S.val [i, i]) := by
    intro S hS
    obtain ⟨n, hn⟩ := h S hS
    rw [diagOf_ok hn]
    simp [ND.dim, hn]
  refine ⟨_, by unfold isFullRank; rw [mapM_ok (g := fun S => (List.range (S.dim 0)).map fun i => S.val [i, i]) h1, ok_bind], ?_⟩
  rw [decide_eq_true_eq, List.sum_eq_zero_iff]
  simp only [List.map_map, List.mem_map, Function.comp, forall_exists_index, and_imp, forall_apply_eq_imp_iff₂]
  refine forall_congr' fun S => forall_congr' fun hS => ?_
  have hle := List.countP_le_length (p := fun v : ℂ => decide (v ≠ 0)) (l := (List.range (S.dim 0)).map fun i => S.val [i, i])
  rw [Nat.sub_eq_zero_iff_le]
  constructor
  · intro hc i hi
    have := (List.countP_eq_length.1 (le_antisymm hle hc)) (S.val [i, i]) (List.mem_map_of_mem (List.mem_range.2 hi))
    simpa using this
  · intro hi
    refine le_of_eq (Eq.symm (List.countP_eq_length.2 ?_))
    intro v hv
    obtain ⟨i, hi', rfl⟩ := List.mem_map.1 hv
    simpa using hi i (List.mem_range.1 hi')

/-- **C56** `has_trace_1(sings)` for square matrices: every trace is within 1e-8 of 1. -/
theorem hasTrace1_spec {sings : List (ND ℂ)} (h : ∀ S ∈ sings, ∃ n, S.shape = [n, n]) :
    ∃ b, hasTrace1 sings = .ok b ∧ (b = true ↔ ∀ S ∈ sings, ‖(∑ i ∈ range (S.dim 0), S.val [i, i]) - 1‖ ≤ 1e-8) := by
  classical
  have h1 : ∀ S ∈ sings, diagOf S = .ok ((List.range (S.dim 0)).map fun i => S.val [i, i]) := by
    intro S hS
    obtain ⟨n, hn⟩ := h S hS
    rw [diagOf_ok hn]
    simp [ND.dim, hn]
  refine ⟨_, by unfold hasTrace1; rw [mapM_ok (g := fun S => (List.range (S.dim 0)).map fun i => S.val [i, i]) h1, ok_bind], ?_⟩
  simp only [List.all_map, List.all_eq_true, Function.comp, decide_eq_true_eq]
  have hsum : ∀ S : ND ℂ, ((List.range (S.dim 0)).map fun i => S.val [i, i]).sum = ∑ i ∈ range (S.dim 0), S.val [i, i] := fun S => rfl
  simp only [hsum]

/-! ### the hypotheses can be met -/

example := isRightCanonical_spec (mats := [⟨[2, 1, 2], fun _ => Complex.I⟩, ⟨[2, 2, 1], fun _ => 1⟩]) (by simp [ND.rank]) 1e-8 1e-8
example : isLeftCanonical [⟨[2, 1, 1], fun | [0, 0, 0] => Complex.I | _ => 0⟩] 0 0 = .ok true := by
  rw [isLeftCanonical_iff (by simp [ND.rank])]
  simp [LeftIso, ND.dim, Finset.sum_range_succ]
example : isLeftCanonical [⟨[2, 1, 1], fun _ => 1⟩] 0 0 ≠ .ok true := by
  rw [Ne, isLeftCanonical_iff (by simp [ND.rank])]
  simp [LeftIso, ND.dim, Finset.sum_range_succ]
example {svd : Svd} {eig : Eig} (hsvd : SVDLaw svd) (heig : EigOrthoLaw eig) :=
  FMPS.leftCanonicalise_passes hsvd heig (exTwo_holds 2) exTwo_uniform (exTwo_pos 2) none (by simp) fun _ => exTwo_nonzero
example {svd : Svd} {eig : Eig} (hsvd : SVDLaw svd) (heig : EigOrthoLaw eig) :=
  FMPS.rightCanonicalise_passes hsvd heig (exTwo_holds 2) exTwo_uniform (exTwo_pos 2) none (by simp) fun _ => exTwo_nonzero

example := isRightEnvCanonical_partial (mats := [⟨[2, 1, 2], fun _ => Complex.I⟩, ⟨[2, 2, 1], fun _ => 1⟩])
  (sings := [onesND [1, 1], onesND [2, 2], onesND [1, 1]]) rfl (fun n hn => match n, hn with
    | 0, _ => ⟨2, 1, 2, rfl, rfl, rfl⟩
    | 1, _ => ⟨2, 2, 1, rfl, rfl, rfl⟩)
example := isLeftEnvCanonical_partial (mats := [⟨[2, 1, 2], fun _ => Complex.I⟩, ⟨[2, 2, 1], fun _ => 1⟩])
  (sings := [onesND [1, 1], onesND [2, 2], onesND [1, 1]]) rfl (fun n hn => match n, hn with
    | 0, _ => ⟨2, 1, 2, rfl, rfl, rfl⟩
    | 1, _ => ⟨2, 2, 1, rfl, rfl, rfl⟩)
/-- a tensor whose transfer of 1 is 2, not the recorded 1, passes as the last one -/
example : isRightEnvCanonical [⟨[2, 1, 1], fun _ => 1⟩] [onesND [1, 1], onesND [1, 1]] = .ok true ∧
    pushEnv ⟨[2, 1, 1], fun _ => 1⟩ (onesND [1, 1]) 0 0 = 2 :=
  ⟨isRightEnvCanonical_last rfl rfl, by norm_num [pushEnv, ND.dim, onesND, Finset.sum_range_succ]⟩
example : isLeftEnvCanonical [⟨[2, 1, 1], fun _ => 1⟩] [onesND [1, 1], onesND [1, 1]] = .ok true ∧
    pullEnv ⟨[2, 1, 1], fun _ => 1⟩ (onesND [1, 1]) 0 0 = 2 :=
  ⟨isLeftEnvCanonical_last rfl rfl, by norm_num [pullEnv, ND.dim, onesND, Finset.sum_range_succ]⟩
example := isFullRank_spec (sings := [onesND [2, 2], onesND [1, 1]]) (by simp [onesND])
example := hasTrace1_spec (sings := [onesND [2, 2], onesND [1, 1]]) (by simp [onesND])

end Xmps
