import Verif.Lemmas.IsoStructure
import Verif.Lemmas.IsoBraket
import Verif.Props.LapackSvd

/-!
# Properties C102-C105: isometric PEPS (`isometrise`, `iso_E`, the moses moves)
-/

namespace Xmps.FPEPS

open Finset Spec Xmps.Ncon

section

variable {m n : ℕ} {ph : Fin m → Fin n → ℕ} {vE : Fin (m + 1) → Fin n → ℕ} {hE : Fin m → Fin (n + 1) → ℕ}
  {g : Fin m → Fin n → ND ℂ} {x : FPEPS} {svd : ND ℂ → Py (ND ℂ × List ℝ × ND ℂ)}

theorem isometrise_assert {ci cj : ℤ} (h : ¬ (0 ≤ ci ∧ ci < x.Lx ∧ 0 ≤ cj ∧ cj < x.Ly)) : isometrise svd x ci cj = .error .assertionError := by
  unfold isometrise
  have hg : decide (0 ≤ ci ∧ ci < x.Lx ∧ 0 ≤ cj ∧ cj < x.Ly) = false := decide_eq_false h
  rw [hg]
  rfl

theorem last_mem_truncList {L d : ℕ} (hL : 0 < L) : (L - 1, d ^ 0) ∈ truncList L d :=
  mem_truncList.2 (.inr ⟨by omega, by omega, by congr 1; omega⟩)

/-- the truncations of an object made by the constructor from a grid that is not square -/
theorem truncateAll_swapped (hx : x.Holds m n ph vE hE g) (hLx : x.Lx = m) (hLy : x.Ly = n) (hne : m ≠ n) : x.truncateAll = .error .indexError := by
  have hm := hx.rows
  have hn := hx.cols
  have e1 : x.truncateAll = (x.withGrid (cutGrid ph vE hE g)).truncateAll := by rw [← hx.withGrid_eq]
  rw [e1]
  unfold truncateAll
  show (do
    let y ← (truncList x.Lx x.d).foldlM (fun (x : FPEPS) (iD : ℕ × ℕ) => x.truncateAlongColumn iD.1 iD.2) (x.withGrid (cutGrid ph vE hE g))
    let y ← (truncList y.Ly y.d).foldlM (fun (x : FPEPS) (jD : ℕ × ℕ) => x.truncateAlongRow jD.1 jD.2) y
    y.truncateEdges) = _
  rw [hLx]
  by_cases h : n < m
  · rw [truncCols_err hm _ _ ⟨_, last_mem_truncList hm, by show n ≤ m - 1; omega⟩, err_bind]
  · rw [truncCols_ok _ _ fun p hp => (truncList_lt hm p hp).trans_le (by omega), ok_bind]
    show (do
      let y ← (truncList x.Ly x.d).foldlM (fun (x : FPEPS) (jD : ℕ × ℕ) => x.truncateAlongRow jD.1 jD.2) (x.withGrid (cutGrid ph _ hE g))
      y.truncateEdges) = _
    rw [hLy, truncRows_err _ _ ⟨_, last_mem_truncList hn, by show m ≤ n - 1; omega⟩, err_bind]

/-- the truncations of an object made by `random` that is wider than high, or one row higher than wide -/
theorem truncateAll_rect (hx : x.Holds m n ph vE hE g) (hLx : x.Lx = n) (hLy : x.Ly = m) (hm1 : 1 < m) (hn1 : 1 < n) :
    (m < n → x.truncateAll = .error .indexError) ∧ (m = n + 1 → x.truncateAll = .error .exception) := by
  have hm := hx.rows
  have hn := hx.cols
  have e1 : x.truncateAll = (x.withGrid (cutGrid ph vE hE g)).truncateAll := by rw [← hx.withGrid_eq]
  have e2 : ∃ v w, x.truncateAll = (x.withGrid (cutGrid ph v w g)).truncateEdges := by
    rw [e1]
    refine ⟨cutCols (truncList n x.d) vE, cutRows (truncList m x.d) hE, ?_⟩
    unfold truncateAll
    show (do
      let y ← (truncList x.Lx x.d).foldlM (fun (x : FPEPS) (iD : ℕ × ℕ) => x.truncateAlongColumn iD.1 iD.2) (x.withGrid (cutGrid ph vE hE g))
      let y ← (truncList y.Ly y.d).foldlM (fun (x : FPEPS) (jD : ℕ × ℕ) => x.truncateAlongRow jD.1 jD.2) y
      y.truncateEdges) = _
    rw [hLx, truncCols_ok _ _ (truncList_lt hn), ok_bind]
    show (do
      let y ← (truncList x.Ly x.d).foldlM (fun (x : FPEPS) (jD : ℕ × ℕ) => x.truncateAlongRow jD.1 jD.2) (x.withGrid (cutGrid ph _ hE g))
      y.truncateEdges) = _
    rw [hLy, truncRows_ok _ _ (truncList_lt hm), ok_bind]
  obtain ⟨v, w, e2⟩ := e2
  have e3 : (x.withGrid (cutGrid ph v w g)).truncateEdges = (do
      let y ← (x.withGrid (cutGrid ph v w g)).truncateBelow 0 x.d
      let y ← y.truncateBelow (y.Ly - 2) y.d
      let y ← y.truncateLeft 1 y.d
      y.truncateLeft (y.Lx - 1) y.d) := by
    unfold truncateEdges
    rw [if_pos]
    · rfl
    · show 1 < x.Ly ∧ 1 < x.Lx
      omega
  rw [e2, e3, truncBelow_ok (by omega) (by omega), ok_bind]
  change (m < n → (do
      let y ← (x.withGrid (cutGrid ph _ w g)).truncateBelow (x.Ly - 2) x.d
      let y ← y.truncateLeft 1 y.d
      y.truncateLeft (y.Lx - 1) y.d) = _) ∧ (m = n + 1 → (do
      let y ← (x.withGrid (cutGrid ph _ w g)).truncateBelow (x.Ly - 2) x.d
      let y ← y.truncateLeft 1 y.d
      y.truncateLeft (y.Lx - 1) y.d) = _)
  constructor
  · intro h
    rw [truncBelow_ok (by omega) (by omega), ok_bind]
    show (do
      let y ← (x.withGrid (cutGrid ph _ w g)).truncateLeft 1 x.d
      y.truncateLeft (y.Lx - 1) y.d) = _
    rw [truncLeft_err (by omega) (by omega) (by omega), err_bind]
  · intro h
    rw [truncBelow_err (by omega), err_bind]

/-- **C104**: `isometrise` raises `IndexError` for every PEPS made by `fPEPS(data)` (or `copy`, `T`, `R`, `apply`, …) whose grid is not square,
and every centre that passes the assertion: `Lx` is then the number of rows. -/
theorem isometrise_constructed (hx : x.Holds m n ph vE hE g) (hLx : x.Lx = m) (hLy : x.Ly = n) (hne : m ≠ n) {ci cj : ℤ}
    (hc : 0 ≤ ci ∧ ci < x.Lx ∧ 0 ≤ cj ∧ cj < x.Ly) : isometrise svd x ci cj = .error .indexError := by
  rw [isometrise_eq hc, truncateAll_swapped hx hLx hLy hne, err_bind]

/-- **C104**: with `Lx` columns and `Ly` rows (as made by `random`), more than one of each, `isometrise` raises `IndexError` if there are more columns than rows,
and `Exception` if there is one row more than columns. -/
theorem isometrise_rect (hx : x.Holds m n ph vE hE g) (hLx : x.Lx = n) (hLy : x.Ly = m) (hm1 : 1 < m) (hn1 : 1 < n) {ci cj : ℤ}
    (hc : 0 ≤ ci ∧ ci < x.Lx ∧ 0 ≤ cj ∧ cj < x.Ly) :
    (m < n → isometrise svd x ci cj = .error .indexError) ∧ (m = n + 1 → isometrise svd x ci cj = .error .exception) := by
  have := truncateAll_rect hx hLx hLy hm1 hn1
  rw [isometrise_eq hc]
  exact ⟨fun h => by rw [this.1 h, err_bind], fun h => by rw [this.2 h, err_bind]⟩

/-- `iso_E` at a site, as a sum over the tensor of that site -/
theorem isoEAt_eq (O : SetOrder) (hx : x.Holds m n ph vE hE g) (j : Fin m) (i : Fin n) {op : ND ℂ} (hop : op.shape = [ph j i, ph j i]) :
    isoEAt O x op (i.1 : ℤ) (j.1 : ℤ) = .ok (∑ s ∈ range (ph j i), ∑ u ∈ range (vE j.castSucc i), ∑ r ∈ range (hE j i.succ), ∑ d ∈ range (vE j.succ i),
      ∑ l ∈ range (hE j i.castSucc), star ((g j i).val [s, u, r, d, l]) * ∑ t ∈ range (ph j i), op.val [s, t] * (g j i).val [t, u, r, d, l]).re := by
  have hA := hx.grid j i
  obtain ⟨R, h1, _, h3⟩ := nc_eval O (AA := [(g j i).conj, op, g j i]) (v := [[5, 1, 2, 3, 4], [5, 6], [6, 1, 2, 3, 4]])
    (dimOf [(1, vE j.castSucc i), (2, hE j i.succ), (3, vE j.succ i), (4, hE j i.castSucc), (5, ph j i), (6, ph j i)]) [1, 2, 3, 4, 5, 6] []
    ⟨by simp, by simp [ND.conj, hA, hop, dimOf, List.lookup], by simp, by simp, by decide, by decide, by decide, by decide, by decide⟩ (by decide) (by decide)
  unfold isoEAt
  rw [hx.data]
  have e1 : pyGetI (gridList g) (j.1 : ℤ) = .ok (List.ofFn (g j)) := by
    simp [pyGetI, pyGet, gridList]
  have e2 : pyGetI (List.ofFn (g j)) (i.1 : ℤ) = .ok (g j i) := by
    simp [pyGetI, pyGet]
  rw [e1, ok_bind, e2, ok_bind, h1, ok_bind, h3 [] rfl]
  refine congrArg (fun z : ℂ => (Except.ok z.re : Py ℝ)) ?_
  have hv : labelSum [1, 2, 3, 4, 5, 6] (dimOf [(1, vE j.castSucc i), (2, hE j i.succ), (3, vE j.succ i), (4, hE j i.castSucc), (5, ph j i), (6, ph j i)])
      (netTerm [(g j i).conj, op, g j i] [[5, 1, 2, 3, 4], [5, 6], [6, 1, 2, 3, 4]]) (assign [] []) =
      ∑ u ∈ range (vE j.castSucc i), ∑ r ∈ range (hE j i.succ), ∑ d ∈ range (vE j.succ i), ∑ l ∈ range (hE j i.castSucc), ∑ s ∈ range (ph j i),
        ∑ t ∈ range (ph j i), star ((g j i).val [s, u, r, d, l]) * (op.val [s, t] * (g j i).val [t, u, r, d, l]) := by
    simp [labelSum, netTerm, dimOf, List.lookup, Function.update, ND.conj]
  rw [hv]
  simp only [mul_sum]
  symm
  rw [sum_comm]
  refine sum_congr rfl fun u _ => ?_
  rw [sum_comm]
  refine sum_congr rfl fun r _ => ?_
  rw [sum_comm]
  refine sum_congr rfl fun d _ => ?_
  rw [sum_comm]

/-- **C103**: at the centre of an isometric PEPS `iso_E(op)` is `E(op, oc)`. -/
theorem isoE_eq_expval {m n : ℕ} {ph : Fin (m + 1) → Fin (n + 2) → ℕ} {vE : Fin (m + 2) → Fin (n + 2) → ℕ} {hE : Fin (m + 1) → Fin (n + 3) → ℕ}
    {g : Fin (m + 1) → Fin (n + 2) → ND ℂ} (O : SetOrder) (rest : FPEPS → List (List (ND ℂ)) × ND ℂ × List (ND ℂ) → Py FPEPS) (chi : Option ℕ)
    (hx : x.Holds (m + 1) (n + 2) ph vE hE g) (ox : OpenGrid vE hE) (hv : ∀ j i, 0 < vE j i) {cj : Fin (m + 1)} {ci : Fin (n + 2)}
    (hiso : IsoGrid ph vE hE g cj ci) (hoc : x.oc = some ((ci.1 : ℤ), (cj.1 : ℤ))) {op : ND ℂ} (hop : op.shape = [ph cj ci, ph cj ci]) :
    isoE O svd rest x op none chi = expval O x op ci cj := by
  set B : ND ℂ := ⟨(g cj ci).shape, fun idx => ∑ t ∈ range (ph cj ci), op.val [idx.getD 0 0, t] * (g cj ci).val (t :: idx.tail)⟩ with hB
  have hBv : ∀ u a b e f, B.val [u, a, b, e, f] = ∑ t ∈ range (ph cj ci), op.val [u, t] * (g cj ci).val [t, a, b, e, f] := fun u a b e f => rfl
  have h1 := iso_braket (g' := setAt g cj ci B) ox hv hiso fun j i h => setAt_ne g B h
  have e1 : isoE O svd rest x op none chi = isoEAt O x op (ci.1 : ℤ) (cj.1 : ℤ) := by
    unfold isoE
    rw [hoc]
    simp
  rw [e1, isoEAt_eq O hx cj ci hop, expval_eq O hx ox cj ci hop]
  refine congrArg (fun z : ℂ => (Except.ok z.re : Py ℝ)) ?_
  simp only [setAt_same, hBv] at h1
  rw [← h1]
  unfold pepsBraket
  refine sum_congr rfl fun s _ => ?_
  rw [amp_setAt (fun a b => op.val [a, b]) hBv, mul_sum]

/-- **C102**: an isometric PEPS whose centre has norm 1 has norm 1. -/
theorem iso_norm {m n : ℕ} {ph : Fin (m + 1) → Fin (n + 2) → ℕ} {vE : Fin (m + 2) → Fin (n + 2) → ℕ} {hE : Fin (m + 1) → Fin (n + 3) → ℕ}
    {g : Fin (m + 1) → Fin (n + 2) → ND ℂ} (O : SetOrder)
    (hx : x.Holds (m + 1) (n + 2) ph vE hE g) (ox : OpenGrid vE hE) (hv : ∀ j i, 0 < vE j i) {cj : Fin (m + 1)} {ci : Fin (n + 2)}
    (hiso : IsoGrid ph vE hE g cj ci) : ∃ t, norm O x = .ok t ∧ t.shape = [1, 1] ∧ t.val [0, 0] = (g cj ci).norm := by
  obtain ⟨t, h1, h2, h3⟩ := norm_eq O hx ox
  refine ⟨t, h1, h2, ?_⟩
  rw [h3, ND.norm]
  congr 1
  have h := iso_braket (g' := g) ox hv hiso fun _ _ _ => rfl
  rw [pepsBraket_self] at h
  have hs : sumIdx (g cj ci).shape (fun idx => Complex.normSq ((g cj ci).val idx)) = ∑ s ∈ range (ph cj ci), ∑ u ∈ range (vE cj.castSucc ci), ∑ r ∈ range (hE cj ci.succ),
      ∑ d ∈ range (vE cj.succ ci), ∑ l ∈ range (hE cj ci.castSucc), Complex.normSq ((g cj ci).val [s, u, r, d, l]) := by
    rw [hx.grid cj ci]
    simp [sumIdx_cons, sumIdx_nil]
  rw [hs]
  have : ((∑ s ∈ bondVals ph, ‖pepsAmp vE hE g s‖ ^ 2 : ℝ) : ℂ) = ((∑ s ∈ range (ph cj ci), ∑ u ∈ range (vE cj.castSucc ci), ∑ r ∈ range (hE cj ci.succ),
      ∑ d ∈ range (vE cj.succ ci), ∑ l ∈ range (hE cj ci.castSucc), Complex.normSq ((g cj ci).val [s, u, r, d, l]) : ℝ) : ℂ) := by
    rw [h]
    push_cast
    simp only [Complex.normSq_eq_conj_mul_self, Complex.star_def]
  exact_mod_cast this

theorem norm_isometriseCenter {A : ND ℂ} (h : A.norm ≠ 0) : (isometriseCenter A).norm = 1 := by
  have e : (isometriseCenter A).norm = A.norm⁻¹ * A.norm := by
    conv_lhs => rw [ND.norm]
    have : sumIdx (isometriseCenter A).shape (fun idx => Complex.normSq ((isometriseCenter A).val idx)) =
        A.norm⁻¹ ^ 2 * sumIdx A.shape fun idx => Complex.normSq (A.val idx) := by
      rw [← sumIdx_mul_left]
      refine sumIdx_congr fun idx _ => ?_
      simp [isometriseCenter, ND.smul, Complex.normSq_mul, sq]
    rw [this, Real.sqrt_mul (sq_nonneg _), Real.sqrt_sq (inv_nonneg.2 (by unfold ND.norm; positivity))]
    rfl
  rw [e, inv_mul_cancel₀ h]

theorem sumIdx_pos_of : ∀ {s idx : List ℕ} {f : List ℕ → ℝ}, (∀ i, 0 ≤ f i) → InB s idx → 0 < f idx → 0 < sumIdx s f
  | [], [], f, _, _, h => by simpa using h
  | k :: s, a :: idx, f, h0, hb, h => by
    obtain ⟨h1, h2⟩ : a < k ∧ InB s idx := hb
    rw [sumIdx_cons]
    have hn : ∀ {s : List ℕ} {f : List ℕ → ℝ}, (∀ i, 0 ≤ f i) → 0 ≤ sumIdx s f := by
      intro s
      induction s with
      | nil => intro f h; simpa using h []
      | cons k s ih => intro f h; rw [sumIdx_cons]; exact sum_nonneg fun a _ => ih fun i => h _
    exact sum_pos' (fun b _ => hn fun i => h0 _) ⟨a, mem_range.2 h1, sumIdx_pos_of (fun i => h0 _) h2 h⟩

theorem norm_ne_zero {A : ND ℂ} {idx : List ℕ} (hidx : InB A.shape idx) (h : A.val idx ≠ 0) : A.norm ≠ 0 := by
  unfold ND.norm
  exact (Real.sqrt_pos.2 (sumIdx_pos_of (fun _ => Complex.normSq_nonneg _) hidx (Complex.normSq_pos.2 h))).ne'

/-- **C102, C103**: whenever `isometrise(oc)` returns, for a PEPS with open boundaries whose `Lx`, `Ly` are the numbers of columns and rows in either order,
the result is isometric towards `oc` on bonds no larger than before, has norm 1 (if the centre is not 0 on the remaining bonds), and `iso_E(op)` is `E(op, oc)`. -/
theorem isometrise_isometric {m n : ℕ} {ph : Fin (m + 1) → Fin (n + 2) → ℕ} {vE : Fin (m + 2) → Fin (n + 2) → ℕ} {hE : Fin (m + 1) → Fin (n + 3) → ℕ}
    {g : Fin (m + 1) → Fin (n + 2) → ND ℂ} (O : SetOrder) (hsvd : SVDLaw svd) (hx : x.Holds (m + 1) (n + 2) ph vE hE g) (ox : OpenGrid vE hE)
    (hp : ∀ j i, 0 < ph j i) (hv : ∀ j i, 0 < vE j i) (hh : ∀ j i, 0 < hE j i) (hd : 0 < x.d)
    (hL : x.Lx = n + 2 ∧ x.Ly = m + 1 ∨ x.Lx = m + 1 ∧ x.Ly = n + 2) {ci cj : ℤ} {y : FPEPS} (h : isometrise svd x ci cj = .ok y) :
    ∃ (j : Fin (m + 1)) (i : Fin (n + 2)) (V : Fin (m + 2) → Fin (n + 2) → ℕ) (W : Fin (m + 1) → Fin (n + 3) → ℕ) (g' : Fin (m + 1) → Fin (n + 2) → ND ℂ),
      ci = i.1 ∧ cj = j.1 ∧ y.oc = some (ci, cj) ∧ y.d = x.d ∧ y.X = x.X ∧ y.Lx = x.Lx ∧ y.Ly = x.Ly ∧
      y.Holds (m + 1) (n + 2) ph V W g' ∧ (∀ a b, V a b ≤ vE a b) ∧ (∀ a b, W a b ≤ hE a b) ∧ OpenGrid V W ∧ IsoGrid ph V W g' j i ∧
      ((∃ idx, InB (g' j i).shape idx ∧ (g j i).val idx ≠ 0) → ∃ t, norm O y = .ok t ∧ t.shape = [1, 1] ∧ t.val [0, 0] = 1) ∧
      ∀ op rest chi, op.shape = [ph j i, ph j i] → isoE O svd rest y op none chi = expval O y op i j := by
  have hc : 0 ≤ ci ∧ ci < x.Lx ∧ 0 ≤ cj ∧ cj < x.Ly := by
    by_contra hc
    rw [isometrise_assert hc] at h
    cases h
  have hsq : x.Lx = n + 2 ∧ x.Ly = m + 1 := by
    rcases hL with hL | hL
    · exact hL
    · by_cases he : m + 1 = n + 2
      · omega
      · rw [isometrise_constructed hx hL.1 hL.2 he hc] at h
        cases h
  have hs : m + 1 = 1 ∨ n + 2 = 1 ∨ n + 2 ≤ m + 1 ∧ m + 1 ≠ n + 2 + 1 := by
    by_contra hs
    have hm1 : 1 < m + 1 := by omega
    have := isometrise_rect (svd := svd) hx hsq.1 hsq.2 hm1 (by omega) hc
    by_cases hlt : m + 1 < n + 2
    · rw [this.1 hlt] at h
      cases h
    · rw [this.2 (by omega)] at h
      cases h
  obtain ⟨i, hi⟩ : ∃ i : Fin (n + 2), ci = i.1 := ⟨⟨ci.toNat, by omega⟩, by simp; omega⟩
  obtain ⟨j, hj⟩ : ∃ j : Fin (m + 1), cj = j.1 := ⟨⟨cj.toNat, by omega⟩, by simp; omega⟩
  subst hi hj
  by_cases hf : ∀ a b, (a, b) ≠ (j, i) → Fits ph (vIso x.d vE) (hIso x.d hE) j i a b
  · obtain ⟨y', g', h1, h2, h3, h4, h5, h6, h7, h8, h9⟩ := isometrise_fits hsvd hx hp hv hh hd hsq.1 hsq.2 hs j i hf
    rw [h1] at h
    cases h
    have hop := openGrid_iso hd ox
    have hvp := vIso_pos hd hv
    refine ⟨j, i, _, _, g', rfl, rfl, h4, h5, h6, h7, h8, h2, vIso_le x.d, hIso_le x.d, hop, h3, ?_, ?_⟩
    · rintro ⟨idx, hidx, hne⟩
      obtain ⟨t, t1, t2, t3⟩ := iso_norm O h2 hop hvp h3
      refine ⟨t, t1, t2, ?_⟩
      rw [h9] at hidx
      rw [t3, h9]
      exact norm_isometriseCenter (norm_ne_zero (idx := idx) hidx hne)
    · intro op rest chi ho
      exact isoE_eq_expval O rest chi h2 hop hvp h3 h4 ho
  · push Not at hf
    obtain ⟨a, b, hne, hu⟩ := hf
    rw [isometrise_unfit hsvd hx hp hv hh hd hsq.1 hsq.2 hs j i ⟨a, b, hne, hu⟩] at h
    cases h

/-- **C104**: on an `L` by `L` PEPS made by `random`, `isometrise(oc)` returns exactly for `L ≤ 6`, `X ≤ d²`, `d = 1`, or `L = 7` with `oc = (3, 3)`; otherwise it
raises `Exception`, whatever the entries. -/
theorem random_isometrise (hsvd : SVDLaw svd) (rnd : ℕ → ℕ → List ℕ → ℂ) {L d X : ℕ} (hL : 2 ≤ L) (hd : 0 < d) (hX : 0 < X) (ci cj : Fin L) :
    ∃ x, random rnd L L d X = .ok x ∧
      ((L ≤ 6 ∨ X ≤ d ^ 2 ∨ d = 1 ∨ L = 7 ∧ cj.1 = 3 ∧ ci.1 = 3) → ∃ y, isometrise svd x (ci.1 : ℤ) (cj.1 : ℤ) = .ok y) ∧
      (¬ (L ≤ 6 ∨ X ≤ d ^ 2 ∨ d = 1 ∨ L = 7 ∧ cj.1 = 3 ∧ ci.1 = 3) → isometrise svd x (ci.1 : ℤ) (cj.1 : ℤ) = .error .exception) := by
  obtain ⟨x, h1, h2, h3, h4, h5, h6, h7⟩ := random_holds rnd d X (m := L) (n := L) (by omega) (by omega) (by omega)
  refine ⟨x, h1, fun h => ?_, fun h => ?_⟩
  · have hf := fits_small hL hd hX h
    rw [← h4] at hf
    obtain ⟨y, _, h', _⟩ := isometrise_fits hsvd h7 (fun _ _ => hd) (fun j _ => edgeX_pos hX j) (fun _ i => edgeX_pos hX i) (by omega) h2 h3 (.inr (.inr ⟨le_rfl, by omega⟩)) cj ci
      (by rw [h4]; exact fun j i hne => fits_small hL hd hX h j i hne)
    exact ⟨y, h'⟩
  · push Not at h
    obtain ⟨j, i, hne, hu⟩ := unfit_large (d := d) (X := X) (cj := cj) (ci := ci) (by omega) h.2.1 (by omega) (by
      rintro ⟨a, b, c⟩
      exact h.2.2.2 a b c)
    exact isometrise_unfit hsvd h7 (fun _ _ => hd) (fun j _ => edgeX_pos hX j) (fun _ i => edgeX_pos hX i) (by omega) h2 h3 (.inr (.inr ⟨le_rfl, by omega⟩)) cj ci
      ⟨j, i, hne, by rw [h4]; exact hu⟩

end

/-! ## Moses moves -/

section

variable {svd : ND ℂ → Py (ND ℂ × List ℝ × ND ℂ)} {rest : FPEPS → List (List (ND ℂ)) × ND ℂ × List (ND ℂ) → Py FPEPS} {O : SetOrder}

theorem splitTensor_error (chi : Option ℕ) (A : ND ℂ) : ∃ e, splitTensor svd chi A = .error e := by
  unfold splitTensor
  rcases groupLegs A [[1], [2, 3], [0, 4, 5]] with e | ABC
  · exact ⟨e, rfl⟩
  rw [ok_bind]
  rcases groupLegs ABC.1 [[2], [0, 1]] with e | M
  · exact ⟨e, rfl⟩
  rw [ok_bind]
  rcases svd M.1 with e | USV
  · exact ⟨e, rfl⟩
  rw [ok_bind]
  dsimp only
  split
  · rename_i BlX BrX _
    rcases ND.reshape _ [BlX, BrX, ABC.1.dim 0, ABC.1.dim 1] with e | z
    · exact ⟨e, rfl⟩
    · exact ⟨_, rfl⟩
  · exact ⟨_, rfl⟩

theorem mosesStep_error (chi : Option ℕ) (ci : ℤ) (st : List (List (ND ℂ)) × ND ℂ × List (ND ℂ)) (k : ℕ) : ∃ e, mosesStep O svd chi ci st k = .error e := by
  unfold mosesStep
  rcases pyGetI st.1 (-(k + 1 : ℤ)) with e | row
  · exact ⟨e, rfl⟩
  rw [ok_bind]
  rcases pyGetI row ci with e | A
  · exact ⟨e, rfl⟩
  rw [ok_bind]
  rcases nc O [st.2.1, A] [[1, -4, -5], [-1, -2, -3, 1, -6]] with e | zipper
  · exact ⟨e, rfl⟩
  rw [ok_bind]
  obtain ⟨e, he⟩ := splitTensor_error (svd := svd) chi zipper
  exact ⟨e, by rw [he, err_bind]⟩

theorem init_Ly {data : List (List (ND ℂ))} {y : FPEPS} (h : init data = .ok y) : 0 < y.Ly := by
  unfold init at h
  obtain ⟨r0, _, h⟩ := bind_eq_ok h
  obtain ⟨A, hA, h⟩ := bind_eq_ok h
  obtain ⟨d, _, h⟩ := bind_eq_ok h
  obtain ⟨X, _, h⟩ := bind_eq_ok h
  cases h
  unfold pyGet at hA
  rcases r0 with _ | ⟨a, r0⟩
  · simp at hA
  · simp

theorem copy_Ly {x y : FPEPS} (h : x.copy = .ok y) : 0 < y.Ly := by
  unfold copy at h
  obtain ⟨z, hz, h⟩ := bind_eq_ok h
  have := init_Ly hz
  cases h
  exact this

theorem R_Ly {x y : FPEPS} (h : x.R = .ok y) : 0 < y.Ly := by
  unfold R at h
  obtain ⟨_, _, h⟩ := bind_eq_ok h
  obtain ⟨z, hz, h⟩ := bind_eq_ok h
  have := init_Ly hz
  cases h
  exact this

theorem T_Ly {x y : FPEPS} (h : x.T = .ok y) : 0 < y.Ly := by
  unfold T at h
  obtain ⟨_, _, h⟩ := bind_eq_ok h
  obtain ⟨z, hz, h⟩ := bind_eq_ok h
  have := init_Ly hz
  cases h
  exact this

/-- **C105**: `moses_move_right` never returns. -/
theorem mosesRight_error (chi : Option ℕ) {x : FPEPS} (hL : 0 < x.Ly) : ∃ e, mosesRight O svd rest chi x = .error e := by
  unfold mosesRight
  split
  · exact ⟨_, rfl⟩
  · split_ifs
    · exact ⟨_, rfl⟩
    · rcases x.copy with e | z
      · exact ⟨e, rfl⟩
      rw [ok_bind]
      obtain ⟨k, hk⟩ := Nat.exists_eq_succ_of_ne_zero hL.ne'
      rw [hk, List.range_succ_eq_map, List.foldlM_cons]
      obtain ⟨e, he⟩ := mosesStep_error (O := O) (svd := svd) chi _ (z.data, (⟨[1, 1, 1], fun _ => 1⟩ : ND ℂ), []) 0
      exact ⟨e, by rw [he, err_bind, err_bind]⟩

theorem bind_error {α β : Type} {a : Py α} {f : α → Py β} (h : ∀ z, a = .ok z → ∃ e, f z = .error e) : ∃ e, (a >>= f) = .error e := by
  rcases a with e | z
  · exact ⟨e, rfl⟩
  · exact h z rfl

theorem mosesLeft_error (chi : Option ℕ) (x : FPEPS) : ∃ e, mosesLeft (mosesRight O svd rest chi) x = .error e := by
  unfold mosesLeft
  refine bind_error fun y hy => ?_
  obtain ⟨e, he⟩ := mosesRight_error (O := O) (svd := svd) (rest := rest) chi (R_Ly hy)
  exact ⟨e, by rw [he, err_bind]⟩

theorem mosesDown_error (chi : Option ℕ) (x : FPEPS) : ∃ e, mosesDown (mosesRight O svd rest chi) x = .error e := by
  unfold mosesDown
  refine bind_error fun y hy => ?_
  obtain ⟨e, he⟩ := mosesRight_error (O := O) (svd := svd) (rest := rest) chi (T_Ly hy)
  exact ⟨e, by rw [he, err_bind]⟩

theorem mosesUp_error (chi : Option ℕ) (x : FPEPS) : ∃ e, mosesUp (mosesRight O svd rest chi) x = .error e := by
  unfold mosesUp
  refine bind_error fun y _ => bind_error fun z hz => ?_
  obtain ⟨e, he⟩ := mosesRight_error (O := O) (svd := svd) (rest := rest) chi (R_Ly hz)
  exact ⟨e, by rw [he, err_bind]⟩

theorem foldlM_error {f : FPEPS → ℕ → Py FPEPS} {l : List ℕ} {x : FPEPS} (hl : l ≠ []) (h : ∀ k, ∃ e, f x k = .error e) :
    ∃ e, l.foldlM f x = .error e := by
  obtain ⟨a, l, rfl⟩ := List.exists_cons_of_ne_nil hl
  rw [List.foldlM_cons]
  obtain ⟨e, he⟩ := h a
  exact ⟨e, by rw [he, err_bind]⟩

/-- **C105**: `moses_move_oc_to(oc)` never returns, for any PEPS, except when `oc` is the present centre. -/
theorem mosesTo_error (chi : Option ℕ) (x : FPEPS) (i j : ℤ) (h : x.oc ≠ some (i, j)) : ∃ e, mosesTo (mosesRight O svd rest chi) x i j = .error e := by
  unfold mosesTo
  split
  · exact ⟨_, rfl⟩
  · rename_i ci cj hoc
    refine bind_error fun z hz => ?_
    have hzL := copy_Ly hz
    by_cases hi : i = ci
    · have hj : j ≠ cj := by
        rintro rfl
        rw [hoc, hi] at h
        exact h rfl
      rw [hi, sub_self, Int.natAbs_zero, List.range_zero, List.foldlM_nil, py_pure, ok_bind]
      refine foldlM_error (by simp; omega) fun k => ?_
      split_ifs
      · exact mosesDown_error chi z
      · exact mosesUp_error chi z
    · have hne : List.range (i - ci).natAbs ≠ [] := by simp; omega
      obtain ⟨e, he⟩ := foldlM_error (x := z) (f := fun z _ => if 0 < i - ci then mosesRight O svd rest chi z else mosesLeft (mosesRight O svd rest chi) z) hne fun k => by
        split_ifs
        · exact mosesRight_error chi hzL
        · exact mosesLeft_error chi z
      exact ⟨e, by rw [he, err_bind]⟩

/-- **C105**: `iso_E(op, site, chi)` never returns at a site other than the centre, for any PEPS, operator and bond dimension. -/
theorem isoE_off_centre (x : FPEPS) (op : ND ℂ) (site : ℤ × ℤ) (chi : Option ℕ) (h : x.oc ≠ some site) :
    ∃ e, isoE O svd rest x op (some site) chi = .error e := by
  unfold isoE
  split
  · exact ⟨_, rfl⟩
  · rename_i oc hoc
    have hne : site ≠ oc := by
      rintro rfl
      exact h hoc
    rw [if_pos (by simpa using hne)]
    refine bind_error fun z hz => ?_
    have hzo : z.oc = some oc := by
      unfold copy at hz
      obtain ⟨w, _, hz⟩ := bind_eq_ok hz
      cases hz
      exact hoc
    obtain ⟨e, he⟩ := mosesTo_error (O := O) (svd := svd) (rest := rest) chi z site.1 site.2 (by
      rw [hzo]
      intro h'
      exact hne (Option.some.inj h').symm)
    exact ⟨e, by simp only [Option.getD_some]; rw [he, err_bind]⟩

theorem factorsFrom_some {n : ℕ} : ∀ {i : ℕ}, 0 < i → ∃ a b, factorsFrom n i = some (a, b) ∧ a * b = n ∧ 0 < a ∧ a ≤ i ∧ ∀ c, c ∣ n → c ≤ i → c ≤ a
  | i + 1, _ => by
    unfold factorsFrom
    split_ifs with h
    · exact ⟨i + 1, n / (i + 1), rfl, Nat.mul_div_cancel' (Nat.dvd_of_mod_eq_zero h), by omega, le_rfl, fun c _ hc => hc⟩
    · have hi : 0 < i := by
        by_contra h0
        obtain rfl : i = 0 := by omega
        simp [Nat.mod_one] at h
      obtain ⟨a, b, h1, h2, h3, h4, h5⟩ := factorsFrom_some (n := n) hi
      refine ⟨a, b, h1, h2, h3, by omega, fun c hc hci => ?_⟩
      rcases Nat.lt_or_ge c (i + 1) with hlt | hge
      · exact h5 c hc (by omega)
      · obtain rfl : c = i + 1 := by omega
        exact absurd (Nat.mod_eq_zero_of_dvd hc) h

/-- **C105**: `factors(n)` returns two factors of `n` as close to each other as possible, for all `n ≥ 1`. -/
theorem factors_closest {n : ℕ} (hn : 0 < n) :
    ∃ a b, factors n = some (a, b) ∧ a * b = n ∧ ∀ a' b' : ℕ, a' * b' = n → |(a : ℤ) - b| ≤ |(a' : ℤ) - b'| := by
  obtain ⟨a, b, h1, h2, h3, h4, h5⟩ := factorsFrom_some (n := n) (i := n.sqrt + 1) (by omega)
  refine ⟨a, b, h1, h2, ?_⟩
  have hlo : n.sqrt * n.sqrt ≤ n := Nat.sqrt_le n
  have hhi : n < (n.sqrt + 1) * (n.sqrt + 1) := Nat.lt_succ_sqrt n
  set f := n.sqrt with hf
  have hf0 : 0 < f := Nat.sqrt_pos.2 hn
  have key : ∀ a' b' : ℕ, a' * b' = n → a' ≤ b' → |(a : ℤ) - b| ≤ (b' : ℤ) - a' := by
    intro a' b' hab hle
    have ha'f : a' ≤ f := by
      by_contra hc
      have : (f + 1) * (f + 1) ≤ a' * b' := Nat.mul_le_mul (by omega) (by omega)
      omega
    have ha' : a' ≤ a := h5 a' ⟨b', hab.symm⟩ (by omega)
    have hbb : b ≤ b' := by
      by_contra hc
      have : a' * b' < a * b := Nat.mul_lt_mul_of_le_of_lt ha' (by omega) h3
      omega
    rcases Nat.lt_or_ge f a with hfa | hfa
    · obtain rfl : a = f + 1 := by omega
      have hb1 : b < f + 1 := by
        by_contra hc
        have : (f + 1) * (f + 1) ≤ (f + 1) * b := Nat.mul_le_mul_left _ (by omega)
        omega
      have hb2 : f ≤ b := by
        by_contra hc
        have : (f + 1) * b ≤ (f + 1) * (f - 1) := Nat.mul_le_mul_left _ (by omega)
        have e : (f + 1) * (f - 1) < f * f := by
          obtain ⟨k, hk⟩ := Nat.exists_eq_succ_of_ne_zero hf0.ne'
          rw [hk, Nat.succ_eq_add_one, Nat.add_sub_cancel]
          nlinarith
        omega
      have hbf : b = f := by omega
      have hne : a' ≠ b' := by
        rintro rfl
        have hn' : a' * a' = (f + 1) * f := by rw [hab, ← h2, hbf]
        rcases Nat.lt_or_ge a' (f + 1) with h | h
        · have : a' * a' ≤ f * f := Nat.mul_le_mul ha'f ha'f
          nlinarith
        · omega
      rw [hbf, abs_le]
      push_cast
      constructor <;> omega
    · have hab' : a ≤ b := by
        by_contra hc
        have h6 : a * b < a * a := Nat.mul_lt_mul_of_pos_left (by omega) h3
        have h7 : a * a ≤ f * f := Nat.mul_le_mul hfa hfa
        omega
      rw [abs_le]
      constructor <;> omega
  intro a' b' hab
  rcases le_total a' b' with h | h
  · exact (key a' b' hab h).trans (by rw [abs_sub_comm]; exact le_abs_self _)
  · exact (key b' a' (by rw [mul_comm]; exact hab) h).trans (le_abs_self _)

/-- `factors(0)` is `[1, 0]`, which is not the closest pair. -/
example : factors 0 = some (1, 0) := by simp [factors, factorsFrom]

example : factors 12 = some (4, 3) := by
  have : Nat.sqrt 12 = 3 := (Nat.eq_sqrt.2 ⟨by norm_num, by norm_num⟩).symm
  simp [factors, factorsFrom, this]

end

/-! ## The hypotheses are met -/

section

/-- a random 3 by 3 PEPS with `d = 2`, `X = 3`: `isometrise((1, 1))` returns and gives an isometric PEPS -/
example (rnd : ℕ → ℕ → List ℕ → ℂ) (O : SetOrder) : ∃ svd x y, SVDLaw svd ∧ random rnd 3 3 2 3 = .ok x ∧ isometrise svd x 1 1 = .ok y ∧
    ∃ (V : Fin 4 → Fin 3 → ℕ) (W : Fin 3 → Fin 4 → ℕ) (g' : Fin 3 → Fin 3 → ND ℂ), y.Holds 3 3 (fun _ _ => 2) V W g' ∧ IsoGrid (fun _ _ => 2) V W g' 1 1 := by
  obtain ⟨svd, hsvd⟩ := svdLaw_exists
  obtain ⟨x, h1, h2, h3, h4, h5, h6, h7⟩ := random_holds rnd 2 3 (m := 3) (n := 3) (by omega) (by omega) (by omega)
  obtain ⟨x', e, h8, _⟩ := random_isometrise hsvd rnd (L := 3) (d := 2) (X := 3) (by omega) (by omega) (by omega) 1 1
  rw [h1] at e
  cases e
  obtain ⟨y, hy⟩ := h8 (.inl (by omega))
  have op : OpenGrid (fun (j : Fin (2 + 2)) (_ : Fin (1 + 2)) => edgeX 3 3 j) (fun (_ : Fin (2 + 1)) (i : Fin (1 + 3)) => edgeX 3 3 i) := by
    constructor <;> intro _ <;> simp [edgeX]
  obtain ⟨j, i, V, W, g', e1, e2, _, _, _, _, _, h, _, _, _, hi, _⟩ := isometrise_isometric (m := 2) (n := 1) O hsvd h7 op (fun _ _ => by omega) (fun j _ => edgeX_pos (by omega) _)
    (fun _ i => edgeX_pos (by omega) _) (by omega) (.inl ⟨h2, h3⟩) hy
  have ej : j = 1 := Fin.ext (by simpa using e2.symm)
  have ei : i = 1 := Fin.ext (by simpa using e1.symm)
  subst ej ei
  exact ⟨svd, x, y, hsvd, h1, hy, V, W, g', h, hi⟩

/-- an 8 by 8 PEPS with `d = 2`, `X = 5` cannot be made isometric -/
example (rnd : ℕ → ℕ → List ℕ → ℂ) : ∃ svd x, SVDLaw svd ∧ random rnd 8 8 2 5 = .ok x ∧ isometrise svd x 4 4 = .error .exception := by
  obtain ⟨svd, hsvd⟩ := svdLaw_exists
  obtain ⟨x, h1, _, h2⟩ := random_isometrise hsvd rnd (L := 8) (d := 2) (X := 5) (by omega) (by omega) (by omega) 4 4
  exact ⟨svd, x, hsvd, h1, h2 (by omega)⟩

/-- a PEPS of 2 rows and 3 columns made by `random` -/
example (rnd : ℕ → ℕ → List ℕ → ℂ) (svd : ND ℂ → Py (ND ℂ × List ℝ × ND ℂ)) : ∃ x, random rnd 3 2 2 2 = .ok x ∧ isometrise svd x 0 0 = .error .indexError := by
  obtain ⟨x, h1, h2, h3, _, _, _, h7⟩ := random_holds rnd 2 2 (m := 2) (n := 3) (by omega) (by omega) (by omega)
  exact ⟨x, h1, (isometrise_rect h7 h2 h3 (by omega) (by omega) (by rw [h2, h3]; simp)).1 (by omega)⟩

/-- a PEPS of 4 rows and 3 columns made by `random`, and its copy -/
example (rnd : ℕ → ℕ → List ℕ → ℂ) (svd : ND ℂ → Py (ND ℂ × List ℝ × ND ℂ)) : ∃ x z, random rnd 3 4 2 2 = .ok x ∧ isometrise svd x 0 0 = .error .exception ∧
    x.copy = .ok z ∧ isometrise svd z 0 0 = .error .indexError := by
  obtain ⟨x, h1, h2, h3, _, _, _, h7⟩ := random_holds rnd 2 2 (m := 4) (n := 3) (by omega) (by omega) (by omega)
  obtain ⟨z, z1, z2, _, _, _, z6, z7⟩ := h7.copy
  exact ⟨x, z, h1, (isometrise_rect h7 h2 h3 (by omega) (by omega) (by rw [h2, h3]; simp)).2 (by omega), z1,
    isometrise_constructed z2 z6 z7 (by omega) (by rw [z6, z7]; simp)⟩

end

end Xmps.FPEPS
