import Verif.Lemmas.TangentVec
import Verif.Props.TdvpCanon

/-!
# Coordinates of tangent vectors (C49)
-/

namespace Xmps

open Finset Spec Xmps.Ncon

theorem chain_shapes : ∀ {ds : List ℕ} {As Bs : List (ND ℂ)} {l r : ℕ}, MpsChain ds As l r → Bs.map ND.shape = As.map ND.shape → MpsChain ds Bs l r
  | [], [], [], _, _, h, _ => h
  | d :: ds, A :: As, B :: Bs, l, r, ⟨m, hA, h⟩, e => by
    simp only [List.map_cons, List.cons.injEq] at e
    exact ⟨m, by rw [e.1, hA], chain_shapes h e.2⟩
  | [], [], _ :: _, _, _, _, e => by simp at e
  | _ :: _, _ :: _, [], _, _, _, e => by simp at e
  | [], _ :: _, _, _, _, h, _ => absurd h (by simp [MpsChain])
  | _ :: _, [], _, _, _, h, _ => absurd h (by simp [MpsChain])

section
variable {chol inv null : ND ℂ → Py (ND ℂ)} {O : SetOrder} {x : FMPS ℂ} {L d m N : ℕ} {ls rs : List (ND ℂ)}
  {pr vL l r : ℕ → ND ℂ} {p q k : ℕ → ℕ} {lam rho : ℕ → ℕ → ℝ}

/-- the prefix of sites without tangent vectors -/
theorem filter_prefix {α : Type} (f : ℕ → α) (P : α → Bool) (h : ∀ i < m + N, P (f i) = true ↔ m ≤ i) :
    ((List.range (m + N)).map f).filter P = (List.range N).map fun j => f (m + j) := by
  rw [List.range_add, List.map_append, List.filter_append, List.filter_eq_nil_iff.2, List.filter_eq_self.2]
  · simp [Function.comp_def]
  · intro a ha
    simp only [List.map_map, List.mem_map, List.mem_range, Function.comp_def] at ha
    obtain ⟨j, hj, rfl⟩ := ha
    exact (h (m + j) (by omega)).2 (by omega)
  · intro a ha
    simp only [List.mem_map, List.mem_range] at ha
    obtain ⟨j, hj, rfl⟩ := ha
    rw [h j (by omega)]
    omega

theorem extract_ok (hchol : CholTriLaw chol) (hE : x.getEnvs = .ok (ls, rs)) (hlen : x.data.length = m + N) (hN : 0 < N)
    (hs : ∀ i (hi : i < x.data.length), FMPS.leftNull chol inv null O x ls i = .ok (pr i, vL i) ∧
      TSite (m + N) d x.data ls rs i x.data[i] (vL i) (l i) (r i) (p i) (q i) (k i) (lam i) (rho i))
    (hD : x.tangentSpaceDims chol inv null O ls = .ok ((List.range (m + N)).map vL, (List.range (m + N)).map fun i => (k i, q i)))
    (hz : ∀ i < m + N, k i * q i = 0 ↔ i < m) {dA : List (ND ℂ)} {B : ℕ → ND ℂ} (hB : ∀ i < m + N, pyGet dA i = .ok (B i) ∧ (B i).shape = [d, p i, q i]) :
    ∃ w : ℕ → ND ℂ, FMPS.extractTangent chol inv null O x dA = .ok ((List.range N).map fun j => (w (m + j)).flat).flatten ∧
      ∀ i < m + N, (w i).shape = [k i, q i] ∧ ∀ k1 < k i, ∀ c < q i, (w i).val [k1, c] = ∑ s ∈ range d, ∑ a ∈ range (p i),
        star ((vL i).val [s, a, k1]) * (((Real.sqrt (lam i a) : ℝ) : ℂ) * (B i).val [s, a, c] * ((Real.sqrt (rho i c) : ℝ) : ℂ)) := by
  have hw : ∀ i, ∃ w : ND ℂ, i < m + N → FMPS.extractSite chol inv null O x ls rs dA i = .ok w.flat ∧ w.shape = [k i, q i] ∧ ∀ k1 < k i, ∀ c < q i,
      w.val [k1, c] = ∑ s ∈ range d, ∑ a ∈ range (p i),
        star ((vL i).val [s, a, k1]) * (((Real.sqrt (lam i a) : ℝ) : ℂ) * (B i).val [s, a, c] * ((Real.sqrt (rho i c) : ℝ) : ℂ)) := by
    intro i
    by_cases hi : i < m + N
    · obtain ⟨h1, h2⟩ := hs i (by omega)
      obtain ⟨w, e, hw, hv⟩ := h2.extract hchol O h1 (hB i hi).1 (hB i hi).2
      exact ⟨w, fun _ => ⟨e, hw, hv⟩⟩
    · exact ⟨zerosND [], fun h => absurd h hi⟩
  choose w hw using hw
  refine ⟨w, ?_, fun i hi => ⟨(hw i hi).2.1, (hw i hi).2.2⟩⟩
  have e1 := mapM_zipIdx (l := (List.range (m + N)).map fun i => (k i, q i))
    (g := fun i => if k i * q i = 0 then none else some (w i).flat) (f := fun a => if a.1.1 * a.1.2 = 0 then (.ok none : Py (Option (List ℂ)))
      else do
        let w ← FMPS.extractSite chol inv null O x ls rs dA a.2
        .ok (some w)) (by
      intro j hj
      have hj : j < m + N := by simpa using hj
      simp only [List.getElem_map, List.getElem_range]
      by_cases h0 : k j * q j = 0
      · rw [if_pos h0, if_pos h0]
      · rw [if_neg h0, if_neg h0, (hw j hj).1, ok_bind])
  have e2 : ((List.range ((List.range (m + N)).map fun i => (k i, q i)).length).map fun i => if k i * q i = 0 then none else some (w i).flat).filterMap id =
      (List.range N).map fun j => (w (m + j)).flat := by
    rw [List.length_map, List.length_range, List.range_add, List.map_append, List.filterMap_append, List.filterMap_eq_nil_iff.2, List.nil_append,
      List.map_map, List.filterMap_map, ← List.filterMap_eq_map]
    · refine List.filterMap_congr fun j hj => ?_
      have hj := List.mem_range.1 hj
      have : ¬ k (m + j) * q (m + j) = 0 := by
        rw [hz (m + j) (by omega)]
        omega
      simp only [Function.comp_apply, if_neg this, id]
    · intro a ha
      simp only [List.mem_map, List.mem_range] at ha
      obtain ⟨j, hj, rfl⟩ := ha
      rw [if_pos ((hz j (by omega)).2 hj)]
      rfl
  unfold FMPS.extractTangent
  rw [hE, ok_bind]
  simp only
  rw [hD, ok_bind]
  simp only
  rw [e1, ok_bind, e2]
  obtain ⟨N, rfl⟩ : ∃ n, N = n + 1 := ⟨N - 1, by omega⟩
  simp [guardPy, List.range_succ_eq_map]

theorem import_ok (hchol : CholTriLaw chol) (hinv : InvLaw inv) (hE : x.getEnvs = .ok (ls, rs)) (hlen : x.data.length = m + N) (hd : 0 < d)
    (hs : ∀ i (hi : i < x.data.length), FMPS.leftNull chol inv null O x ls i = .ok (pr i, vL i) ∧
      TSite (m + N) d x.data ls rs i x.data[i] (vL i) (l i) (r i) (p i) (q i) (k i) (lam i) (rho i))
    (hD : x.tangentSpaceDims chol inv null O ls = .ok ((List.range (m + N)).map vL, (List.range (m + N)).map fun i => (k i, q i)))
    (hz : ∀ i < m + N, k i * q i = 0 ↔ i < m) {v : List ℂ} (hv : v.length = ((List.range N).map fun j => k (m + j) * q (m + j)).sum) :
    ∃ X B : ℕ → ND ℂ, FMPS.importTangent chol inv null O x v = FMPS.init ((List.range (m + N)).map B) ∧
      ((List.range N).map fun j => (X (m + j)).flat).flatten = v ∧
      (∀ i < m + N, (B i).shape = [d, p i, q i]) ∧ (∀ i < m, ∀ idx, (B i).val idx = 0) ∧ ∀ i < m + N, m ≤ i → (X i).shape = [k i, q i] ∧ ∀ s, ∀ a < p i, ∀ c < q i,
        (B i).val [s, a, c] = (((Real.sqrt (lam i a))⁻¹ : ℝ) : ℂ) * (∑ k1 ∈ range (k i), (vL i).val [s, a, k1] * (X i).val [k1, c]) *
          (((Real.sqrt (rho i c))⁻¹ : ℝ) : ℂ) := by
  obtain ⟨xs, e1, hxs, hflat⟩ := cutUp_ok ((List.range N).map fun j => [k (m + j), q (m + j)]) v (by simpa [Function.comp_def] using hv)
  have hxl : xs.length = N := by simpa using congrArg List.length hxs
  have hB : ∀ i, ∃ B : ND ℂ, ∀ (hi : i < m + N), B.shape = [d, p i, q i] ∧ (i < m → ∀ idx, B.val idx = 0) ∧ (i < m → B = zerosND [d, p i, q i]) ∧
      (m ≤ i → FMPS.importSite chol inv (l i) (r i) (vL i) (xs.getD (i - m) (zerosND [])) = .ok B ∧ (xs.getD (i - m) (zerosND [])).shape = [k i, q i] ∧
        ∀ s, ∀ a < p i, ∀ c < q i, B.val [s, a, c] = (((Real.sqrt (lam i a))⁻¹ : ℝ) : ℂ) *
          (∑ k1 ∈ range (k i), (vL i).val [s, a, k1] * (xs.getD (i - m) (zerosND [])).val [k1, c]) * (((Real.sqrt (rho i c))⁻¹ : ℝ) : ℂ)) := by
    intro i
    by_cases hi : i < m + N
    · by_cases him : i < m
      · exact ⟨zerosND [d, p i, q i], fun _ => ⟨rfl, fun _ _ => rfl, fun _ => rfl, fun h => absurd h (by omega)⟩⟩
      · have hsh : (xs.getD (i - m) (zerosND [])).shape = [k i, q i] := by
          rw [List.getD_eq_getElem _ _ (by omega)]
          have := congrArg (fun l => l[i - m]?) hxs
          simp only [List.getElem?_map, List.getElem?_range (show i - m < N by omega), List.getElem?_eq_getElem (show i - m < xs.length by omega),
            Option.map_some, Option.some.injEq] at this
          rw [this, show m + (i - m) = i by omega]
        obtain ⟨B, e, hB, hBv⟩ := (hs i (by omega)).2.import hchol hinv hsh
        exact ⟨B, fun _ => ⟨hB, fun h => absurd h him, fun h => absurd h him, fun _ => ⟨e, hsh, hBv⟩⟩⟩
    · exact ⟨zerosND [], fun h => absurd h hi⟩
  choose B hB using hB
  refine ⟨fun i => xs.getD (i - m) (zerosND []), B, ?_, ?_, fun i hi => (hB i hi).1, fun i hi => (hB i (by omega)).2.1 hi, fun i hi hm => ((hB i hi).2.2.2 hm).2⟩
  · have f1 : ((List.range (m + N)).map vL).filter (fun vL => decide (vL.shape.prod ≠ 0)) = (List.range N).map fun j => vL (m + j) := by
      refine filter_prefix vL _ fun i hi => ?_
      have h := (hs i (by omega)).2
      have hz' := hz i hi
      rw [decide_eq_true_eq, h.basis.shape]
      simp only [List.prod_cons, List.prod_nil, mul_one]
      rw [← not_lt, ← hz']
      have hpp := h.bp
      have hqq := h.bq
      constructor
      · intro h1 h2
        apply h1
        rcases Nat.mul_eq_zero.1 h2 with h3 | h3
        · rw [h3, mul_zero, mul_zero]
        · omega
      · intro h1 h2
        apply h1
        rcases Nat.mul_eq_zero.1 h2 with h3 | h3
        · omega
        · rcases Nat.mul_eq_zero.1 h3 with h4 | h4
          · omega
          · rw [h4, zero_mul]
    have f2 : ((List.range (m + N)).map fun i => (k i, q i)).filter (fun s => decide (s.1 * s.2 ≠ 0)) = (List.range N).map fun j => (k (m + j), q (m + j)) := by
      refine filter_prefix (fun i => (k i, q i)) _ fun i hi => ?_
      rw [decide_eq_true_eq, ← not_lt, ← hz i hi]
    have f3 : (((List.range (m + N)).map fun i => (k i, q i)).filter (fun s => decide (s.1 * s.2 = 0))).length = m := by
      have h1 := List.length_eq_length_filter_add (l := (List.range (m + N)).map fun i => (k i, q i)) (fun s => decide (s.1 * s.2 = 0))
      have h2 : ((List.range (m + N)).map fun i => (k i, q i)).filter (fun s => !decide (s.1 * s.2 = 0)) = (List.range N).map fun j => (k (m + j), q (m + j)) := by
        rw [← f2]
        congr 1
        funext s
        simp
      rw [h2, List.length_map, List.length_range, List.length_map, List.length_range] at h1
      omega
    unfold FMPS.importTangent
    rw [hE, ok_bind]
    simp only
    rw [hD, ok_bind]
    simp only
    rw [f1, f2, f3, List.map_map]
    have : ((fun s : ℕ × ℕ => [s.1, s.2]) ∘ fun j => (k (m + j), q (m + j))) = fun j => [k (m + j), q (m + j)] := rfl
    rw [this, e1, ok_bind]
    have hzip : (((List.range N).map fun j => vL (m + j)).zip xs).length = N := by simp [hxl]
    have e2 := mapM_zipIdx (l := ((List.range N).map fun j => vL (m + j)).zip xs) (g := fun j => B (m + j)) (f := fun a => (do
        let l ← FMPS.envAt ls ((a.2 : ℤ) - 1 + m)
        let r ← FMPS.envAt rs ((a.2 : ℤ) + m)
        FMPS.importSite chol inv l r a.1.1 a.1.2 : Py (ND ℂ))) (by
      intro j hj
      have hj : j < N := by omega
      have h := (hs (m + j) (by omega)).2
      simp only [List.getElem_zip, List.getElem_map, List.getElem_range]
      rw [show (j : ℤ) - 1 + m = ((m + j : ℕ) : ℤ) - 1 by push_cast; ring, show (j : ℤ) + m = ((m + j : ℕ) : ℤ) by push_cast; ring, h.el, ok_bind, h.er,
        ok_bind, ← ((hB (m + j) (by omega)).2.2.2 (by omega)).1, show m + j - m = j by omega, List.getD_eq_getElem _ _ (by omega)])
    rw [e2, ok_bind, hzip]
    congr 1
    rw [List.range_add, List.map_append, List.map_map]
    congr 1
    refine List.ext_getElem (by simp; omega) fun i h1 h2 => ?_
    have hi : i < m := by simpa using h2
    simp only [List.getElem_map, List.getElem_take, List.getElem_range]
    rw [(hB i (by omega)).2.2.1 hi, (hs i (by omega)).2.hA]
  · have : ((List.range N).map fun j => (xs.getD (m + j - m) (zerosND [])).flat) = xs.map ND.flat := by
      refine List.ext_getElem (by simp [hxl]) fun i h1 h2 => ?_
      have hi : i < xs.length := by simpa using h2
      simp only [List.getElem_map, List.getElem_range]
      rw [show m + i - m = i by omega, List.getD_eq_getElem _ _ hi]
    rw [this, hflat]

end

/-! ### one site -/

section
variable {L d i p q k : ℕ} {As ls rs : List (ND ℂ)} {A vL l r : ND ℂ} {lam rho : ℕ → ℝ}

theorem TSite.gauge_iff (h : TSite L d As ls rs i A vL l r p q k lam rho) (W : ND ℂ) :
    LeftGauge d p q (leftEnv ((List.replicate L d).take i) (As.take i)) A W ↔
      ∀ c < q, ∀ c' < q, ∑ s ∈ range d, ∑ a ∈ range p, star (A.val [s, a, c]) * (lam a : ℂ) * W.val [s, a, c'] = 0 := by
  refine forall₂_congr fun c _ => forall₂_congr fun c' _ => ?_
  rw [Finset.sum_congr rfl fun s _ => Finset.sum_congr rfl fun a ha => by
    rw [Finset.sum_eq_single a (by
      intro b hb hne
      rw [h.left a (Finset.mem_range.1 ha) b (Finset.mem_range.1 hb), if_neg (Ne.symm hne), mul_zero, zero_mul]) (fun hn => absurd ha hn),
      h.left a (Finset.mem_range.1 ha) a (Finset.mem_range.1 ha), if_pos rfl]]

theorem TSite.sq (h : TSite L d As ls rs i A vL l r p q k lam rho) {a : ℕ} (ha : a < p) :
    ((Real.sqrt (lam a) : ℝ) : ℂ) * ((Real.sqrt (lam a) : ℝ) : ℂ) = (lam a : ℂ) := by
  rw [← Complex.ofReal_mul, Real.mul_self_sqrt (h.pos a ha).le]

theorem TSite.sq' (h : TSite L d As ls rs i A vL l r p q k lam rho) {a : ℕ} (ha : a < q) :
    ((Real.sqrt (rho a) : ℝ) : ℂ) * ((Real.sqrt (rho a) : ℝ) : ℂ) = (rho a : ℂ) := by
  rw [← Complex.ofReal_mul, Real.mul_self_sqrt (h.pos' a ha).le]

theorem TSite.sqi (h : TSite L d As ls rs i A vL l r p q k lam rho) {a : ℕ} (ha : a < p) :
    ((Real.sqrt (lam a) : ℝ) : ℂ) * (((Real.sqrt (lam a))⁻¹ : ℝ) : ℂ) = 1 := by
  rw [← Complex.ofReal_mul, mul_inv_cancel₀ (Real.sqrt_pos.2 (h.pos a ha)).ne', Complex.ofReal_one]

theorem TSite.sqi' (h : TSite L d As ls rs i A vL l r p q k lam rho) {a : ℕ} (ha : a < q) :
    ((Real.sqrt (rho a) : ℝ) : ℂ) * (((Real.sqrt (rho a))⁻¹ : ℝ) : ℂ) = 1 := by
  rw [← Complex.ofReal_mul, mul_inv_cancel₀ (Real.sqrt_pos.2 (h.pos' a ha)).ne', Complex.ofReal_one]

/-- the coordinates of the tensor `W` -/
noncomputable def siteCoord (d p : ℕ) (vL : ND ℂ) (lam rho : ℕ → ℝ) (W : ND ℂ) (k1 c : ℕ) : ℂ :=
  ∑ s ∈ range d, ∑ a ∈ range p, star (vL.val [s, a, k1]) * (((Real.sqrt (lam a) : ℝ) : ℂ) * W.val [s, a, c] * ((Real.sqrt (rho c) : ℝ) : ℂ))

/-- the tensor with the coordinates `X` -/
noncomputable def siteTensor (k : ℕ) (vL : ND ℂ) (lam rho : ℕ → ℝ) (X : ℕ → ℕ → ℂ) (s a c : ℕ) : ℂ :=
  (((Real.sqrt (lam a))⁻¹ : ℝ) : ℂ) * (∑ k1 ∈ range k, vL.val [s, a, k1] * X k1 c) * (((Real.sqrt (rho c))⁻¹ : ℝ) : ℂ)

/-- a tensor in the gauge is the one with its coordinates -/
theorem TSite.expand (h : TSite L d As ls rs i A vL l r p q k lam rho) {W : ND ℂ}
    (hW : LeftGauge d p q (leftEnv ((List.replicate L d).take i) (As.take i)) A W) {s a c : ℕ} (hs : s < d) (ha : a < p) (hc : c < q) :
    ((Real.sqrt (lam a) : ℝ) : ℂ) * W.val [s, a, c] * ((Real.sqrt (rho c) : ℝ) : ℂ) =
      ∑ k1 ∈ range k, vL.val [s, a, k1] * siteCoord d p vL lam rho W k1 c := by
  rw [h.gauge_iff] at hW
  refine h.basis.complete (fun s a => ((Real.sqrt (lam a) : ℝ) : ℂ) * W.val [s, a, c] * ((Real.sqrt (rho c) : ℝ) : ℂ)) ?_ s hs a ha
  intro c' hc'
  rw [show (0 : ℂ) = 0 * ((Real.sqrt (rho c) : ℝ) : ℂ) by rw [zero_mul], ← hW c' hc' c hc, Finset.sum_mul]
  refine Finset.sum_congr rfl fun t _ => ?_
  rw [Finset.sum_mul]
  refine Finset.sum_congr rfl fun b hb => ?_
  rw [← h.sq (Finset.mem_range.1 hb)]
  ring

theorem TSite.tensor_coord (h : TSite L d As ls rs i A vL l r p q k lam rho) {W : ND ℂ}
    (hW : LeftGauge d p q (leftEnv ((List.replicate L d).take i) (As.take i)) A W) {s a c : ℕ} (hs : s < d) (ha : a < p) (hc : c < q) :
    siteTensor k vL lam rho (siteCoord d p vL lam rho W) s a c = W.val [s, a, c] := by
  unfold siteTensor
  rw [← h.expand hW hs ha hc]
  have e1 := h.sqi ha
  have e2 := h.sqi' hc
  linear_combination (W.val [s, a, c] * ((Real.sqrt (rho c) : ℝ) : ℂ) * (((Real.sqrt (rho c))⁻¹ : ℝ) : ℂ)) * e1 + W.val [s, a, c] * e2

/-- the coordinates of the tensor with the coordinates `X` are `X` -/
theorem TSite.coord_tensor (h : TSite L d As ls rs i A vL l r p q k lam rho) {W : ND ℂ} {X : ℕ → ℕ → ℂ}
    (hW : ∀ s < d, ∀ a < p, ∀ c < q, W.val [s, a, c] = siteTensor k vL lam rho X s a c) {k1 c : ℕ} (hk : k1 < k) (hc : c < q) :
    siteCoord d p vL lam rho W k1 c = X k1 c := by
  have e : ∀ s < d, ∀ a < p, ((Real.sqrt (lam a) : ℝ) : ℂ) * W.val [s, a, c] * ((Real.sqrt (rho c) : ℝ) : ℂ) =
      ∑ k2 ∈ range k, vL.val [s, a, k2] * X k2 c := by
    intro s hs a ha
    rw [hW s hs a ha c hc]
    unfold siteTensor
    have e1 := h.sqi ha
    have e2 := h.sqi' hc
    generalize ∑ k2 ∈ range k, vL.val [s, a, k2] * X k2 c = S
    linear_combination (S * ((Real.sqrt (rho c) : ℝ) : ℂ) * (((Real.sqrt (rho c))⁻¹ : ℝ) : ℂ)) * e1 + S * e2
  unfold siteCoord
  rw [Finset.sum_congr rfl fun s hs => Finset.sum_congr rfl fun a ha => by
    rw [e s (Finset.mem_range.1 hs) a (Finset.mem_range.1 ha), Finset.mul_sum]]
  rw [sum_swap2]
  rw [Finset.sum_congr rfl fun k2 hk2 => by
    rw [Finset.sum_congr rfl fun s _ => Finset.sum_congr rfl fun a _ => (mul_assoc _ _ _).symm]]
  simp only [← Finset.sum_mul]
  rw [Finset.sum_congr rfl fun k2 hk2 => by rw [h.basis.orth k1 hk k2 (Finset.mem_range.1 hk2)]]
  simp [hk]

theorem TSite.gauge_tensor (h : TSite L d As ls rs i A vL l r p q k lam rho) {W : ND ℂ} {X : ℕ → ℕ → ℂ}
    (hW : ∀ s < d, ∀ a < p, ∀ c < q, W.val [s, a, c] = siteTensor k vL lam rho X s a c) :
    LeftGauge d p q (leftEnv ((List.replicate L d).take i) (As.take i)) A W := by
  rw [h.gauge_iff]
  intro c hc c' hc'
  have e : ∀ s < d, ∀ a < p, star (A.val [s, a, c]) * (lam a : ℂ) * W.val [s, a, c'] =
      ∑ k1 ∈ range k, star (A.val [s, a, c]) * ((Real.sqrt (lam a) : ℝ) : ℂ) * vL.val [s, a, k1] * (X k1 c' * (((Real.sqrt (rho c'))⁻¹ : ℝ) : ℂ)) := by
    intro s hs a ha
    rw [hW s hs a ha c' hc', ← h.sq ha]
    unfold siteTensor
    have e1 := h.sqi ha
    rw [show ∑ k1 ∈ range k, star (A.val [s, a, c]) * ((Real.sqrt (lam a) : ℝ) : ℂ) * vL.val [s, a, k1] * (X k1 c' * (((Real.sqrt (rho c'))⁻¹ : ℝ) : ℂ)) =
      star (A.val [s, a, c]) * ((Real.sqrt (lam a) : ℝ) : ℂ) * (∑ k1 ∈ range k, vL.val [s, a, k1] * X k1 c') * (((Real.sqrt (rho c'))⁻¹ : ℝ) : ℂ) by
        rw [Finset.mul_sum, Finset.sum_mul]
        exact Finset.sum_congr rfl fun k1 _ => by ring]
    generalize ∑ k2 ∈ range k, vL.val [s, a, k2] * X k2 c' = S
    linear_combination (star (A.val [s, a, c]) * ((Real.sqrt (lam a) : ℝ) : ℂ) * S * (((Real.sqrt (rho c'))⁻¹ : ℝ) : ℂ)) * e1
  rw [Finset.sum_congr rfl fun s hs => Finset.sum_congr rfl fun a ha => e s (Finset.mem_range.1 hs) a (Finset.mem_range.1 ha)]
  rw [sum_swap2]
  refine Finset.sum_eq_zero fun k1 hk1 => ?_
  simp only [← Finset.sum_mul]
  rw [h.basis.null c hc k1 (Finset.mem_range.1 hk1), zero_mul]

/-- the inner product of two tensors in the gauge, in the metric of the environments, is that of their coordinates -/
theorem TSite.pair (h : TSite L d As ls rs i A vL l r p q k lam rho) {Y Z : ND ℂ}
    (hZ : LeftGauge d p q (leftEnv ((List.replicate L d).take i) (As.take i)) A Z) :
    ∑ t ∈ range d, ∑ b ∈ range p, ∑ c ∈ range q, star (Y.val [t, b, c]) * (∑ b' ∈ range p, ∑ c' ∈ range q,
        leftEnv ((List.replicate L d).take i) (As.take i) b b' * Z.val [t, b', c'] * rightEnv ((List.replicate L d).drop (i + 1)) (As.drop (i + 1)) c' c) =
      ∑ k1 ∈ range k, ∑ c ∈ range q, star (siteCoord d p vL lam rho Y k1 c) * siteCoord d p vL lam rho Z k1 c := by
  rw [sum_swap2]
  conv_rhs => rw [Finset.sum_comm]
  refine Finset.sum_congr rfl fun c hc => ?_
  have hc := Finset.mem_range.1 hc
  have e : ∀ t < d, ∀ b < p, star (Y.val [t, b, c]) * (∑ b' ∈ range p, ∑ c' ∈ range q,
      leftEnv ((List.replicate L d).take i) (As.take i) b b' * Z.val [t, b', c'] * rightEnv ((List.replicate L d).drop (i + 1)) (As.drop (i + 1)) c' c) =
      ∑ k1 ∈ range k, star (star (vL.val [t, b, k1]) * (((Real.sqrt (lam b) : ℝ) : ℂ) * Y.val [t, b, c] * ((Real.sqrt (rho c) : ℝ) : ℂ))) *
        siteCoord d p vL lam rho Z k1 c := by
    intro t ht b hb
    rw [Finset.sum_eq_single b]
    · rw [h.left b hb b hb, if_pos rfl, sum_diag_env h.right _ hc, ← h.sq hb, ← h.sq' hc]
      have := h.expand hZ ht hb hc
      calc _ = star (Y.val [t, b, c]) * ((Real.sqrt (lam b) : ℝ) : ℂ) * ((Real.sqrt (rho c) : ℝ) : ℂ) *
            (((Real.sqrt (lam b) : ℝ) : ℂ) * Z.val [t, b, c] * ((Real.sqrt (rho c) : ℝ) : ℂ)) := by ring
        _ = _ := by
          rw [this, Finset.mul_sum]
          refine Finset.sum_congr rfl fun k1 _ => ?_
          rw [star_mul', star_mul', star_mul', star_star, show star ((Real.sqrt (lam b) : ℝ) : ℂ) = _ from Complex.conj_ofReal _,
            show star ((Real.sqrt (rho c) : ℝ) : ℂ) = _ from Complex.conj_ofReal _]
          ring
    · intro b' hb' hne
      rw [h.left b hb b' (Finset.mem_range.1 hb'), if_neg (Ne.symm hne)]
      simp
    · intro hn
      exact absurd (Finset.mem_range.2 hb) hn
  rw [Finset.sum_congr rfl fun t ht => Finset.sum_congr rfl fun b hb => e t (Finset.mem_range.1 ht) b (Finset.mem_range.1 hb), sum_swap2]
  refine Finset.sum_congr rfl fun k1 _ => ?_
  simp only [← Finset.sum_mul]
  congr 1
  unfold siteCoord
  rw [star_sum]
  exact Finset.sum_congr rfl fun t _ => by rw [star_sum]

end

/-! ### inner products of tangent vectors -/

/-- the tensors `Bs` at the chain `As`: one for each site, of the shape of the tensor of the chain, and in the left gauge -/
def Spec.Gauged (L d : ℕ) (As Bs : List (ND ℂ)) : Prop :=
  Bs.length = As.length ∧ ∀ i (hi : i < As.length) (hi' : i < Bs.length), ∀ p q, As[i].shape = [d, p, q] → Bs[i].shape = [d, p, q] ∧
    LeftGauge d p q (leftEnv ((List.replicate L d).take i) (As.take i)) As[i] Bs[i]

/-- tangent vectors at different sites are orthogonal in the left gauge -/
theorem pairing_tangent {L d : ℕ} {As Ys Zs : List (ND ℂ)} (hc : MpsChain (List.replicate L d) As 1 1) (hY : Gauged L d As Ys) (hZ : Gauged L d As Zs)
    {F : ℕ → ℂ} (hF : ∀ i (hi : i < As.length) (hiY : i < Ys.length) (hiZ : i < Zs.length), ∃ p q,
      MpsChain ((List.replicate L d).take i) (As.take i) 1 p ∧ As[i].shape = [d, p, q] ∧ MpsChain ((List.replicate L d).drop (i + 1)) (As.drop (i + 1)) q 1 ∧
      ∑ t ∈ range d, ∑ b ∈ range p, ∑ c ∈ range q, star (Ys[i].val [t, b, c]) * (∑ b' ∈ range p, ∑ c' ∈ range q,
        leftEnv ((List.replicate L d).take i) (As.take i) b b' * Zs[i].val [t, b', c'] *
          rightEnv ((List.replicate L d).drop (i + 1)) (As.drop (i + 1)) c' c) = F i) :
    pairing (List.replicate L d) (tangentPsi As Ys) (tangentPsi As Zs) = ∑ i ∈ range As.length, F i := by
  have hlen := hc.length_eq
  rw [List.length_replicate] at hlen
  have hYl := hY.1
  have hZl := hZ.1
  have h1 : ∀ g, pairing (List.replicate L d) (tangentPsi As Ys) g =
      ∑ i ∈ range As.length, pairing (List.replicate L d) (psi (swapIn As i (Ys.getD i ⟨[], fun _ => 0⟩))) g := fun g => pairing_sum_left _ _ _ _
  have h2 : ∀ f, pairing (List.replicate L d) f (tangentPsi As Zs) =
      ∑ j ∈ range As.length, pairing (List.replicate L d) f (psi (swapIn As j (Zs.getD j ⟨[], fun _ => 0⟩))) := fun f => pairing_sum _ _ _ _
  rw [h1]
  refine Finset.sum_congr rfl fun i hi => ?_
  have hi := Finset.mem_range.1 hi
  rw [h2, Finset.sum_eq_single i]
  · obtain ⟨p, q, c1, sA, c2, hv⟩ := hF i hi (by omega) (by omega)
    obtain ⟨sY, -⟩ := hY.2 i hi (by omega) p q sA
    obtain ⟨sZ, -⟩ := hZ.2 i hi (by omega) p q sA
    have hdsi := replicate_cut (L := L) (d := d) (i := i) (by omega)
    rw [List.getD_eq_getElem _ _ (by omega : i < Ys.length), List.getD_eq_getElem _ _ (by omega : i < Zs.length), swapIn, set_cut hi, swapIn, set_cut hi, ← hv]
    conv_lhs => rw [hdsi]
    rw [inner_site c1 sY c2]
    refine Finset.sum_congr rfl fun t _ => Finset.sum_congr rfl fun b _ => Finset.sum_congr rfl fun c _ => ?_
    rw [envAmp_psi c1 sZ c2]
  · intro j hj hji
    have hj := Finset.mem_range.1 hj
    rw [List.getD_eq_getElem _ _ (by omega : i < Ys.length), List.getD_eq_getElem _ _ (by omega : j < Zs.length)]
    obtain ⟨p, q, c1, sA, c2, -⟩ := hF i hi (by omega) (by omega)
    obtain ⟨p', q', c1', sA', c2', -⟩ := hF j hj (by omega) (by omega)
    obtain ⟨sY, gY⟩ := hY.2 i hi (by omega) p q sA
    obtain ⟨sZ, gZ⟩ := hZ.2 j hj (by omega) p' q' sA'
    have hdsi := replicate_cut (L := L) (d := d) (i := i) (by omega)
    have hdsj := replicate_cut (L := L) (d := d) (i := j) (by omega)
    rcases Nat.lt_or_ge i j with hlt | hge
    · have hBc : MpsChain ((List.replicate L d).drop (i + 1)) ((As.drop (i + 1)).set (j - i - 1) Zs[j]) q 1 :=
        chain_set (by simp; omega) c2 (by
          rw [sZ, List.getElem_drop, ← sA']
          congr 2
          omega)
      rw [swapIn, set_cut hi]
      conv_lhs => rw [hdsi]
      refine inner_gauge (g := fun s2 c => amp ((As.drop (i + 1)).set (j - i - 1) Zs[j]) s2 c 0) c1 sY c2 gY ?_
      intro s1 hs1 t ht s2 hs2
      rw [swapIn, set_right hlt hj]
      exact psi_agree c1 sA hBc hs1 hs2.length_eq t
    · have hlt : j < i := by omega
      have hYc : MpsChain ((List.replicate L d).drop (j + 1)) ((As.drop (j + 1)).set (i - j - 1) Ys[i]) q' 1 :=
        chain_set (by simp; omega) c2' (by
          rw [sY, List.getElem_drop, ← sA]
          congr 2
          omega)
      rw [← pairing_star, swapIn, swapIn, set_cut hj]
      conv_lhs => rw [hdsj]
      rw [inner_gauge (g := fun s2 c => amp ((As.drop (j + 1)).set (i - j - 1) Ys[i]) s2 c 0) c1' sZ c2' gZ, star_zero]
      intro s1 hs1 t ht s2 hs2
      rw [set_right hlt hi]
      exact psi_agree c1' sA' hYc hs1 hs2.length_eq t
  · intro hn
    exact absurd (Finset.mem_range.2 hi) hn

/-- `Σ_i conj(v_i) w_i` -/
noncomputable def Spec.dot (v w : List ℂ) : ℂ := (List.zipWith (fun a b => star a * b) v w).sum

theorem dot_append {v1 v2 w1 w2 : List ℂ} (h : v1.length = w1.length) : dot (v1 ++ v2) (w1 ++ w2) = dot v1 w1 + dot v2 w2 := by
  unfold dot
  rw [List.zipWith_append h, List.sum_append]

theorem dot_flatten {f g : ℕ → List ℂ} : ∀ (N : ℕ), (∀ j < N, (f j).length = (g j).length) →
    dot ((List.range N).map f).flatten ((List.range N).map g).flatten = ∑ j ∈ range N, dot (f j) (g j)
  | 0, _ => rfl
  | N + 1, h => by
    rw [List.range_succ, List.map_append, List.map_append, List.flatten_append, List.flatten_append, dot_append, dot_flatten N fun j hj => h j (by omega),
      Finset.sum_range_succ]
    · simp
    · simp only [List.length_flatten, List.map_map]
      exact congrArg _ (List.map_congr_left fun j hj => h j (by simp at hj; omega))

theorem dot_flat {V W : ND ℂ} {k q : ℕ} (hV : V.shape = [k, q]) (hW : W.shape = [k, q]) :
    dot V.flat W.flat = ∑ k1 ∈ range k, ∑ c ∈ range q, star (V.val [k1, c]) * W.val [k1, c] := by
  unfold dot ND.flat ND.size
  rw [hV, hW]
  simp only [List.prod_cons, List.prod_nil, mul_one]
  rw [List.zipWith_map, List.zipWith_self]
  refine (show ((List.range (k * q)).map fun j => star (V.val (unravel [k, q] j)) * W.val (unravel [k, q] j)).sum =
    ∑ j ∈ range (k * q), star (V.val (unravel [k, q] j)) * W.val (unravel [k, q] j) from rfl).trans ?_
  rw [sum_range_mul]
  refine Finset.sum_congr rfl fun k1 _ => Finset.sum_congr rfl fun c hc => ?_
  have : unravel [k, q] (k1 * q + c) = [k1, c] := by
    simp [flat_div (Finset.mem_range.1 hc), flat_mod (Finset.mem_range.1 hc)]
  rw [this]

theorem InB_pair {n k : ℕ} {idx : List ℕ} (h : InB [n, k] idx) : ∃ a b, idx = [a, b] ∧ a < n ∧ b < k := by
  match idx, h with
  | [a, b], h => exact ⟨a, b, rfl, by simpa [InB] using h⟩

theorem InB_triple {n k l : ℕ} {idx : List ℕ} (h : InB [n, k, l] idx) : ∃ a b c, idx = [a, b, c] ∧ a < n ∧ b < k ∧ c < l := by
  match idx, h with
  | [a, b, c], h => exact ⟨a, b, c, rfl, by simpa [InB] using h⟩

theorem flat_inj {V W : ND ℂ} (hs : V.shape = W.shape) (h : V.flat = W.flat) : V ≈ W := by
  refine ⟨hs, fun idx hi => ?_⟩
  have h1 : ravel V.shape idx < V.size := ravel_lt hi
  have := congrArg (fun l => l[ravel V.shape idx]?) h
  simp only [ND.flat, List.getElem?_map] at this
  rw [List.getElem?_range h1, List.getElem?_range (by rw [ND.size, ← hs]; exact h1)] at this
  simp only [Option.map_some, Option.some.injEq] at this
  rwa [← hs, unravel_ravel hi] at this

/-! ### the theorems -/

/-- the sites without tangent vectors are the first `m` -/
def Spec.EmptyPrefix {K : Type} (d : ℕ) (As : List (ND K)) (m : ℕ) : Prop := ∀ i (hi : i < As.length), d * As[i].dim 1 = As[i].dim 2 ↔ i < m

section
variable {chol inv null : ND ℂ → Py (ND ℂ)} (hchol : CholTriLaw chol) (hinv : InvLaw inv) (hnull : NullLaw null) (O : SetOrder)
  {x : FMPS ℂ} {L d m : ℕ} (hd : 2 ≤ d) (hx : x.Holds (List.replicate L d)) (hf : FullEnvs (List.replicate L d) x.data)
include hchol hinv hnull hd hx hf

/-- **C49** `tangent_space_dims()`: the coordinates of the site `i` have the shape `(d p - q, q)` for the tensor of shape `(d, p, q)` -/
theorem FMPS.tangentSpaceDims_spec : ∃ ls rs vLs, x.getEnvs = .ok (ls, rs) ∧
    x.tangentSpaceDims chol inv null O ls = .ok (vLs, x.data.map fun A => (d * A.dim 1 - A.dim 2, A.dim 2)) := by
  obtain ⟨ls, rs, hE, pr, vL, l, r, p, q, k, lam, rho, hs, hD⟩ := tangent_facts hchol hinv hnull O (by omega) hx hf
  have hlen := hx.chain.length_eq
  rw [List.length_replicate] at hlen
  refine ⟨ls, rs, (List.range L).map vL, hE, hD.trans ?_⟩
  congr 2
  refine List.ext_getElem (by simp [hlen]) fun i h1 h2 => ?_
  have hi : i < x.data.length := by simpa using h2
  simp only [List.getElem_map, List.getElem_range]
  have h := (hs i hi).2
  rw [dim1 h.hA, dim2 h.hA, ← h.count]
  simp

variable (hm : EmptyPrefix d x.data m)
include hm

theorem tangent_split : ∃ N ls rs, x.getEnvs = .ok (ls, rs) ∧ L = m + N ∧ 0 < N ∧ ∃ (pr vL l r : ℕ → ND ℂ) (p q k : ℕ → ℕ) (lam rho : ℕ → ℕ → ℝ),
    (∀ i (hi : i < x.data.length), FMPS.leftNull chol inv null O x ls i = .ok (pr i, vL i) ∧
      TSite (m + N) d x.data ls rs i x.data[i] (vL i) (l i) (r i) (p i) (q i) (k i) (lam i) (rho i)) ∧
    x.tangentSpaceDims chol inv null O ls = .ok ((List.range (m + N)).map vL, (List.range (m + N)).map fun i => (k i, q i)) ∧
    (∀ i < m + N, k i * q i = 0 ↔ i < m) ∧ tangentDim d x.data = ((List.range N).map fun j => k (m + j) * q (m + j)).sum := by
  obtain ⟨ls, rs, hE, pr, vL, l, r, p, q, k, lam, rho, hs, hD⟩ := tangent_facts hchol hinv hnull O (by omega) hx hf
  have hlen := hx.chain.length_eq
  rw [List.length_replicate] at hlen
  have hz : ∀ i < L, k i * q i = 0 ↔ i < m := by
    intro i hi
    have h := (hs i (by omega)).2
    rw [← hm i (by omega), dim1 h.hA, dim2 h.hA, ← h.count, Nat.mul_eq_zero]
    have := h.bq
    omega
  have hL : 0 < L := by
    have := hx.ne
    rcases Nat.eq_zero_or_pos L with rfl | h
    · simp at this
    · exact h
  have hmL : m < L := by
    by_contra hc
    have h := (hs (L - 1) (by omega)).2
    have h0 := (hz (L - 1) (by omega)).2 (by omega)
    have hn := h.hn
    rw [List.drop_eq_nil_of_le (by simp; omega), List.drop_eq_nil_of_le (by omega)] at hn
    have hq : q (L - 1) = 1 := hn
    have hc := h.count
    rw [hq] at h0 hc
    have := Nat.mul_le_mul hd h.bp
    omega
  obtain ⟨N, rfl⟩ : ∃ N, L = m + N := ⟨L - m, by omega⟩
  refine ⟨N, ls, rs, hE, rfl, by omega, pr, vL, l, r, p, q, k, lam, rho, hs, hD, hz, ?_⟩
  have : (x.data.map fun A => (d * A.dim 1 - A.dim 2) * A.dim 2) = (List.range (m + N)).map fun i => k i * q i := by
    refine List.ext_getElem (by simp [hlen]) fun i h1 h2 => ?_
    have hi : i < x.data.length := by simpa using h1
    simp only [List.getElem_map, List.getElem_range]
    have h := (hs i hi).2
    rw [dim1 h.hA, dim2 h.hA, ← h.count]
    simp
  unfold tangentDim
  rw [this, List.range_add, List.map_append, List.sum_append, List.map_map, List.sum_eq_zero, zero_add]
  · rfl
  · intro a ha
    simp only [List.mem_map, List.mem_range] at ha
    obtain ⟨i, hi, rfl⟩ := ha
    exact (hz i (by omega)).2 hi

/-- **C49** `import_tangent_vector` followed by `extract_tangent_vector` gives the vector back.  The import succeeds for every vector with one
coordinate for each dimension of the tangent space, the tensors have the shapes of the tensors of the state and are in the left gauge. -/
theorem FMPS.extract_import {v : List ℂ} (hv : v.length = tangentDim d x.data) :
    ∃ y, FMPS.importTangent chol inv null O x v = .ok y ∧ y.Holds (List.replicate L d) ∧ Gauged L d x.data y.data ∧
      FMPS.extractTangent chol inv null O x y.data = .ok v := by
  obtain ⟨N, ls, rs, hE, rfl, hN, pr, vL, l, r, p, q, k, lam, rho, hs, hD, hz, ht⟩ := tangent_split hchol hinv hnull O hd hx hf hm
  have hlen := hx.chain.length_eq
  rw [List.length_replicate] at hlen
  obtain ⟨X, B, e, hX, hB, hB0, hBX⟩ := import_ok hchol hinv hE hlen (by omega) hs hD hz (hv.trans ht)
  have hsh : ((List.range (m + N)).map B).map ND.shape = x.data.map ND.shape := by
    refine List.ext_getElem (by simp [hlen]) fun i h1 h2 => ?_
    have hi : i < x.data.length := by simpa using h2
    simp only [List.getElem_map, List.getElem_range]
    rw [hB i (by omega), (hs i hi).2.hA]
  obtain ⟨y, e', hyd, hy, -⟩ := init_holds (chain_shapes hx.chain hsh) hx.ne none (.inl rfl)
  have hget : ∀ i < m + N, pyGet y.data i = .ok (B i) := by
    intro i hi
    rw [hyd, pyGet_ok (by simpa using hi)]
    simp
  have hten : ∀ i < m + N, ∃ Xi : ℕ → ℕ → ℂ, (∀ k1 < k i, ∀ c < q i, Xi k1 c = (X i).val [k1, c]) ∧
      ∀ s < d, ∀ a < p i, ∀ c < q i, (B i).val [s, a, c] = siteTensor (k i) (vL i) (lam i) (rho i) Xi s a c := by
    intro i hi
    by_cases him : i < m
    · refine ⟨fun k1 c => (X i).val [k1, c], fun _ _ _ _ => rfl, ?_⟩
      have hk : k i = 0 := by
        rcases Nat.mul_eq_zero.1 ((hz i hi).2 him) with h | h
        · exact h
        · exact absurd h (hs i (by omega)).2.bq.ne'
      intro s _ a _ c _
      rw [hB0 i him]
      unfold siteTensor
      rw [hk]
      simp
    · exact ⟨fun k1 c => (X i).val [k1, c], fun _ _ _ _ => rfl, fun s _ a ha c hc => (hBX i hi (by omega)).2 s a ha c hc⟩
  refine ⟨y, e.trans e', hy, ⟨by rw [hyd]; simp [hlen], ?_⟩, ?_⟩
  · intro i hi hi' p' q' hA
    have h := (hs i hi).2
    rw [h.hA] at hA
    obtain ⟨rfl, rfl⟩ : p i = p' ∧ q i = q' := by simpa using hA
    have hyi : y.data[i] = B i := by
      have := hget i (by omega)
      rw [pyGet_ok hi'] at this
      exact Except.ok.inj this
    obtain ⟨Xi, -, hXi⟩ := hten i (by omega)
    rw [hyi]
    exact ⟨hB i (by omega), h.gauge_tensor hXi⟩
  · obtain ⟨w, ew, hw⟩ := extract_ok hchol hE hlen hN hs hD hz (fun i hi => ⟨hget i hi, hB i hi⟩)
    rw [ew, ← hX]
    congr 2
    refine List.map_congr_left fun j hj => ?_
    have hj := List.mem_range.1 hj
    refine flat_congr ⟨by rw [(hw (m + j) (by omega)).1, (hBX (m + j) (by omega) (by omega)).1], ?_⟩
    rw [(hw (m + j) (by omega)).1]
    intro idx hidx
    obtain ⟨k1, c, rfl, hk1, hc⟩ := InB_pair hidx
    obtain ⟨Xi, hXe, hXi⟩ := hten (m + j) (by omega)
    rw [(hw (m + j) (by omega)).2 k1 hk1 c hc, ← hXe k1 hk1 c hc, ← (hs (m + j) (by omega)).2.coord_tensor hXi hk1 hc]
    rfl

/-- **C49** `extract_tangent_vector` followed by `import_tangent_vector` gives tensors in the left gauge back. -/
theorem FMPS.import_extract {Bs : List (ND ℂ)} (hB : Gauged L d x.data Bs) :
    ∃ v y, FMPS.extractTangent chol inv null O x Bs = .ok v ∧ v.length = tangentDim d x.data ∧ FMPS.importTangent chol inv null O x v = .ok y ∧
      y.Holds (List.replicate L d) ∧ ∀ i (hi : i < y.data.length) (hi' : i < Bs.length), y.data[i] ≈ Bs[i] := by
  obtain ⟨N, ls, rs, hE, rfl, hN, pr, vL, l, r, p, q, k, lam, rho, hs, hD, hz, ht⟩ := tangent_split hchol hinv hnull O hd hx hf hm
  have hlen := hx.chain.length_eq
  rw [List.length_replicate] at hlen
  have hBl := hB.1
  obtain ⟨w, ew, hw⟩ := extract_ok (B := fun i => Bs.getD i (zerosND [])) hchol hE hlen hN hs hD hz (fun i hi => by
    show _ ∧ (Bs.getD i (zerosND [])).shape = _
    rw [List.getD_eq_getElem _ _ (by omega : i < Bs.length)]
    exact ⟨pyGet_ok (by omega), (hB.2 i (by omega) (by omega) _ _ (hs i (by omega)).2.hA).1⟩)
  have hvl : (((List.range N).map fun j => (w (m + j)).flat).flatten).length = tangentDim d x.data := by
    rw [ht, List.length_flatten, List.map_map]
    congr 1
    refine List.map_congr_left fun j hj => ?_
    have hj := List.mem_range.1 hj
    simp [ND.flat, ND.size, (hw (m + j) (by omega)).1]
  obtain ⟨X, B, e, hX, hBs, hB0, hBX⟩ := import_ok hchol hinv hE hlen (by omega) hs hD hz (hvl.trans ht)
  have hsh : ((List.range (m + N)).map B).map ND.shape = x.data.map ND.shape := by
    refine List.ext_getElem (by simp [hlen]) fun i h1 h2 => ?_
    have hi : i < x.data.length := by simpa using h2
    simp only [List.getElem_map, List.getElem_range]
    rw [hBs i (by omega), (hs i hi).2.hA]
  obtain ⟨y, e', hyd, hy, -⟩ := init_holds (chain_shapes hx.chain hsh) hx.ne none (.inl rfl)
  refine ⟨_, y, ew, hvl, e.trans e', hy, ?_⟩
  have hXw : ∀ j < N, X (m + j) ≈ w (m + j) := by
    have h1 := (List.eq_iff_flatten_eq (L := (List.range N).map fun j => (X (m + j)).flat) (L' := (List.range N).map fun j => (w (m + j)).flat)).2 ⟨hX, by
      simp only [List.map_map]
      refine List.map_congr_left fun j hj => ?_
      have hj := List.mem_range.1 hj
      simp [ND.flat, ND.size, (hw (m + j) (by omega)).1, (hBX (m + j) (by omega) (by omega)).1]⟩
    intro j hj
    have h2 := congrArg (fun l => l[j]?) h1
    simp only [List.getElem?_map, List.getElem?_range hj, Option.map_some, Option.some.injEq] at h2
    exact flat_inj (by rw [(hw (m + j) (by omega)).1, (hBX (m + j) (by omega) (by omega)).1]) h2
  intro i hi hi'
  have hiL : i < m + N := by omega
  have h := (hs i (by omega)).2
  obtain ⟨hBsh, hBg⟩ := hB.2 i (by omega) hi' _ _ h.hA
  have hyi : y.data[i] = B i := by simp [hyd]
  rw [hyi]
  refine ⟨by rw [hBs i hiL, hBsh], ?_⟩
  rw [hBs i hiL]
  intro idx hidx
  obtain ⟨s, a, c, rfl, h1, h2, h3⟩ := InB_triple hidx
  have key := h.tensor_coord hBg h1 h2 h3
  rw [← key]
  by_cases him : i < m
  · have hk : k i = 0 := by
      rcases Nat.mul_eq_zero.1 ((hz i hiL).2 him) with h' | h'
      · exact h'
      · exact absurd h' h.bq.ne'
    rw [hB0 i him]
    unfold siteTensor
    rw [hk]
    simp
  · rw [(hBX i hiL (by omega)).2 s a h2 c h3]
    unfold siteTensor
    congr 2
    refine Finset.sum_congr rfl fun k1 hk1 => ?_
    have hk1 := Finset.mem_range.1 hk1
    have hXi := hXw (i - m) (by omega)
    rw [show m + (i - m) = i by omega] at hXi
    rw [hXi.2 [k1, c] (by rw [(hBX i hiL (by omega)).1]; simp [InB, hk1, h3]), (hw i hiL).2 k1 hk1 c h3]
    congr 1
    unfold siteCoord
    rw [List.getD_eq_getElem _ _ hi']

/-- **C49** The coordinates are orthonormal: the inner product of two tangent vectors in the left gauge is the inner product of their coordinates. -/
theorem FMPS.extract_isometry {Ys Zs : List (ND ℂ)} (hY : Gauged L d x.data Ys) (hZ : Gauged L d x.data Zs) :
    ∃ v w, FMPS.extractTangent chol inv null O x Ys = .ok v ∧ FMPS.extractTangent chol inv null O x Zs = .ok w ∧
      pairing (List.replicate L d) (tangentPsi x.data Ys) (tangentPsi x.data Zs) = dot v w := by
  obtain ⟨N, ls, rs, hE, rfl, hN, pr, vL, l, r, p, q, k, lam, rho, hs, hD, hz, ht⟩ := tangent_split hchol hinv hnull O hd hx hf hm
  have hlen := hx.chain.length_eq
  rw [List.length_replicate] at hlen
  have hex : ∀ {Bs : List (ND ℂ)}, Gauged (m + N) d x.data Bs → ∀ i < m + N,
      pyGet Bs i = .ok (Bs.getD i (zerosND [])) ∧ (Bs.getD i (zerosND [])).shape = [d, p i, q i] := by
    intro Bs hB i hi
    have hBl := hB.1
    rw [List.getD_eq_getElem _ _ (by omega : i < Bs.length)]
    exact ⟨pyGet_ok (by omega), (hB.2 i (by omega) (by omega) _ _ (hs i (by omega)).2.hA).1⟩
  obtain ⟨v, ev, hv⟩ := extract_ok (B := fun i => Ys.getD i (zerosND [])) hchol hE hlen hN hs hD hz (hex hY)
  obtain ⟨w, ew, hw⟩ := extract_ok (B := fun i => Zs.getD i (zerosND [])) hchol hE hlen hN hs hD hz (hex hZ)
  refine ⟨_, _, ev, ew, ?_⟩
  have hYl := hY.1
  have hZl := hZ.1
  rw [pairing_tangent hx.chain hY hZ (F := fun i => ∑ k1 ∈ range (k i), ∑ c ∈ range (q i), star ((v i).val [k1, c]) * (w i).val [k1, c])]
  · rw [dot_flatten, hlen, Finset.sum_range_add, Finset.sum_eq_zero, zero_add]
    · refine Finset.sum_congr rfl fun j hj => ?_
      have hj := Finset.mem_range.1 hj
      rw [dot_flat (hv (m + j) (by omega)).1 (hw (m + j) (by omega)).1]
    · intro i hi
      have hi := Finset.mem_range.1 hi
      have hk : k i = 0 := by
        rcases Nat.mul_eq_zero.1 ((hz i (by omega)).2 hi) with h' | h'
        · exact h'
        · exact absurd h' (hs i (by omega)).2.bq.ne'
      rw [hk]
      simp
    · intro j hj
      simp [ND.flat, ND.size, (hv (m + j) (by omega)).1, (hw (m + j) (by omega)).1]
  · intro i hi hiY hiZ
    have h := (hs i hi).2
    refine ⟨p i, q i, h.hp, h.hA, h.hn, ?_⟩
    rw [h.pair (hZ.2 i hi hiZ _ _ h.hA).2]
    refine Finset.sum_congr rfl fun k1 hk1 => Finset.sum_congr rfl fun c hc => ?_
    rw [(hv i (by omega)).2 k1 (Finset.mem_range.1 hk1) c (Finset.mem_range.1 hc), (hw i (by omega)).2 k1 (Finset.mem_range.1 hk1) c (Finset.mem_range.1 hc)]
    rw [List.getD_eq_getElem _ _ hiY, List.getD_eq_getElem _ _ hiZ]
    rfl

/-- **C49** `import_tangent_vector` is an isometry. -/
theorem FMPS.import_isometry {v w : List ℂ} (hv : v.length = tangentDim d x.data) (hw : w.length = tangentDim d x.data) :
    ∃ y z, FMPS.importTangent chol inv null O x v = .ok y ∧ FMPS.importTangent chol inv null O x w = .ok z ∧
      pairing (List.replicate L d) (tangentPsi x.data y.data) (tangentPsi x.data z.data) = dot v w := by
  obtain ⟨y, e1, -, hy, e2⟩ := FMPS.extract_import hchol hinv hnull O hd hx hf hm hv
  obtain ⟨z, e3, -, hz, e4⟩ := FMPS.extract_import hchol hinv hnull O hd hx hf hm hw
  obtain ⟨v', w', f1, f2, h⟩ := FMPS.extract_isometry hchol hinv hnull O hd hx hf hm hy hz
  rw [e2] at f1
  rw [e4] at f2
  obtain rfl := Except.ok.inj f1
  obtain rfl := Except.ok.inj f2
  exact ⟨y, z, e1, e3, h⟩

end

/-! ### the hypotheses can be met -/

theorem exBellState_prefix : EmptyPrefix 2 exBellState.data 1 := by
  intro i hi
  have : i < 2 := hi
  interval_cases i <;> simp [exBellState, ND.dim]

theorem exBellState_dim : tangentDim 2 exBellState.data = 3 := by
  simp [tangentDim, exBellState, ND.dim]

/-- the laws can be met together; the Bell state has one site without and one with tangent vectors -/
example (O : SetOrder) : ∃ chol inv null, CholTriLaw chol ∧ InvLaw inv ∧ NullLaw null ∧
    ∃ y, FMPS.importTangent chol inv null O exBellState [1, Complex.I, 2] = .ok y ∧ FMPS.extractTangent chol inv null O exBellState y.data = .ok [1, Complex.I, 2] ∧
      pairing (List.replicate 2 2) (tangentPsi exBellState.data y.data) (tangentPsi exBellState.data y.data) = 6 := by
  obtain ⟨chol, hchol⟩ := cholTriLaw_exists
  obtain ⟨inv, hinv⟩ := invLaw_exists
  obtain ⟨null, hnull⟩ := nullLaw_exists
  refine ⟨chol, inv, null, hchol, hinv, hnull, ?_⟩
  obtain ⟨y, e, -, hy, e'⟩ := FMPS.extract_import hchol hinv hnull O (by omega) exBellState_holds exBellState_full exBellState_prefix
    (v := [1, Complex.I, 2]) (by rw [exBellState_dim]; rfl)
  obtain ⟨y', z', e1, e2, h⟩ := FMPS.import_isometry hchol hinv hnull O (by omega) exBellState_holds exBellState_full exBellState_prefix
    (v := [1, Complex.I, 2]) (w := [1, Complex.I, 2]) (by rw [exBellState_dim]; rfl) (by rw [exBellState_dim]; rfl)
  rw [e] at e1 e2
  obtain rfl := Except.ok.inj e1
  obtain rfl := Except.ok.inj e2
  refine ⟨y, e, e', h.trans ?_⟩
  simp [dot, show (starRingEnd ℂ) 2 = 2 from Complex.conj_ofNat 2]
  norm_num

/-- tensors in the left gauge other than zero: the results of `import_tangent_vector` -/
example {chol inv null : ND ℂ → Py (ND ℂ)} (hchol : CholTriLaw chol) (hinv : InvLaw inv) (hnull : NullLaw null) (O : SetOrder) :
    ∃ y v, FMPS.importTangent chol inv null O exBellState [1, 0, 0] = .ok y ∧ Gauged 2 2 exBellState.data y.data ∧
      FMPS.extractTangent chol inv null O exBellState y.data = .ok v ∧ v ≠ [0, 0, 0] := by
  obtain ⟨y, e, -, hy, e'⟩ := FMPS.extract_import hchol hinv hnull O (by omega) exBellState_holds exBellState_full exBellState_prefix
    (v := [1, 0, 0]) (by rw [exBellState_dim]; rfl)
  obtain ⟨v, z, f1, -, -, -, -⟩ := FMPS.import_extract hchol hinv hnull O (by omega) exBellState_holds exBellState_full exBellState_prefix hy
  rw [e'] at f1
  obtain rfl := Except.ok.inj f1
  exact ⟨y, _, e, hy, e', by simp⟩

/-! ### a site without tangent vectors after one with -/

/-- `|0⟩ (|00⟩ + |11⟩)` -/
def exZeroBell : FMPS ℂ := ⟨[⟨[2, 1, 1], fun
  | [s, _, _] => if s = 0 then 1 else 0
  | _ => 0⟩, ⟨[2, 1, 2], fun
  | [s, _, c] => if s = c then 1 else 0
  | _ => 0⟩, ⟨[2, 2, 1], fun
  | [s, a, _] => if s = a then 1 else 0
  | _ => 0⟩], 3, 2, 2, false, false, none, none⟩

theorem exZeroBell_holds : exZeroBell.Holds (List.replicate 3 2) := ⟨⟨1, rfl, 2, rfl, 1, rfl, rfl⟩, by simp, rfl, rfl⟩

theorem exZeroBell_full : FullEnvs (List.replicate 3 2) exZeroBell.data := by
  intro k hk p hp
  match k, hk with
  | 0, _ =>
    obtain rfl := chain_bond_unique hp rfl
    refine ⟨fun _ => 1, fun _ => 2, by simp, ?_⟩
    intro a ha b hb
    obtain rfl : a = 0 := by omega
    obtain rfl : b = 0 := by omega
    simp [leftEnv, rightEnv, exZeroBell, amp, ND.dim, Finset.sum_range_succ]
    norm_num
  | 1, _ =>
    obtain rfl := chain_bond_unique hp ⟨1, rfl, rfl⟩
    refine ⟨fun _ => 1, fun _ => 2, by simp, ?_⟩
    intro a ha b hb
    obtain rfl : a = 0 := by omega
    obtain rfl : b = 0 := by omega
    simp [leftEnv, rightEnv, exZeroBell, amp, ND.dim, Finset.sum_range_succ]
    norm_num
  | 2, _ =>
    obtain rfl := chain_bond_unique hp ⟨1, rfl, 2, rfl, rfl⟩
    refine ⟨fun _ => 1, fun _ => 1, by simp, ?_⟩
    intro a ha b hb
    interval_cases a <;> interval_cases b <;> simp [leftEnv, rightEnv, exZeroBell, amp, ND.dim, Finset.sum_range_succ]
  | 3, _ =>
    obtain rfl := chain_bond_unique hp ⟨1, rfl, 2, rfl, 1, rfl, rfl⟩
    refine ⟨fun _ => 2, fun _ => 1, by simp, ?_⟩
    intro a ha b hb
    obtain rfl : a = 0 := by omega
    obtain rfl : b = 0 := by omega
    simp [leftEnv, rightEnv, exZeroBell, amp, ND.dim, Finset.sum_range_succ]
    norm_num

/-- **C49, violated** for `|0⟩ (|00⟩ + |11⟩)`, whose second site has no tangent vectors while the first has: `import_tangent_vector` shifts the
environments by the number of sites without tangent vectors, as if they were the first, and raises for every vector of four coordinates. -/
theorem FMPS.import_raises {chol inv null : ND ℂ → Py (ND ℂ)} (hchol : CholTriLaw chol) (hinv : InvLaw inv) (hnull : NullLaw null) (O : SetOrder)
    {v : List ℂ} (hv : v.length = tangentDim 2 exZeroBell.data) : FMPS.importTangent chol inv null O exZeroBell v = .error .valueError := by
  obtain ⟨ls, rs, hE, pr, vL, l, r, p, q, k, lam, rho, hs, hD⟩ := tangent_facts hchol hinv hnull O (by omega) exZeroBell_holds exZeroBell_full
  have h0 := (hs 0 (by simp [exZeroBell])).2
  have h1 := (hs 1 (by simp [exZeroBell])).2
  have h2 := (hs 2 (by simp [exZeroBell])).2
  have a0 := h0.hA
  have a1 := h1.hA
  have a2 := h2.hA
  simp only [exZeroBell, List.getElem_cons_zero, List.getElem_cons_succ, List.cons.injEq, and_true, true_and] at a0 a1 a2
  have k0 := h0.count
  have k1 := h1.count
  have k2 := h2.count
  rw [← a0.1, ← a0.2] at k0
  rw [← a1.1, ← a1.2] at k1
  rw [← a2.1, ← a2.2] at k2
  have k0 : k 0 = 1 := by omega
  have k1 : k 1 = 0 := by omega
  have k2 : k 2 = 3 := by omega
  have b0 := h0.basis.shape
  have b1 := h1.basis.shape
  have b2 := h2.basis.shape
  rw [k0, ← a0.1] at b0
  rw [k1, ← a1.1] at b1
  rw [k2, ← a2.1] at b2
  have hr3 : List.range 3 = [0, 1, 2] := rfl
  rw [hr3] at hD
  simp only [List.map_cons, List.map_nil, k0, k1, k2, ← a0.2, ← a1.2, ← a2.2] at hD
  obtain ⟨xs, e1, hxs, -⟩ := cutUp_ok [[1, 1], [3, 1]] v (by rw [hv]; simp [tangentDim, exZeroBell, ND.dim])
  obtain ⟨x0, x2, rfl⟩ : ∃ x0 x2, xs = [x0, x2] := by
    have : xs.length = 2 := by simpa using congrArg List.length hxs
    obtain ⟨a, b, h⟩ := List.length_eq_two.1 this
    exact ⟨a, b, h⟩
  simp only [List.map_cons, List.map_nil, List.cons.injEq, and_true] at hxs
  have el := h1.el
  have er := h1.er
  have hl := h1.hl
  have hr := h1.hr
  rw [← a1.1] at hl
  rw [← a1.2] at hr
  have hlv := h1.hlv
  have hrv := h1.hrv
  have pos := h1.pos
  have pos' := h1.pos'
  rw [← a1.1] at hlv pos
  rw [← a1.2] at hrv pos'
  obtain ⟨X, X', f1, f2, hX, hX', -, hXv⟩ := inv_chol_diag hchol hinv hl hlv pos
  obtain ⟨Y, Y', f3, f4, hY, hY', -, hYv⟩ := inv_chol_diag hchol hinv hr hrv pos'
  obtain ⟨t1, f5, ht1, -⟩ := diag_mul_left hX' b0 hXv
  obtain ⟨t2, f6, ht2, -⟩ := ND.matmul32 ht1 hxs.1
  have hsite : FMPS.importSite chol inv (l 1) (r 1) (vL 0) x0 = .error .valueError := by
    unfold FMPS.importSite
    rw [f1, ok_bind, f2, ok_bind, f5, ok_bind, f6, ok_bind, f3, ok_bind, f4, ok_bind]
    unfold ND.matmul
    rw [ht2, hY']
    rfl
  unfold FMPS.importTangent
  rw [hE, ok_bind]
  simp only
  rw [hD, ok_bind]
  simp only
  have g1 : [vL 0, vL 1, vL 2].filter (fun vL => decide (vL.shape.prod ≠ 0)) = [vL 0, vL 2] := by
    simp [b0, b1, b2]
  rw [g1]
  have g2 : List.filter (fun s : ℕ × ℕ => decide (s.1 * s.2 ≠ 0)) [(1, 1), (0, 2), (3, 1)] = [(1, 1), (3, 1)] := by decide
  have g3 : (List.filter (fun s : ℕ × ℕ => decide (s.1 * s.2 = 0)) [(1, 1), (0, 2), (3, 1)]).length = 1 := by decide
  rw [g2, g3]
  simp only [List.map_cons, List.map_nil]
  rw [e1, ok_bind]
  simp only [List.zip_cons_cons, List.zip_nil_right, List.zipIdx_cons, List.zipIdx_nil, List.mapM_cons]
  rw [show ((0 : ℕ) : ℤ) - 1 + (1 : ℕ) = ((1 : ℕ) : ℤ) - 1 by norm_num, el, ok_bind, show ((0 : ℕ) : ℤ) + (1 : ℕ) = ((1 : ℕ) : ℤ) by norm_num, er, ok_bind, hsite]
  rfl

end Xmps
