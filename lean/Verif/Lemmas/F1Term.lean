import Verif.Model.F1
import Verif.Lemmas.F2Site

/-!
# The contributions to `F1`
-/

namespace Xmps

open Finset Spec Xmps.Ncon

/-- the transposed matrix -/
def matT (h : ND ℂ) : ND ℂ := ⟨h.shape.reverse, fun idx => h.val idx.reverse⟩

theorem mixR_star (ds : List ℕ) (Bs As : List (ND ℂ)) (a b : ℕ) : star (mixR ds Bs As a b) = mixR ds As Bs b a := by
  have key : ∀ (ds : List ℕ) (f : List ℕ → ℂ), star (sumIdx ds f) = sumIdx ds fun s => star (f s) := by
    intro ds
    induction ds with
    | nil => intro f; rfl
    | cons n ds ih =>
      intro f
      simp only [sumIdx_cons, star_sum, ih]
  unfold mixR
  rw [key]
  refine sumIdx_congr fun s _ => ?_
  rw [star_mul', star_star, mul_comm]

variable {ds0 ds3 : List ℕ} {As0 As3 Bs3 : List (ND ℂ)} {A B P Q h : ND ℂ} {d p q n : ℕ}

/-- the right environment from the last varied site on, the ket varied -/
theorem mixR_lastK {vL : ND ℂ} {lam rho : ℕ → ℝ} {a b : ℕ} (hA : A.shape = [d, p, q]) (hb : b < q) (hpos : ∀ a < q, 0 < rho a)
    (hrho : ∀ a < q, ∀ b < q, rightEnv ds3 As3 a b = if a = b then (rho a : ℂ) else 0) (y' y : ℕ) :
    mixR (d :: ds3) (A :: As3) (tanUnit d p q vL lam rho a b :: As3) y' y =
      ∑ s ∈ range d, (((Real.sqrt (lam y'))⁻¹ : ℝ) : ℂ) * vL.val [s, y', a] * (star (A.val [s, y, b]) * ((Real.sqrt (rho b) : ℝ) : ℂ)) := by
  rw [← mixR_star, mixR_last hA hb hpos hrho, star_sum]
  refine Finset.sum_congr rfl fun s _ => ?_
  rw [star_mul', star_mul', star_mul', star_star, show star (((Real.sqrt (lam y'))⁻¹ : ℝ) : ℂ) = _ from Complex.conj_ofReal _,
    show star ((Real.sqrt (rho b) : ℝ) : ℂ) = _ from Complex.conj_ofReal _]

/-- the two-site term acting on a varied second site -/
theorem hAA_unit {vL : ND ℂ} {lam rho : ℕ → ℝ} {c e t u al k' : ℕ} :
    hAA d q h A (tanUnit d q n vL lam rho c e) t u al k' = if k' = e then
      ∑ p1 ∈ range d, ∑ p2 ∈ range d, ∑ y ∈ range q, h.val [t * d + u, p1 * d + p2] *
        (A.val [p1, al, y] * ((((Real.sqrt (lam y))⁻¹ : ℝ) : ℂ) * vL.val [p2, y, c])) * (((Real.sqrt (rho e))⁻¹ : ℝ) : ℂ) else 0 := by
  unfold hAA tanUnit
  split_ifs with hk
  · refine Finset.sum_congr rfl fun p1 _ => Finset.sum_congr rfl fun p2 _ => ?_
    rw [Finset.mul_sum]
    refine Finset.sum_congr rfl fun y _ => ?_
    simp only
    rw [if_pos hk]
    ring
  · refine Finset.sum_eq_zero fun p1 _ => Finset.sum_eq_zero fun p2 _ => ?_
    rw [Finset.sum_eq_zero, mul_zero]
    intro y _
    simp only
    rw [if_neg hk]
    ring

variable {x : FMPS ℂ} {ls rs vs Rds Rus Rbs : List (ND ℂ)} {E : FMPS.InvEnvs} {i j m k k2 : ℕ} {vi vj h4 cl cr icr icl : ND ℂ} {lam rho lam2 rho2 : ℕ → ℝ}
  {w : ℂ}

/-- the term on the two varied sites: the transposed matrix acts -/
theorem f1Term_next (O : SetOrder) (h4v : Four d h h4) (h0 : MpsChain ds0 As0 1 p) (hA : A.shape = [d, p, q]) (hB : B.shape = [d, q, n])
    (h3 : MpsChain ds3 As3 n 1) (him : ds0.length = i) (eA : pyGet x.data i = .ok A) (eB : pyGet x.data (i + 1) = .ok B)
    (hlam : ∀ a < p, ∀ b < p, leftEnv ds0 As0 a b = if a = b then (lam a : ℂ) else 0) (hpos : ∀ a < p, 0 < lam a)
    (hrho : ∀ a < n, ∀ b < n, rightEnv ds3 As3 a b = if a = b then (rho2 a : ℂ) else 0) (hpos2 : ∀ a < n, 0 < rho2 a)
    (ecl : pyGetI E.cl ((i : ℤ) - 1) = .ok cl) (hcl : DiagM cl p fun a => w * ((Real.sqrt (lam a) : ℝ) : ℂ))
    (ecr : pyGet E.cr (i + 1) = .ok cr) (hcr : DiagM cr n fun a => ((Real.sqrt (rho2 a) : ℝ) : ℂ))
    (eicr : pyGet E.icr i = .ok icr) (hicr : DiagM icr q fun a => (((Real.sqrt (rho a))⁻¹ : ℝ) : ℂ))
    (eicl : pyGet E.icl i = .ok icl) (hicl : DiagM icl q fun a => (((Real.sqrt (lam2 a))⁻¹ : ℝ) : ℂ))
    (evi : pyGet vs i = .ok vi) (hvi : vi.shape = [d, p, k]) (evj : pyGet vs (i + 1) = .ok vj) (hvj : vj.shape = [d, q, k2]) :
    ∃ T, FMPS.f1Term O x ls rs vs E Rds Rus Rbs i (i + 1) i h4 = .ok T ∧ T.shape = [k, q, k2, n] ∧ ∀ a < k, ∀ b < q, ∀ c < k2, ∀ e < n,
      T.val [a, b, c, e] = w * pairing (ds0 ++ d :: d :: ds3) (psi (As0 ++ tanUnit d p q vi lam rho a b :: B :: As3))
        (gateAct d (matT h) i (i + 1) (psi (As0 ++ A :: tanUnit d q n vj lam2 rho2 c e :: As3))) := by
  obtain ⟨Bc, e1, hBc, hBcv⟩ := diag_mul_left (V := B.conj) hicr.1 hB hicr.2
  obtain ⟨w', e2, hw, hwv⟩ := diag_mul_left (V := vj) hicl.1 hvj hicl.2
  obtain ⟨u, e3, hu, huv⟩ := diag_mul_left (V := vi.conj) hcl.1 hvi hcl.2
  obtain ⟨Bcr, e4, hBcr, hBcrv⟩ := diag_mul_right hBc hcr.1 hcr.2
  obtain ⟨T, e6, hT, hTv⟩ := nc_eval O (AA := [A, w', h4, u, Bcr]) (v := [[5, 1, 2], [6, 2, -3], [5, 6, 3, 4], [3, 1, -1], [4, -2, -4]])
    (dimOf [(1, p), (2, q), (3, d), (4, d), (5, d), (6, d), (-1, k), (-2, q), (-3, k2), (-4, n)]) [1, 2, 3, 4, 5, 6] [-1, -2, -3, -4]
    ⟨by simp, by simp [hA, hw, h4v.1, hu, hBcr, dimOf, List.lookup], by simp, by simp, by decide, by decide, by decide, by decide, by decide⟩
    (by decide) (by decide)
  refine ⟨T, ?_, by rw [hT]; simp [dimOf, List.lookup], ?_⟩
  · unfold FMPS.f1Term
    rw [eA, ok_bind, eB, ok_bind]
    simp only [if_true]
    rw [eicr, ok_bind, evi, ok_bind, e1, ok_bind, if_neg (by omega), eicl, ok_bind, evj, ok_bind, e2, ok_bind, ecl, ok_bind, e3, ok_bind, ecr, ok_bind, e4,
      ok_bind, e6]
  · intro a ha b hb c hc e he
    have hval : T.val [a, b, c, e] = ∑ t ∈ range d, ∑ u' ∈ range d, ∑ al ∈ range p, ∑ p1 ∈ range d, ∑ p2 ∈ range d, ∑ y ∈ range q,
        A.val [p1, al, y] * (w'.val [p2, y, c] * (h4.val [p1, p2, t, u'] * (u.val [t, al, a] * Bcr.val [u', b, e]))) := by
      rw [hTv _ rfl]
      simp [labelSum, netTerm, assign, dimOf, List.lookup, Function.update]
      rw [sum_swap2]
      refine Finset.sum_congr rfl fun t _ => ?_
      rw [sum_swap2]
      refine Finset.sum_congr rfl fun u' _ => Finset.sum_congr rfl fun al _ => ?_
      rw [Finset.sum_comm]
      refine Finset.sum_congr rfl fun p1 _ => ?_
      rw [Finset.sum_comm]
    subst him
    rw [hval, pair_first h0 hA rfl h3 hB h3 hpos hlam hb, Finset.mul_sum]
    refine Finset.sum_congr rfl fun t ht => ?_
    rw [Finset.mul_sum]
    refine Finset.sum_congr rfl fun u' hu' => ?_
    rw [Finset.mul_sum]
    refine Finset.sum_congr rfl fun al hal => ?_
    simp only [Finset.mem_range] at ht hu' hal
    symm
    rw [Finset.sum_eq_single e]
    · rw [Finset.sum_eq_single e]
      · symm
        rw [hAA_unit, if_pos rfl, mixR_self, hrho e he e he, if_pos rfl]
        have := sqrt_split (hpos2 e he)
        simp only [Finset.mul_sum, Finset.sum_mul]
        refine Finset.sum_congr rfl fun p1 hp1 => Finset.sum_congr rfl fun p2 hp2 => Finset.sum_congr rfl fun y hy => ?_
        simp only [Finset.mem_range] at hp1 hp2 hy
        rw [hwv p2 y hy c, h4v.2 p1 hp1 p2 hp2 t ht u' hu', huv t al hal a, hBcrv u' b e he, hBcv u' b hb e, ← this]
        show _ * (_ * (h.val [p1 * d + p2, t * d + u'] * (_ * star (vi.val [t, al, a]) * (_ * star (B.val [u', b, e]) * _)))) =
          w * (_ * (h.val [p1 * d + p2, t * d + u'] * _ * _) * _)
        ring
      · intro k' hk' hne
        rw [hAA_unit, if_neg hne]
        simp
      · intro hn
        exact absurd (Finset.mem_range.2 he) hn
    · intro k1 hk1 hne
      refine Finset.sum_eq_zero fun k' hk' => ?_
      rw [mixR_self, hrho k' (Finset.mem_range.1 hk') k1 (Finset.mem_range.1 hk1), hAA_unit]
      split_ifs with h1 h2
      · exact absurd (h2.symm.trans h1) hne
      all_goals simp
    · intro hn
      exact absurd (Finset.mem_range.2 he) hn

/-- the term on the first varied site and the one after it, the second varied site further on: the transposed matrix acts, and the two indices
of the right environment are exchanged -/
theorem f1Term_first (O : SetOrder) {R : ND ℂ} (h4v : Four d h h4) (hA : A.shape = [d, p, q]) (hB : B.shape = [d, q, n])
    (hj : j ≠ i + 1) (hji : j ≠ i) (eA : pyGet x.data i = .ok A) (eB : pyGet x.data (i + 1) = .ok B)
    (ecl : pyGetI E.cl ((i : ℤ) - 1) = .ok cl) (hcl : DiagM cl p fun a => w * ((Real.sqrt (lam a) : ℝ) : ℂ))
    (eicr : pyGet E.icr i = .ok icr) (hicr : DiagM icr q fun a => (((Real.sqrt (rho a))⁻¹ : ℝ) : ℂ))
    (evi : pyGet vs i = .ok vi) (hvi : vi.shape = [d, p, k]) {qj : ℕ}
    (eR : FMPS.leftAt Rus 0 ((i : ℤ) + 2) = .ok R) (hR : R.shape = [n, n, k2, qj]) :
    ∃ T, FMPS.f1Term O x ls rs vs E Rds Rus Rbs i j i h4 = .ok T ∧ T.shape = [k, q, k2, qj] ∧ ∀ a < k, ∀ b < q, ∀ c < k2, ∀ e < qj,
      T.val [a, b, c, e] = w * ∑ t ∈ range d, ∑ u ∈ range d, ∑ al ∈ range p, ∑ k ∈ range n, ∑ k' ∈ range n,
        ((Real.sqrt (lam al) : ℝ) : ℂ) * star (vi.val [t, al, a]) * (((Real.sqrt (rho b))⁻¹ : ℝ) : ℂ) * star (B.val [u, b, k]) *
          hAA d q (matT h) A B t u al k' * R.val [k, k', c, e] := by
  obtain ⟨Bc, e1, hBc, hBcv⟩ := diag_mul_left (V := B.conj) hicr.1 hB hicr.2
  obtain ⟨lA, e2, hlA, hlAv⟩ := diag_mul_left (V := A) hcl.1 hA hcl.2
  obtain ⟨Ot, e6, hL, hLv⟩ := nc_eval O (AA := [lA, B, h4, vi.conj, Bc]) (v := [[3, 1, 2], [4, 2, -3], [3, 4, 5, 6], [5, 1, -1], [6, -2, -4]])
    (dimOf [(1, p), (2, q), (3, d), (4, d), (5, d), (6, d), (-1, k), (-2, q), (-3, n), (-4, n)]) [1, 2, 3, 4, 5, 6] [-1, -2, -3, -4]
    ⟨by simp, by simp [hlA, hB, h4v.1, ND.conj, hvi, hBc, dimOf, List.lookup], by simp, by simp, by decide, by decide, by decide, by decide, by decide⟩
    (by decide) (by decide)
  have hL : Ot.shape = [k, q, n, n] := by rw [hL]; simp [dimOf, List.lookup]
  refine ⟨Ot.tensordotR R [3, 2] [0, 1], ?_, by simp [ND.tensordotR, ND.rank, ND.others, ND.dim, hR, hL, List.range_succ], ?_⟩
  · unfold FMPS.f1Term
    rw [eA, ok_bind, eB, ok_bind]
    simp only [if_true]
    rw [eicr, ok_bind, evi, ok_bind, e1, ok_bind, if_neg hji, if_neg hj, ecl, ok_bind, e2, ok_bind, e6, ok_bind, eR, ok_bind]
    simp [ND.tensordot, ND.rank, ND.dim, hL, hR]
  · intro a ha b hb c hc e he
    have hval : (Ot.tensordotR R [3, 2] [0, 1]).val [a, b, c, e] = ∑ k1 ∈ range n, ∑ k' ∈ range n, Ot.val [a, b, k', k1] * R.val [k1, k', c, e] := by
      simp [ND.tensordotR, ND.transposeR, ND.rank, ND.others, ND.dim, hR, hL, List.range_succ]
    have hval2 : ∀ k' k1, Ot.val [a, b, k', k1] = ∑ t ∈ range d, ∑ u' ∈ range d, ∑ al ∈ range p, ∑ p1 ∈ range d, ∑ p2 ∈ range d, ∑ y ∈ range q,
        lA.val [p1, al, y] * (B.val [p2, y, k'] * (h4.val [p1, p2, t, u'] * (star (vi.val [t, al, a]) * Bc.val [u', b, k1]))) := by
      intro k' k1
      rw [hLv _ rfl]
      simp [labelSum, netTerm, assign, dimOf, List.lookup, Function.update, ND.conj]
      rw [sum_swap4]
      refine Finset.sum_congr rfl fun t _ => ?_
      rw [sum_swap4]
      refine Finset.sum_congr rfl fun u' _ => Finset.sum_congr rfl fun al _ => ?_
      rw [Finset.sum_comm]
      refine Finset.sum_congr rfl fun p1 _ => ?_
      rw [Finset.sum_comm]
    have hval3 : ∀ k' k1, Ot.val [a, b, k', k1] = ∑ t ∈ range d, ∑ u' ∈ range d, ∑ al ∈ range p,
        w * (((Real.sqrt (lam al) : ℝ) : ℂ) * star (vi.val [t, al, a]) * (((Real.sqrt (rho b))⁻¹ : ℝ) : ℂ) * star (B.val [u', b, k1]) *
          hAA d q (matT h) A B t u' al k') := by
      intro k' k1
      rw [hval2]
      refine Finset.sum_congr rfl fun t ht => Finset.sum_congr rfl fun u' hu' => Finset.sum_congr rfl fun al hal => ?_
      simp only [Finset.mem_range] at ht hu' hal
      unfold hAA
      simp only [Finset.mul_sum]
      refine Finset.sum_congr rfl fun p1 hp1 => Finset.sum_congr rfl fun p2 hp2 => Finset.sum_congr rfl fun y hy => ?_
      simp only [Finset.mem_range] at hp1 hp2 hy
      rw [hlAv p1 al hal y, h4v.2 p1 hp1 p2 hp2 t ht u' hu', hBcv u' b hb k1]
      show _ * (_ * (h.val [p1 * d + p2, t * d + u'] * (star (vi.val [t, al, a]) * (_ * star (B.val [u', b, k1]))))) =
          w * (_ * (h.val [p1 * d + p2, t * d + u'] * _))
      ring
    rw [hval]
    simp only [hval3, Finset.mul_sum, Finset.sum_mul]
    rw [sum_swap2]
    refine Finset.sum_congr rfl fun t _ => ?_
    rw [sum_swap2]
    refine Finset.sum_congr rfl fun u' _ => ?_
    rw [sum_swap2]
    refine Finset.sum_congr rfl fun al _ => Finset.sum_congr rfl fun k1 _ => Finset.sum_congr rfl fun k' _ => ?_
    ring

/-- the term whose second site is the first varied one: the transposed matrix acts -/
theorem f1Term_second (O : SetOrder) {R l : ND ℂ} (h4v : Four d h h4) (h0 : MpsChain ds0 As0 1 p) (hA : A.shape = [d, p, q]) (hB : B.shape = [d, q, n])
    (h3 : MpsChain ds3 As3 n 1) (hj : j ≠ m + 1) (him : ds0.length = m) (eA : pyGet x.data m = .ok A) (eB : pyGet x.data (m + 1) = .ok B)
    (hlam : ∀ a < p, ∀ b < p, leftEnv ds0 As0 a b = if a = b then (lam a : ℂ) else 0)
    (el : FMPS.envAt ls ((m : ℤ) - 1) = .ok l) (hl : DiagM l p fun a => (lam a : ℂ))
    (eicl : pyGet E.icl m = .ok icl) (hicl : DiagM icl q fun a => (((Real.sqrt (lam2 a))⁻¹ : ℝ) : ℂ))
    (eicr : pyGet E.icr (m + 1) = .ok icr) (hicr : DiagM icr n fun a => (((Real.sqrt (rho a))⁻¹ : ℝ) : ℂ))
    (evi : pyGet vs (m + 1) = .ok vi) (hvi : vi.shape = [d, q, k])
    {qj : ℕ} {Ks : ℕ → ℕ → List (ND ℂ)} (hKs : ∀ c e, MpsChain ds3 (Ks c e) n 1)
    (eR : FMPS.leftAt Rus 0 ((m : ℤ) + 2) = .ok R) (hR : R.shape = [n, n, k2, qj])
    (hRv : ∀ k' < n, ∀ k < n, ∀ c < k2, ∀ e < qj, R.val [k', k, c, e] = mixR ds3 As3 (Ks c e) k' k) :
    ∃ T, FMPS.f1Term O x ls rs vs E Rds Rus Rbs (m + 1) j m h4 = .ok T ∧ T.shape = [k, n, k2, qj] ∧ ∀ a < k, ∀ b < n, ∀ c < k2, ∀ e < qj,
      T.val [a, b, c, e] = pairing (ds0 ++ d :: d :: ds3) (psi (As0 ++ A :: tanUnit d q n vi lam2 rho a b :: As3))
        (gateAct d (matT h) m (m + 1) (psi (As0 ++ A :: B :: Ks c e))) := by
  obtain ⟨lA, e1, hlA, hlAv⟩ := diag_mul_left (V := A) hl.1 hA hl.2
  obtain ⟨wc, e2, hwc, hwcv⟩ := diag_mul_left (V := vi.conj) hicl.1 hvi hicl.2
  obtain ⟨Qt, e6, hL, hLv⟩ := nc_eval O (AA := [lA, B, h4, A.conj, wc]) (v := [[4, 1, 2], [5, 2, -2], [4, 5, 6, 7], [6, 1, 3], [7, 3, -1]])
    (dimOf [(1, p), (2, q), (3, q), (4, d), (5, d), (6, d), (7, d), (-1, k), (-2, n)]) [1, 2, 3, 4, 5, 6, 7] [-1, -2]
    ⟨by simp, by simp [hlA, hB, h4v.1, ND.conj, hA, hwc, dimOf, List.lookup], by simp, by simp, by decide, by decide, by decide, by decide, by decide⟩
    (by decide) (by decide)
  have hL : Qt.shape = [k, n] := by rw [hL]; simp [dimOf, List.lookup]
  obtain ⟨W, e7, hW, hWv⟩ := nc_eval O (AA := [icr, R]) (v := [[-2, 1], [-1, 1, -3, -4]])
    (dimOf [(1, n), (-1, n), (-2, n), (-3, k2), (-4, qj)]) [1] [-1, -2, -3, -4]
    ⟨by simp, by simp [hicr.1, hR, dimOf, List.lookup], by simp, by simp, by decide, by decide, by decide, by decide, by decide⟩
    (by decide) (by decide)
  have hW : W.shape = [n, n, k2, qj] := by rw [hW]; simp [dimOf, List.lookup]
  refine ⟨Qt.tensordotR W [1] [0], ?_, by simp [ND.tensordotR, ND.rank, ND.others, ND.dim, hW, hL, List.range_succ], ?_⟩
  · unfold FMPS.f1Term
    rw [eA, ok_bind, eB, ok_bind]
    simp only [show ¬ m = m + 1 by omega, if_false, if_true]
    rw [el, ok_bind, e1, ok_bind, eicl, ok_bind, evi, ok_bind, e2, ok_bind, if_neg hj, e6, ok_bind, eicr, ok_bind, eR, ok_bind, e7, ok_bind]
    simp [ND.tensordot, ND.rank, ND.dim, hL, hW]
  · intro a ha b hb c hc e he
    have hval : (Qt.tensordotR W [1] [0]).val [a, b, c, e] = ∑ k' ∈ range n, Qt.val [a, k'] * W.val [k', b, c, e] := by
      simp [ND.tensordotR, ND.transposeR, ND.rank, ND.others, ND.dim, hW, hL, List.range_succ]
    have hval2 : ∀ k', Qt.val [a, k'] = ∑ t ∈ range d, ∑ u' ∈ range d, ∑ al ∈ range p, ∑ x1 ∈ range q, ∑ p1 ∈ range d, ∑ p2 ∈ range d, ∑ y ∈ range q,
        lA.val [p1, al, y] * (B.val [p2, y, k'] * (h4.val [p1, p2, t, u'] * (star (A.val [t, al, x1]) * wc.val [u', x1, a]))) := by
      intro k'
      rw [hLv _ rfl]
      simp [labelSum, netTerm, assign, dimOf, List.lookup, Function.update, ND.conj]
      rw [sum_swap5]
      refine Finset.sum_congr rfl fun t _ => ?_
      rw [sum_swap5]
      refine Finset.sum_congr rfl fun u' _ => Finset.sum_congr rfl fun al _ => ?_
      rw [Finset.sum_comm]
      refine Finset.sum_congr rfl fun x1 _ => ?_
      rw [Finset.sum_comm]
      refine Finset.sum_congr rfl fun p1 _ => ?_
      rw [Finset.sum_comm]
    have hval3 : ∀ k' < n, W.val [k', b, c, e] = (((Real.sqrt (rho b))⁻¹ : ℝ) : ℂ) * mixR ds3 As3 (Ks c e) k' b := by
      intro k' hk'
      rw [← hRv k' hk' b hb c hc e he, ← hicr.sum (fun y => R.val [k', y, c, e]) hb, hWv _ rfl]
      simp [labelSum, netTerm, assign, dimOf, List.lookup, Function.update]
    subst him
    rw [hval, pair_second h0 hA hB (hKs c e) hA h3 hlam hb]
    calc _ = ∑ k' ∈ range n, ∑ t ∈ range d, ∑ u' ∈ range d, ∑ al ∈ range p, ∑ y ∈ range q,
          (lam al : ℂ) * star (A.val [t, al, y]) * ((((Real.sqrt (lam2 y))⁻¹ : ℝ) : ℂ) * star (vi.val [u', y, a])) * (((Real.sqrt (rho b))⁻¹ : ℝ) : ℂ) *
            hAA d q (matT h) A B t u' al k' * mixR ds3 As3 (Ks c e) k' b := by
          refine Finset.sum_congr rfl fun k' hk' => ?_
          have hk' := Finset.mem_range.1 hk'
          rw [hval2, hval3 k' hk']
          simp only [Finset.sum_mul]
          refine Finset.sum_congr rfl fun t ht => Finset.sum_congr rfl fun u' hu' => Finset.sum_congr rfl fun al hal => Finset.sum_congr rfl fun x1 hx1 => ?_
          unfold hAA
          simp only [Finset.mul_sum, Finset.sum_mul]
          refine Finset.sum_congr rfl fun p1 hp1 => Finset.sum_congr rfl fun p2 hp2 => Finset.sum_congr rfl fun y hy => ?_
          simp only [Finset.mem_range] at ht hu' hal hx1 hp1 hp2 hy
          rw [hlAv p1 al hal y, h4v.2 p1 hp1 p2 hp2 t ht u' hu', hwcv u' x1 hx1 a]
          show _ * (_ * (h.val [p1 * d + p2, t * d + u'] * (star (A.val [t, al, x1]) * (_ * star (vi.val [u', x1, a]))))) * _ =
            _ * (h.val [p1 * d + p2, t * d + u'] * _) * _
          ring
      _ = _ := by
          rw [Finset.sum_comm]
          refine Finset.sum_congr rfl fun t _ => ?_
          rw [Finset.sum_comm]
          refine Finset.sum_congr rfl fun u' _ => ?_
          rw [Finset.sum_comm]
          refine Finset.sum_congr rfl fun al _ => ?_
          rw [Finset.sum_comm]

/-- a term before the varied sites -/
theorem f1Term_far (O : SetOrder) {R Q' l : ND ℂ} (h4v : Four d h h4) (h0 : MpsChain ds0 As0 1 p) (hA : A.shape = [d, p, q]) (hB : B.shape = [d, q, n])
    (him : ds0.length = m) (hi : m + 1 < i) (hij : i ≠ j) (eA : pyGet x.data m = .ok A) (eB : pyGet x.data (m + 1) = .ok B)
    (hlam : ∀ a < p, ∀ b < p, leftEnv ds0 As0 a b = if a = b then (lam a : ℂ) else 0)
    (el : FMPS.envAt ls ((m : ℤ) - 1) = .ok l) (hl : DiagM l p fun a => (lam a : ℂ)) {qi qj : ℕ}
    (eicr : pyGet E.icr i = .ok icr) (hicr : DiagM icr qi fun a => (((Real.sqrt (rho a))⁻¹ : ℝ) : ℂ))
    {Bs Ks : ℕ → ℕ → List (ND ℂ)} (hBs : ∀ a b, MpsChain ds3 (Bs a b) n 1) (hKs : ∀ c e, MpsChain ds3 (Ks c e) n 1)
    (eR : FMPS.leftAt Rus 0 ((i : ℤ) + 1) = .ok R) (hR : R.shape = [qi, qi, k2, qj])
    (eQ : FMPS.leftAt Rds 0 ((m : ℤ) + 2) = .ok Q') (hQ' : Q'.shape = [n, n, k, qi])
    (hRv : ∀ k' < n, ∀ k1 < n, ∀ a < k, ∀ b < qi, ∀ c < k2, ∀ e < qj, mixR ds3 (Bs a b) (Ks c e) k' k1 =
      ∑ c1 ∈ range qi, Q'.val [k', k1, a, c1] * (R.val [c1, b, c, e] * (((Real.sqrt (rho b))⁻¹ : ℝ) : ℂ))) :
    ∃ T, FMPS.f1Term O x ls rs vs E Rds Rus Rbs i j m h4 = .ok T ∧ T.shape = [k, qi, k2, qj] ∧ ∀ a < k, ∀ b < qi, ∀ c < k2, ∀ e < qj,
      T.val [a, b, c, e] = pairing (ds0 ++ d :: d :: ds3) (psi (As0 ++ A :: B :: Bs a b))
        (gateAct d h m (m + 1) (psi (As0 ++ A :: B :: Ks c e))) := by
  obtain ⟨C, e1, hC, hCv⟩ := nc_C O h4v hA hB
  obtain ⟨lA, e2, hlA, hlAv⟩ := diag_mul_left (V := A.conj) hl.1 hA hl.2
  obtain ⟨Kt, e3, hK, hKv⟩ := nc_K O hlA hB hC
  obtain ⟨Lt, e6, hL, hLv⟩ : ∃ R, Kt.tensordot Q' [0, 1] [0, 1] = .ok R ∧ R.shape = [k, qi] ∧ ∀ a c, R.val [a, c] =
      ∑ k' ∈ range n, ∑ k1 ∈ range n, Kt.val [k', k1] * Q'.val [k', k1, a, c] := by
    refine ⟨Kt.tensordotR Q' [0, 1] [0, 1], by simp [ND.tensordot, ND.rank, ND.dim, hK, hQ'], ?_, fun a c => ?_⟩ <;>
    simp [ND.tensordotR, ND.transposeR, ND.rank, ND.others, ND.dim, hK, hQ', List.range_succ]
  obtain ⟨W, e8, hW, hWv⟩ := nc_eval O (AA := [R, icr]) (v := [[-1, 2, -3, -4], [2, -2]])
    (dimOf [(2, qi), (-1, qi), (-2, qi), (-3, k2), (-4, qj)]) [2] [-1, -2, -3, -4]
    ⟨by simp, by simp [hicr.1, hR, dimOf, List.lookup], by simp, by simp, by decide, by decide, by decide, by decide, by decide⟩
    (by decide) (by decide)
  have hW : W.shape = [qi, qi, k2, qj] := by rw [hW]; simp [dimOf, List.lookup]
  obtain ⟨T, e7, hT, hTv⟩ : ∃ t, Lt.tensordot W [1] [0] = .ok t ∧ t.shape = [k, qi, k2, qj] ∧ ∀ a b c e, t.val [a, b, c, e] =
      ∑ c1 ∈ range qi, Lt.val [a, c1] * W.val [c1, b, c, e] := by
    refine ⟨Lt.tensordotR W [1] [0], by simp [ND.tensordot, ND.rank, ND.dim, hL, hW], ?_, fun a b c e => ?_⟩ <;>
    simp [ND.tensordotR, ND.transposeR, ND.rank, ND.others, ND.dim, hL, hW, List.range_succ]
  refine ⟨T, ?_, hT, ?_⟩
  · unfold FMPS.f1Term
    rw [eA, ok_bind, eB, ok_bind, if_neg (by omega), if_neg (by omega), e1, ok_bind]
    rw [el, ok_bind, e2, ok_bind, e3, ok_bind, if_neg hij, eQ, ok_bind, e6, ok_bind, eR, ok_bind, eicr, ok_bind, e8, ok_bind, e7]
  · intro a ha b hb c hc e he
    have hval : ∀ c1, W.val [c1, b, c, e] = R.val [c1, b, c, e] * (((Real.sqrt (rho b))⁻¹ : ℝ) : ℂ) := by
      intro c1
      rw [← hicr.sum' (fun y => R.val [c1, y, c, e]) hb, hWv _ rfl]
      simp [labelSum, netTerm, assign, dimOf, List.lookup, Function.update]
    subst him
    rw [pair_gate h0 hA hB (hKs c e) hA hB (hBs a b) hlam, hTv]
    calc _ = ∑ c1 ∈ range qi, ∑ k' ∈ range n, ∑ k1 ∈ range n, Kt.val [k', k1] * (Q'.val [k', k1, a, c1] * (R.val [c1, b, c, e] * (((Real.sqrt (rho b))⁻¹ : ℝ) : ℂ))) := by
          refine Finset.sum_congr rfl fun c1 _ => ?_
          rw [hLv, hval]
          simp only [Finset.sum_mul]
          exact Finset.sum_congr rfl fun k' _ => Finset.sum_congr rfl fun k1 _ => by ring
      _ = ∑ k' ∈ range n, ∑ k1 ∈ range n, Kt.val [k', k1] * mixR ds3 (Bs a b) (Ks c e) k' k1 := by
          rw [Finset.sum_comm]
          refine Finset.sum_congr rfl fun k' hk' => ?_
          rw [Finset.sum_comm]
          refine Finset.sum_congr rfl fun k1 hk1 => ?_
          rw [hRv k' (Finset.mem_range.1 hk') k1 (Finset.mem_range.1 hk1) a ha b hb c hc e he, Finset.mul_sum]
      _ = ∑ k' ∈ range n, ∑ k1 ∈ range n, ∑ t ∈ range d, ∑ u' ∈ range d, ∑ al ∈ range p, ∑ y ∈ range q,
          (lam al : ℂ) * star (A.val [t, al, y]) * star (B.val [u', y, k1]) * hAA d q h A B t u' al k' * mixR ds3 (Bs a b) (Ks c e) k' k1 := by
          refine Finset.sum_congr rfl fun k' _ => Finset.sum_congr rfl fun k1 _ => ?_
          rw [hKv]
          simp only [Finset.sum_mul]
          refine Finset.sum_congr rfl fun t ht => Finset.sum_congr rfl fun u' hu' => Finset.sum_congr rfl fun al hal => Finset.sum_congr rfl fun y _ => ?_
          simp only [Finset.mem_range] at ht hu' hal
          rw [hlAv t al hal y, hCv t ht u' hu' al k']
          rfl
      _ = _ := by
          rw [sum_swap2]
          refine Finset.sum_congr rfl fun t _ => ?_
          rw [sum_swap2]
          refine Finset.sum_congr rfl fun u' _ => ?_
          rw [sum_swap2]
          refine Finset.sum_congr rfl fun al _ => ?_
          rw [sum_swap2]
          refine Finset.sum_congr rfl fun y _ => ?_
          rw [Finset.sum_comm]

end Xmps
