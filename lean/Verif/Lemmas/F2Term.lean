import Verif.Model.F2
import Verif.Lemmas.MixEnv
import Verif.Props.TangentVec

/-!
# The contributions to `F2`
-/

namespace Xmps

open Finset Spec Xmps.Ncon

/-- the tangent tensor with the coordinate `(a, b)` equal to one and all others zero -/
noncomputable def tanUnit (d p q : ℕ) (vL : ND ℂ) (lam rho : ℕ → ℝ) (a b : ℕ) : ND ℂ := ⟨[d, p, q], fun
  | [s, al, be] => (((Real.sqrt (lam al))⁻¹ : ℝ) : ℂ) * vL.val [s, al, a] * if be = b then (((Real.sqrt (rho b))⁻¹ : ℝ) : ℂ) else 0
  | _ => 0⟩

theorem tanUnit_star {d p q : ℕ} {vL : ND ℂ} {lam rho : ℕ → ℝ} {a b : ℕ} (s al be : ℕ) :
    star ((tanUnit d p q vL lam rho a b).val [s, al, be]) =
      if be = b then (((Real.sqrt (lam al))⁻¹ : ℝ) : ℂ) * star (vL.val [s, al, a]) * (((Real.sqrt (rho b))⁻¹ : ℝ) : ℂ) else 0 := by
  show star (_ * _ * _) = _
  rw [star_mul', star_mul']
  split_ifs
  · rw [show star (((Real.sqrt (lam al))⁻¹ : ℝ) : ℂ) = _ from Complex.conj_ofReal _,
      show star (((Real.sqrt (rho b))⁻¹ : ℝ) : ℂ) = _ from Complex.conj_ofReal _]
  · simp

variable {ds0 ds3 : List ℕ} {As0 As3 Bs3 : List (ND ℂ)} {A B P Q h : ND ℂ} {d p q n : ℕ}

/-- the first site of the term has been varied -/
theorem pair_first (h0 : MpsChain ds0 As0 1 p) (hA : A.shape = [d, p, q]) (hB : B.shape = [d, q, n]) (h3 : MpsChain ds3 As3 n 1)
    (hQ : Q.shape = [d, q, n]) (k3 : MpsChain ds3 Bs3 n 1) {lam rho : ℕ → ℝ} (hpos : ∀ a < p, 0 < lam a)
    (hlam : ∀ a < p, ∀ b < p, leftEnv ds0 As0 a b = if a = b then (lam a : ℂ) else 0) {vL : ND ℂ} {a b : ℕ} (hb : b < q) :
    pairing (ds0 ++ d :: d :: ds3) (psi (As0 ++ tanUnit d p q vL lam rho a b :: Q :: Bs3))
        (gateAct d h ds0.length (ds0.length + 1) (psi (As0 ++ A :: B :: As3))) =
      ∑ t ∈ range d, ∑ u ∈ range d, ∑ al ∈ range p, ∑ k ∈ range n, ∑ k' ∈ range n,
        ((Real.sqrt (lam al) : ℝ) : ℂ) * star (vL.val [t, al, a]) * (((Real.sqrt (rho b))⁻¹ : ℝ) : ℂ) * star (Q.val [u, b, k]) *
          hAA d q h A B t u al k' * mixR ds3 Bs3 As3 k' k := by
  rw [pair_gate h0 hA hB h3 rfl hQ k3 hlam]
  refine Finset.sum_congr rfl fun t _ => Finset.sum_congr rfl fun u _ => Finset.sum_congr rfl fun al hal => ?_
  have hal := Finset.mem_range.1 hal
  rw [Finset.sum_eq_single b]
  · refine Finset.sum_congr rfl fun k _ => Finset.sum_congr rfl fun k' _ => ?_
    rw [tanUnit_star, if_pos rfl]
    have e : (lam al : ℂ) * (((Real.sqrt (lam al))⁻¹ : ℝ) : ℂ) = ((Real.sqrt (lam al) : ℝ) : ℂ) := by
      rw [← Complex.ofReal_mul]
      congr 1
      have := Real.mul_self_sqrt (hpos al hal).le
      have h' := (Real.sqrt_pos.2 (hpos al hal)).ne'
      field_simp
      nlinarith
    rw [← e]
    ring
  · intro x _ hx
    refine Finset.sum_eq_zero fun k _ => Finset.sum_eq_zero fun k' _ => ?_
    rw [tanUnit_star, if_neg hx]
    simp
  · intro hn
    exact absurd (Finset.mem_range.2 hb) hn

/-- the second site of the term has been varied -/
theorem pair_second (h0 : MpsChain ds0 As0 1 p) (hA : A.shape = [d, p, q]) (hB : B.shape = [d, q, n]) (h3 : MpsChain ds3 As3 n 1)
    (hP : P.shape = [d, p, q]) (k3 : MpsChain ds3 Bs3 n 1) {lam : ℕ → ℂ} {lam2 rho : ℕ → ℝ}
    (hlam : ∀ a < p, ∀ b < p, leftEnv ds0 As0 a b = if a = b then lam a else 0) {vL : ND ℂ} {a b : ℕ} (hb : b < n) :
    pairing (ds0 ++ d :: d :: ds3) (psi (As0 ++ P :: tanUnit d q n vL lam2 rho a b :: Bs3))
        (gateAct d h ds0.length (ds0.length + 1) (psi (As0 ++ A :: B :: As3))) =
      ∑ t ∈ range d, ∑ u ∈ range d, ∑ al ∈ range p, ∑ x ∈ range q, ∑ k' ∈ range n,
        lam al * star (P.val [t, al, x]) * ((((Real.sqrt (lam2 x))⁻¹ : ℝ) : ℂ) * star (vL.val [u, x, a])) * (((Real.sqrt (rho b))⁻¹ : ℝ) : ℂ) *
          hAA d q h A B t u al k' * mixR ds3 Bs3 As3 k' b := by
  rw [pair_gate h0 hA hB h3 hP rfl k3 hlam]
  refine Finset.sum_congr rfl fun t _ => Finset.sum_congr rfl fun u _ => Finset.sum_congr rfl fun al hal => Finset.sum_congr rfl fun x _ => ?_
  rw [Finset.sum_eq_single b]
  · refine Finset.sum_congr rfl fun k' _ => ?_
    rw [tanUnit_star, if_pos rfl]
    ring
  · intro k _ hk
    refine Finset.sum_eq_zero fun k' _ => ?_
    rw [tanUnit_star, if_neg hk]
    simp
  · intro hn
    exact absurd (Finset.mem_range.2 hb) hn

/-- the right environment from a varied site on -/
theorem mixR_unit {vL : ND ℂ} {lam rho : ℕ → ℝ} {a b : ℕ} (hA : A.shape = [d, p, q]) (hb : b < q) (y' y : ℕ) :
    mixR (d :: ds3) (tanUnit d p q vL lam rho a b :: Bs3) (A :: As3) y' y =
      ∑ s ∈ range d, ∑ c ∈ range q, (((Real.sqrt (lam y))⁻¹ : ℝ) : ℂ) * star (vL.val [s, y, a]) * A.val [s, y', c] *
        (mixR ds3 Bs3 As3 c b * (((Real.sqrt (rho b))⁻¹ : ℝ) : ℂ)) := by
  rw [mixR_cons hA rfl]
  refine Finset.sum_congr rfl fun s _ => Finset.sum_congr rfl fun c _ => ?_
  rw [Finset.sum_eq_single b]
  · rw [tanUnit_star, if_pos rfl]
    ring
  · intro k _ hk
    rw [tanUnit_star, if_neg hk]
    simp
  · intro hn
    exact absurd (Finset.mem_range.2 hb) hn

theorem sqrt_split {r : ℝ} (hr : 0 < r) : (r : ℂ) * (((Real.sqrt r)⁻¹ : ℝ) : ℂ) = ((Real.sqrt r : ℝ) : ℂ) := by
  rw [← Complex.ofReal_mul]
  congr 1
  have := Real.mul_self_sqrt hr.le
  have h' := (Real.sqrt_pos.2 hr).ne'
  field_simp
  nlinarith

/-- the right environment from the last varied site on -/
theorem mixR_last {vL : ND ℂ} {lam rho : ℕ → ℝ} {a b : ℕ} (hA : A.shape = [d, p, q]) (hb : b < q) (hpos : ∀ a < q, 0 < rho a)
    (hrho : ∀ a < q, ∀ b < q, rightEnv ds3 As3 a b = if a = b then (rho a : ℂ) else 0) (y' y : ℕ) :
    mixR (d :: ds3) (tanUnit d p q vL lam rho a b :: As3) (A :: As3) y' y =
      ∑ s ∈ range d, (((Real.sqrt (lam y))⁻¹ : ℝ) : ℂ) * star (vL.val [s, y, a]) * (A.val [s, y', b] * ((Real.sqrt (rho b) : ℝ) : ℂ)) := by
  rw [mixR_unit hA hb]
  refine Finset.sum_congr rfl fun s _ => ?_
  rw [Finset.sum_eq_single b]
  · rw [mixR_self, hrho b hb b hb, if_pos rfl, sqrt_split (hpos b hb)]
    ring
  · intro k hk hkb
    rw [mixR_self, hrho k (Finset.mem_range.1 hk) b hb, if_neg hkb]
    simp
  · intro hn
    exact absurd (Finset.mem_range.2 hb) hn

/-! ### what the code computes -/

/-- a diagonal matrix -/
def DiagM (X : ND ℂ) (n : ℕ) (mu : ℕ → ℂ) : Prop := X.shape = [n, n] ∧ ∀ a < n, ∀ b < n, X.val [a, b] = if a = b then mu a else 0

theorem DiagM.sum {X : ND ℂ} {n : ℕ} {mu : ℕ → ℂ} (hX : DiagM X n mu) (f : ℕ → ℂ) {a : ℕ} (ha : a < n) :
    ∑ b ∈ range n, X.val [a, b] * f b = mu a * f a := by
  rw [Finset.sum_eq_single a, hX.2 a ha a ha, if_pos rfl]
  · intro b hb hne
    rw [hX.2 a ha b (Finset.mem_range.1 hb), if_neg (Ne.symm hne), zero_mul]
  · intro hn
    exact absurd (Finset.mem_range.2 ha) hn

theorem DiagM.sum' {X : ND ℂ} {n : ℕ} {mu : ℕ → ℂ} (hX : DiagM X n mu) (f : ℕ → ℂ) {a : ℕ} (ha : a < n) :
    ∑ b ∈ range n, f b * X.val [b, a] = f a * mu a := by
  rw [Finset.sum_eq_single a, hX.2 a ha a ha, if_pos rfl]
  · intro b hb hne
    rw [hX.2 b (Finset.mem_range.1 hb) a ha, if_neg hne, mul_zero]
  · intro hn
    exact absurd (Finset.mem_range.2 ha) hn

theorem DiagM.mul {X Y : ND ℂ} {n : ℕ} {mu nu : ℕ → ℂ} (hX : DiagM X n mu) (hY : DiagM Y n nu) :
    ∃ R, X.matmul Y = .ok R ∧ DiagM R n fun a => mu a * nu a := by
  obtain ⟨R, e, hR, hRv⟩ := ND.matmul22 hX.1 hY.1
  refine ⟨R, e, hR, ?_⟩
  intro a ha b hb
  rw [hRv, hX.sum _ ha, hY.2 a ha b hb]
  split_ifs <;> simp

theorem DiagM.mul24 {X C : ND ℂ} {n d1 d2 m : ℕ} {mu : ℕ → ℂ} (hX : DiagM X n mu) (hC : C.shape = [d1, d2, n, m]) :
    ∃ R, X.matmul24 C = .ok R ∧ R.shape = [d1, d2, n, m] ∧ ∀ t u, ∀ a < n, ∀ e, R.val [t, u, a, e] = mu a * C.val [t, u, a, e] := by
  refine ⟨_, by simp [ND.matmul24, hX.1, hC]; rfl, rfl, ?_⟩
  intro t u a ha e
  exact hX.sum (fun b => C.val [t, u, b, e]) ha

theorem DiagM.mul42 {X C : ND ℂ} {n d1 d2 m : ℕ} {mu : ℕ → ℂ} (hX : DiagM X m mu) (hC : C.shape = [d1, d2, n, m]) :
    ∃ R, C.matmul42 X = .ok R ∧ R.shape = [d1, d2, n, m] ∧ ∀ t u a, ∀ e < m, R.val [t, u, a, e] = C.val [t, u, a, e] * mu e := by
  refine ⟨_, by simp [ND.matmul42, hX.1, hC]; rfl, rfl, ?_⟩
  intro t u a e he
  exact hX.sum' (fun b => C.val [t, u, a, b]) he

variable {x : FMPS ℂ} {ls vs Rjs Ris : List (ND ℂ)} {E : FMPS.InvEnvs} {i j m k k2 : ℕ} {vi vj h4 cl cr icr icl : ND ℂ} {lam rho lam2 rho2 : ℕ → ℝ}
  {w : ℂ}

/-- the term on the two varied sites -/
theorem f2Term_next (O : SetOrder) (h4v : Four d h h4) (h0 : MpsChain ds0 As0 1 p) (hA : A.shape = [d, p, q]) (hB : B.shape = [d, q, n])
    (h3 : MpsChain ds3 As3 n 1) (him : ds0.length = i) (eA : pyGet x.data i = .ok A) (eB : pyGet x.data (i + 1) = .ok B)
    (hlam : ∀ a < p, ∀ b < p, leftEnv ds0 As0 a b = if a = b then (lam a : ℂ) else 0) (hpos : ∀ a < p, 0 < lam a)
    (hrho : ∀ a < n, ∀ b < n, rightEnv ds3 As3 a b = if a = b then (rho2 a : ℂ) else 0) (hpos2 : ∀ a < n, 0 < rho2 a)
    (ecl : pyGetI E.cl ((i : ℤ) - 1) = .ok cl) (hcl : DiagM cl p fun a => w * ((Real.sqrt (lam a) : ℝ) : ℂ))
    (ecr : pyGet E.cr (i + 1) = .ok cr) (hcr : DiagM cr n fun a => ((Real.sqrt (rho2 a) : ℝ) : ℂ))
    (eicr : pyGet E.icr i = .ok icr) (hicr : DiagM icr q fun a => (((Real.sqrt (rho a))⁻¹ : ℝ) : ℂ))
    (eicl : pyGetI E.icl (((i + 1 : ℕ) : ℤ) - 1) = .ok icl) (hicl : DiagM icl q fun a => (((Real.sqrt (lam2 a))⁻¹ : ℝ) : ℂ))
    (evi : pyGet vs i = .ok vi) (hvi : vi.shape = [d, p, k]) (evj : pyGet vs (i + 1) = .ok vj) (hvj : vj.shape = [d, q, k2]) :
    ∃ T, FMPS.f2Term O x ls vs E Rjs Ris i (i + 1) i h4 = .ok T ∧ T.shape = [k, q, k2, n] ∧ ∀ a < k, ∀ b < q, ∀ c < k2, ∀ e < n,
      T.val [a, b, c, e] = w * pairing (ds0 ++ d :: d :: ds3) (psi (As0 ++ tanUnit d p q vi lam rho a b :: tanUnit d q n vj lam2 rho2 c e :: As3))
        (gateAct d h i (i + 1) (psi (As0 ++ A :: B :: As3))) := by
  obtain ⟨C, e1, hC, hCv⟩ := nc_C O h4v hA hB
  obtain ⟨lC, e2, hlC, hlCv⟩ := hcl.mul24 hC
  obtain ⟨lCr, e3, hlCr, hlCrv⟩ := hcr.mul42 hlC
  obtain ⟨g, e4, hg⟩ := hicr.mul hicl
  obtain ⟨u, e5, hu, huv⟩ := diag_mul_left (V := vj.conj) hg.1 hvj hg.2
  obtain ⟨T, e6, hT, hTv⟩ := nc_eval O (AA := [lCr, vi.conj, u]) (v := [[1, 2, 3, -4], [1, 3, -1], [2, -2, -3]])
    (dimOf [(1, d), (2, d), (3, p), (-1, k), (-2, q), (-3, k2), (-4, n)]) [1, 2, 3] [-1, -2, -3, -4]
    ⟨by simp, by simp [hlCr, ND.conj, hvi, hu, dimOf, List.lookup], by simp, by simp, by decide, by decide, by decide, by decide, by decide⟩
    (by decide) (by decide)
  refine ⟨T, ?_, by rw [hT]; simp [dimOf, List.lookup], ?_⟩
  · unfold FMPS.f2Term
    rw [eA, ok_bind, eB, ok_bind, e1, ok_bind]
    simp only [if_true]
    rw [ecl, ok_bind, e2, ok_bind, evi, ok_bind, eicr, ok_bind, ecr, ok_bind, e3, ok_bind, eicl, ok_bind, e4, ok_bind, evj, ok_bind, e5, ok_bind, e6]
  · intro a ha b hb c hc e he
    have hval : T.val [a, b, c, e] = ∑ t ∈ range d, ∑ u' ∈ range d, ∑ al ∈ range p, lCr.val [t, u', al, e] * (star (vi.val [t, al, a]) * u.val [u', b, c]) := by
      rw [hTv _ rfl]
      simp [labelSum, netTerm, assign, dimOf, List.lookup, Function.update, ND.conj]
    subst him
    rw [hval, pair_first h0 hA hB h3 rfl h3 hpos hlam hb, Finset.mul_sum]
    refine Finset.sum_congr rfl fun t ht => ?_
    rw [Finset.mul_sum]
    refine Finset.sum_congr rfl fun u' hu' => ?_
    rw [Finset.mul_sum]
    refine Finset.sum_congr rfl fun al hal => ?_
    simp only [Finset.mem_range] at ht hu' hal
    rw [hlCrv t u' al e he, hlCv t u' al hal e, hCv t ht u' hu' al e, huv u' b hb c]
    rw [Finset.sum_eq_single e]
    · rw [Finset.sum_eq_single e]
      · rw [tanUnit_star, if_pos rfl, mixR_self, hrho e he e he, if_pos rfl]
        have := sqrt_split (hpos2 e he)
        rw [← this]
        show _ * (_ * (_ * star (vj.val [u', b, c]))) = _
        ring
      · intro k' hk' hne
        rw [mixR_self, hrho k' (Finset.mem_range.1 hk') e he, if_neg hne, mul_zero]
      · intro hn
        exact absurd (Finset.mem_range.2 he) hn
    · intro k1 _ hne
      refine Finset.sum_eq_zero fun k' _ => ?_
      rw [tanUnit_star, if_neg hne]
      simp
    · intro hn
      exact absurd (Finset.mem_range.2 he) hn

/-- the term on the first varied site and the one after it, the second varied site further on -/
theorem f2Term_first (O : SetOrder) {R : ND ℂ} (h4v : Four d h h4) (h0 : MpsChain ds0 As0 1 p) (hA : A.shape = [d, p, q]) (hB : B.shape = [d, q, n])
    (h3 : MpsChain ds3 As3 n 1) (hj : j ≠ i + 1) (him : ds0.length = i) (eA : pyGet x.data i = .ok A) (eB : pyGet x.data (i + 1) = .ok B)
    (hlam : ∀ a < p, ∀ b < p, leftEnv ds0 As0 a b = if a = b then (lam a : ℂ) else 0) (hpos : ∀ a < p, 0 < lam a)
    (ecl : pyGetI E.cl ((i : ℤ) - 1) = .ok cl) (hcl : DiagM cl p fun a => w * ((Real.sqrt (lam a) : ℝ) : ℂ))
    (eicr : pyGet E.icr i = .ok icr) (hicr : DiagM icr q fun a => (((Real.sqrt (rho a))⁻¹ : ℝ) : ℂ))
    (evi : pyGet vs i = .ok vi) (hvi : vi.shape = [d, p, k])
    {qj : ℕ} {Bs : ℕ → ℕ → List (ND ℂ)} (hBs : ∀ c e, MpsChain ds3 (Bs c e) n 1)
    (eR : FMPS.leftAt Rjs i ((i : ℤ) + 2) = .ok R) (hR : R.shape = [n, n, k2, qj])
    (hRv : ∀ k' < n, ∀ k < n, ∀ c < k2, ∀ e < qj, R.val [k', k, c, e] = mixR ds3 (Bs c e) As3 k' k) :
    ∃ T, FMPS.f2Term O x ls vs E Rjs Ris i j i h4 = .ok T ∧ T.shape = [k, q, k2, qj] ∧ ∀ a < k, ∀ b < q, ∀ c < k2, ∀ e < qj,
      T.val [a, b, c, e] = w * pairing (ds0 ++ d :: d :: ds3) (psi (As0 ++ tanUnit d p q vi lam rho a b :: B :: Bs c e))
        (gateAct d h i (i + 1) (psi (As0 ++ A :: B :: As3))) := by
  obtain ⟨C, e1, hC, hCv⟩ := nc_C O h4v hA hB
  obtain ⟨lC, e2, hlC, hlCv⟩ := hcl.mul24 hC
  obtain ⟨u, e5, hu, huv⟩ := diag_mul_left (V := B.conj) hicr.1 hB hicr.2
  obtain ⟨Lt, e6, hL, hLv⟩ := nc_eval O (AA := [lC, vi.conj, u]) (v := [[3, 4, 1, -3], [3, 1, -1], [4, -2, -4]])
    (dimOf [(1, p), (3, d), (4, d), (-1, k), (-2, q), (-3, n), (-4, n)]) [1, 3, 4] [-1, -2, -3, -4]
    ⟨by simp, by simp [hlC, ND.conj, hvi, hu, dimOf, List.lookup], by simp, by simp, by decide, by decide, by decide, by decide, by decide⟩
    (by decide) (by decide)
  have hL : Lt.shape = [k, q, n, n] := by rw [hL]; simp [dimOf, List.lookup]
  refine ⟨Lt.tensordotR R [2, 3] [0, 1], ?_, by simp [ND.tensordotR, ND.rank, ND.others, ND.dim, hR, hL, List.range_succ], ?_⟩
  · unfold FMPS.f2Term
    rw [eA, ok_bind, eB, ok_bind, e1, ok_bind]
    simp only [if_true]
    rw [ecl, ok_bind, e2, ok_bind, evi, ok_bind, eicr, ok_bind, if_neg hj, e5, ok_bind, e6, ok_bind, eR, ok_bind]
    simp [ND.tensordot, ND.rank, ND.dim, hL, hR]
  · intro a ha b hb c hc e he
    have hval : (Lt.tensordotR R [2, 3] [0, 1]).val [a, b, c, e] = ∑ k' ∈ range n, ∑ k1 ∈ range n, Lt.val [a, b, k', k1] * R.val [k', k1, c, e] := by
      simp [ND.tensordotR, ND.transposeR, ND.rank, ND.others, ND.dim, hR, hL, List.range_succ]
    have hval2 : ∀ k' k1, Lt.val [a, b, k', k1] = ∑ al ∈ range p, ∑ t ∈ range d, ∑ u' ∈ range d,
        lC.val [t, u', al, k'] * (star (vi.val [t, al, a]) * u.val [u', b, k1]) := by
      intro k' k1
      rw [hLv _ rfl]
      simp [labelSum, netTerm, assign, dimOf, List.lookup, Function.update, ND.conj]
    subst him
    rw [hval, pair_first h0 hA hB h3 hB (hBs c e) hpos hlam hb]
    calc _ = ∑ k' ∈ range n, ∑ k1 ∈ range n, ∑ al ∈ range p, ∑ t ∈ range d, ∑ u' ∈ range d,
          w * (((Real.sqrt (lam al) : ℝ) : ℂ) * star (vi.val [t, al, a]) * (((Real.sqrt (rho b))⁻¹ : ℝ) : ℂ) * star (B.val [u', b, k1]) *
            hAA d q h A B t u' al k' * mixR ds3 (Bs c e) As3 k' k1) := by
          refine Finset.sum_congr rfl fun k' hk' => Finset.sum_congr rfl fun k1 hk1 => ?_
          simp only [Finset.mem_range] at hk' hk1
          rw [hval2, hRv k' hk' k1 hk1 c hc e he, Finset.sum_mul]
          refine Finset.sum_congr rfl fun al hal => ?_
          rw [Finset.sum_mul]
          refine Finset.sum_congr rfl fun t ht => ?_
          rw [Finset.sum_mul]
          refine Finset.sum_congr rfl fun u' hu' => ?_
          simp only [Finset.mem_range] at ht hu' hal
          rw [hlCv t u' al hal k', hCv t ht u' hu' al k', huv u' b hb k1]
          show _ * (_ * (_ * star (B.val [u', b, k1]))) * _ = _
          ring
      _ = _ := by
          simp only [Finset.mul_sum]
          rw [sum_swap3]
          refine Finset.sum_congr rfl fun t _ => ?_
          rw [sum_swap3]
          refine Finset.sum_congr rfl fun u' _ => ?_
          rw [sum_swap2]
          refine Finset.sum_congr rfl fun al _ => ?_
          rw [Finset.sum_comm]

/-- the term whose second site is the first varied one -/
theorem f2Term_second (O : SetOrder) {R l : ND ℂ} (h4v : Four d h h4) (h0 : MpsChain ds0 As0 1 p) (hA : A.shape = [d, p, q]) (hB : B.shape = [d, q, n])
    (h3 : MpsChain ds3 As3 n 1) (him : ds0.length = m) (eA : pyGet x.data m = .ok A) (eB : pyGet x.data (m + 1) = .ok B)
    (hlam : ∀ a < p, ∀ b < p, leftEnv ds0 As0 a b = if a = b then (lam a : ℂ) else 0)
    (el : FMPS.envAt ls ((m : ℤ) - 1) = .ok l) (hl : DiagM l p fun a => (lam a : ℂ))
    (eicl : pyGetI E.icl (((m + 1 : ℕ) : ℤ) - 1) = .ok icl) (hicl : DiagM icl q fun a => (((Real.sqrt (lam2 a))⁻¹ : ℝ) : ℂ))
    (eicr : pyGet E.icr (m + 1) = .ok icr) (hicr : DiagM icr n fun a => (((Real.sqrt (rho a))⁻¹ : ℝ) : ℂ))
    (evi : pyGet vs (m + 1) = .ok vi) (hvi : vi.shape = [d, q, k])
    {qj : ℕ} {Bs : ℕ → ℕ → List (ND ℂ)} (hBs : ∀ c e, MpsChain ds3 (Bs c e) n 1)
    (eR : FMPS.leftAt Rjs (m + 1) ((m : ℤ) + 2) = .ok R) (hR : R.shape = [n, n, k2, qj])
    (hRv : ∀ k' < n, ∀ k < n, ∀ c < k2, ∀ e < qj, R.val [k', k, c, e] = mixR ds3 (Bs c e) As3 k' k) :
    ∃ T, FMPS.f2Term O x ls vs E Rjs Ris (m + 1) j m h4 = .ok T ∧ T.shape = [k, n, k2, qj] ∧ ∀ a < k, ∀ b < n, ∀ c < k2, ∀ e < qj,
      T.val [a, b, c, e] = pairing (ds0 ++ d :: d :: ds3) (psi (As0 ++ A :: tanUnit d q n vi lam2 rho a b :: Bs c e))
        (gateAct d h m (m + 1) (psi (As0 ++ A :: B :: As3))) := by
  obtain ⟨C, e1, hC, hCv⟩ := nc_C O h4v hA hB
  obtain ⟨lC, e2, hlC, hlCv⟩ := hl.mul24 hC
  obtain ⟨u, e5, hu, huv⟩ := diag_mul_left (V := vi.conj) hicl.1 hvi hicl.2
  obtain ⟨Lt, e6, hL, hLv⟩ := nc_eval O (AA := [lC, A.conj, u]) (v := [[2, 4, 1, -2], [2, 1, 3], [4, 3, -1]])
    (dimOf [(1, p), (2, d), (3, q), (4, d), (-1, k), (-2, n)]) [1, 2, 3, 4] [-1, -2]
    ⟨by simp, by simp [hlC, ND.conj, hA, hu, dimOf, List.lookup], by simp, by simp, by decide, by decide, by decide, by decide, by decide⟩
    (by decide) (by decide)
  have hL : Lt.shape = [k, n] := by rw [hL]; simp [dimOf, List.lookup]
  obtain ⟨W, e7, hW, hWv⟩ := nc_eval O (AA := [icr, R]) (v := [[-2, 1], [-1, 1, -3, -4]])
    (dimOf [(1, n), (-1, n), (-2, n), (-3, k2), (-4, qj)]) [1] [-1, -2, -3, -4]
    ⟨by simp, by simp [hicr.1, hR, dimOf, List.lookup], by simp, by simp, by decide, by decide, by decide, by decide, by decide⟩
    (by decide) (by decide)
  have hW : W.shape = [n, n, k2, qj] := by rw [hW]; simp [dimOf, List.lookup]
  refine ⟨Lt.tensordotR W [1] [0], ?_, by simp [ND.tensordotR, ND.rank, ND.others, ND.dim, hW, hL, List.range_succ], ?_⟩
  · unfold FMPS.f2Term
    rw [eA, ok_bind, eB, ok_bind, e1, ok_bind]
    simp only [show ¬ m = m + 1 by omega, if_false, if_true]
    rw [el, ok_bind, e2, ok_bind, eicl, ok_bind, evi, ok_bind, e5, ok_bind, e6, ok_bind, eicr, ok_bind, eR, ok_bind, e7, ok_bind]
    simp [ND.tensordot, ND.rank, ND.dim, hL, hW]
  · intro a ha b hb c hc e he
    have hval : (Lt.tensordotR W [1] [0]).val [a, b, c, e] = ∑ k' ∈ range n, Lt.val [a, k'] * W.val [k', b, c, e] := by
      simp [ND.tensordotR, ND.transposeR, ND.rank, ND.others, ND.dim, hW, hL, List.range_succ]
    have hval2 : ∀ k', Lt.val [a, k'] = ∑ al ∈ range p, ∑ t ∈ range d, ∑ y ∈ range q, ∑ u' ∈ range d,
        lC.val [t, u', al, k'] * (star (A.val [t, al, y]) * u.val [u', y, a]) := by
      intro k'
      rw [hLv _ rfl]
      simp [labelSum, netTerm, assign, dimOf, List.lookup, Function.update, ND.conj]
    have hval3 : ∀ k' < n, W.val [k', b, c, e] = (((Real.sqrt (rho b))⁻¹ : ℝ) : ℂ) * mixR ds3 (Bs c e) As3 k' b := by
      intro k' hk'
      rw [← hRv k' hk' b hb c hc e he, ← hicr.sum (fun y => R.val [k', y, c, e]) hb, hWv _ rfl]
      simp [labelSum, netTerm, assign, dimOf, List.lookup, Function.update]
    subst him
    rw [hval, pair_second h0 hA hB h3 hA (hBs c e) hlam hb]
    calc _ = ∑ k' ∈ range n, ∑ al ∈ range p, ∑ t ∈ range d, ∑ y ∈ range q, ∑ u' ∈ range d,
          (lam al : ℂ) * star (A.val [t, al, y]) * ((((Real.sqrt (lam2 y))⁻¹ : ℝ) : ℂ) * star (vi.val [u', y, a])) * (((Real.sqrt (rho b))⁻¹ : ℝ) : ℂ) *
            hAA d q h A B t u' al k' * mixR ds3 (Bs c e) As3 k' b := by
          refine Finset.sum_congr rfl fun k' hk' => ?_
          have hk' := Finset.mem_range.1 hk'
          rw [hval2, hval3 k' hk', Finset.sum_mul]
          refine Finset.sum_congr rfl fun al hal => ?_
          rw [Finset.sum_mul]
          refine Finset.sum_congr rfl fun t ht => ?_
          rw [Finset.sum_mul]
          refine Finset.sum_congr rfl fun y hy => ?_
          rw [Finset.sum_mul]
          refine Finset.sum_congr rfl fun u' hu' => ?_
          simp only [Finset.mem_range] at ht hu' hal hy
          rw [hlCv t u' al hal k', hCv t ht u' hu' al k', huv u' y hy a]
          show _ * (_ * (_ * star (vi.val [u', y, a]))) * _ = _
          ring
      _ = _ := by
          rw [sum_swap2]
          refine Finset.sum_congr rfl fun t _ => ?_
          rw [sum_swap3]
          refine Finset.sum_congr rfl fun u' _ => ?_
          rw [Finset.sum_comm]
          refine Finset.sum_congr rfl fun al _ => ?_
          rw [Finset.sum_comm]

/-- a term before the varied sites -/
theorem f2Term_far (O : SetOrder) {R Q' l : ND ℂ} (h4v : Four d h h4) (h0 : MpsChain ds0 As0 1 p) (hA : A.shape = [d, p, q]) (hB : B.shape = [d, q, n])
    (h3 : MpsChain ds3 As3 n 1) (him : ds0.length = m) (hi : m + 1 < i) (eA : pyGet x.data m = .ok A) (eB : pyGet x.data (m + 1) = .ok B)
    (hlam : ∀ a < p, ∀ b < p, leftEnv ds0 As0 a b = if a = b then (lam a : ℂ) else 0)
    (el : FMPS.envAt ls ((m : ℤ) - 1) = .ok l) (hl : DiagM l p fun a => (lam a : ℂ)) {qi qj : ℕ}
    (eicr : pyGet E.icr i = .ok icr) (hicr : DiagM icr qi fun a => (((Real.sqrt (rho a))⁻¹ : ℝ) : ℂ))
    {Bs : ℕ → ℕ → ℕ → ℕ → List (ND ℂ)} (hBs : ∀ a b c e, MpsChain ds3 (Bs a b c e) n 1)
    (eR : FMPS.leftAt Rjs i ((i : ℤ) + 1) = .ok R) (hR : R.shape = [qi, qi, k2, qj])
    (eQ : FMPS.leftAt Ris 0 ((m : ℤ) + 2) = .ok Q') (hQ' : Q'.shape = [n, n, k, qi])
    (hRv : ∀ k' < n, ∀ k1 < n, ∀ a < k, ∀ b < qi, ∀ c < k2, ∀ e < qj, mixR ds3 (Bs a b c e) As3 k' k1 =
      ∑ c1 ∈ range qi, Q'.val [k', k1, a, c1] * (R.val [c1, b, c, e] * (((Real.sqrt (rho b))⁻¹ : ℝ) : ℂ))) :
    ∃ T, FMPS.f2Term O x ls vs E Rjs Ris i j m h4 = .ok T ∧ T.shape = [k, qi, k2, qj] ∧ ∀ a < k, ∀ b < qi, ∀ c < k2, ∀ e < qj,
      T.val [a, b, c, e] = pairing (ds0 ++ d :: d :: ds3) (psi (As0 ++ A :: B :: Bs a b c e))
        (gateAct d h m (m + 1) (psi (As0 ++ A :: B :: As3))) := by
  obtain ⟨C, e1, hC, hCv⟩ := nc_C O h4v hA hB
  obtain ⟨lA, e2, hlA, hlAv⟩ := diag_mul_left (V := A.conj) hl.1 hA hl.2
  obtain ⟨Kt, e3, hK, hKv⟩ := nc_K O hlA hB hC
  obtain ⟨Lt, e6, hL, hLv⟩ : ∃ R, Kt.tensordot Q' [0, 1] [0, 1] = .ok R ∧ R.shape = [k, qi] ∧ ∀ a c, R.val [a, c] =
      ∑ k' ∈ range n, ∑ k1 ∈ range n, Kt.val [k', k1] * Q'.val [k', k1, a, c] := by
    refine ⟨Kt.tensordotR Q' [0, 1] [0, 1], by simp [ND.tensordot, ND.rank, ND.dim, hK, hQ'], ?_, fun a c => ?_⟩ <;>
    simp [ND.tensordotR, ND.transposeR, ND.rank, ND.others, ND.dim, hK, hQ', List.range_succ]
  obtain ⟨t, e7, ht, htv⟩ : ∃ t, Lt.tensordot R [1] [0] = .ok t ∧ t.shape = [k, qi, k2, qj] ∧ ∀ a b c e, t.val [a, b, c, e] =
      ∑ c1 ∈ range qi, Lt.val [a, c1] * R.val [c1, b, c, e] := by
    refine ⟨Lt.tensordotR R [1] [0], by simp [ND.tensordot, ND.rank, ND.dim, hL, hR], ?_, fun a b c e => ?_⟩ <;>
    simp [ND.tensordotR, ND.transposeR, ND.rank, ND.others, ND.dim, hL, hR, List.range_succ]
  obtain ⟨T, e8, hT, hTv⟩ := nc_eval O (AA := [t, icr]) (v := [[-1, 1, -3, -4], [1, -2]])
    (dimOf [(1, qi), (-1, k), (-2, qi), (-3, k2), (-4, qj)]) [1] [-1, -2, -3, -4]
    ⟨by simp, by simp [hicr.1, ht, dimOf, List.lookup], by simp, by simp, by decide, by decide, by decide, by decide, by decide⟩
    (by decide) (by decide)
  refine ⟨T, ?_, by rw [hT]; simp [dimOf, List.lookup], ?_⟩
  · unfold FMPS.f2Term
    rw [eA, ok_bind, eB, ok_bind, e1, ok_bind, if_neg (by omega), if_neg (by omega)]
    rw [el, ok_bind, e2, ok_bind, e3, ok_bind, eQ, ok_bind, e6, ok_bind, eR, ok_bind, e7, ok_bind, eicr, ok_bind, e8]
  · intro a ha b hb c hc e he
    have hval : T.val [a, b, c, e] = t.val [a, b, c, e] * (((Real.sqrt (rho b))⁻¹ : ℝ) : ℂ) := by
      rw [← hicr.sum' (fun y => t.val [a, y, c, e]) hb, hTv _ rfl]
      simp [labelSum, netTerm, assign, dimOf, List.lookup, Function.update]
    subst him
    rw [hval, pair_gate h0 hA hB h3 hA hB (hBs a b c e) hlam, htv, Finset.sum_mul]
    calc _ = ∑ c1 ∈ range qi, ∑ k' ∈ range n, ∑ k1 ∈ range n, Kt.val [k', k1] * (Q'.val [k', k1, a, c1] * (R.val [c1, b, c, e] * (((Real.sqrt (rho b))⁻¹ : ℝ) : ℂ))) := by
          refine Finset.sum_congr rfl fun c1 _ => ?_
          rw [hLv]
          simp only [Finset.sum_mul]
          exact Finset.sum_congr rfl fun k' _ => Finset.sum_congr rfl fun k1 _ => by ring
      _ = ∑ k' ∈ range n, ∑ k1 ∈ range n, Kt.val [k', k1] * mixR ds3 (Bs a b c e) As3 k' k1 := by
          rw [Finset.sum_comm]
          refine Finset.sum_congr rfl fun k' hk' => ?_
          rw [Finset.sum_comm]
          refine Finset.sum_congr rfl fun k1 hk1 => ?_
          rw [hRv k' (Finset.mem_range.1 hk') k1 (Finset.mem_range.1 hk1) a ha b hb c hc e he, Finset.mul_sum]
      _ = ∑ k' ∈ range n, ∑ k1 ∈ range n, ∑ t ∈ range d, ∑ u' ∈ range d, ∑ al ∈ range p, ∑ y ∈ range q,
          (lam al : ℂ) * star (A.val [t, al, y]) * star (B.val [u', y, k1]) * hAA d q h A B t u' al k' * mixR ds3 (Bs a b c e) As3 k' k1 := by
          refine Finset.sum_congr rfl fun k' _ => Finset.sum_congr rfl fun k1 _ => ?_
          rw [hKv]
          simp only [Finset.sum_mul]
          refine Finset.sum_congr rfl fun t ht => Finset.sum_congr rfl fun u' hu' => Finset.sum_congr rfl fun al hal => Finset.sum_congr rfl fun y _ => ?_
          simp only [Finset.mem_range] at ht hu' hal
          rw [hlAv t al hal y, hCv t ht u' hu' al k']
          rfl
      _ = _ := by
          rw [sum_swap2]
          refine Finset.sum_congr rfl fun t _ => ?_
          rw [sum_swap2]
          refine Finset.sum_congr rfl fun u' _ => ?_
          rw [sum_swap2]
          refine Finset.sum_congr rfl fun al _ => ?_
          rw [sum_swap2]
          refine Finset.sum_congr rfl fun y _ => ?_
          rw [Finset.sum_comm]

end Xmps
