import Verif.Lemmas.LyapunovFacts
import Verif.Props.JacFix

/-!
# Properties C96 (`tangent_space_basis`), C97 (`lyapunov`), C98 (`ts_int`)
-/

namespace Xmps

open Finset Spec Matrix Xmps.Ncon

/-- The matrices `Js` are those `jac` returns at the states a run visits, from `x` with `old_vL` on. -/
inductive Visits (jac : FMPS ℂ → Option (List (ND ℂ)) → Py (ND ℂ × List (ND ℂ))) (evolve : FMPS ℂ → Py (FMPS ℂ)) :
    FMPS ℂ → Option (List (ND ℂ)) → List (ND ℂ) → Prop
  | nil (x old) : Visits jac evolve x old []
  | last {x old J vs} : jac x old = .ok (J, vs) → Visits jac evolve x old [J]
  | cons {x old J vs y Js} : jac x old = .ok (J, vs) → evolve x = .ok y → Visits jac evolve y (some vs) Js → Visits jac evolve x old (J :: Js)

section
variable {jac : FMPS ℂ → Option (List (ND ℂ)) → Py (ND ℂ × List (ND ℂ))} {evolve : FMPS ℂ → Py (FMPS ℂ)} {I : FMPS ℂ → Option (List (ND ℂ)) → Prop} {D : ℕ}

/-- `I` holds at all states of a run (with their `old_vL`), and `jac` returns a Hamiltonian matrix of size `2D` where it holds. -/
def Tdvp.HamRun (jac : FMPS ℂ → Option (List (ND ℂ)) → Py (ND ℂ × List (ND ℂ))) (evolve : FMPS ℂ → Py (FMPS ℂ)) (I : FMPS ℂ → Option (List (ND ℂ)) → Prop) (D : ℕ) : Prop :=
  ∀ x old, I x old → ∃ J vs, jac x old = .ok (J, vs) ∧ HamND D J ∧ ∀ y, evolve x = .ok y → I y (some vs)

variable (hI : Tdvp.HamRun jac evolve I D)
include hI

theorem lyLoop_inv {qr : ND ℂ → Py (ND ℂ × ND ℂ)} (hqr : QRLaw qr) {conv : List (List ℝ) → Py ℝ} {thresh : Option ℝ} (hD : 0 < D) {dt : ℝ} {Q : ND ℂ} :
    ∀ (k : ℕ) (Js : List (ND ℂ)) (x : FMPS ℂ) (old : Option (List (ND ℂ))) (a a' : Tdvp.LyAcc) (n' : ℕ), I x old → LyInv D dt Q Js a →
      Tdvp.lyLoop qr conv thresh jac evolve dt k Js.length x old a = .ok (a', n') →
      ∃ Ks, Visits jac evolve x old Ks ∧ Ks.length ≤ k ∧ (0 < k → 0 < Ks.length) ∧ n' = Js.length + Ks.length - 1 ∧ LyInv D dt Q (Js ++ Ks) a' ∧
        (thresh = none → Ks.length = k) := by
  intro k
  induction k with
  | zero =>
    intro Js x old a a' n' hx ha h
    simp only [Tdvp.lyLoop] at h
    obtain ⟨rfl, rfl⟩ : a = a' ∧ Js.length - 1 = n' := by simpa using h
    exact ⟨[], .nil x old, by simp, by simp, by simp, by simpa using ha, by simp⟩
  | succ k ih =>
    intro Js x old a a' n' hx ha h
    obtain ⟨J, vs, e1, hJ, hnext⟩ := hI x old hx
    obtain ⟨Q', QB', ly, ex, lyB, exB, e2, hinv⟩ := ha.step hqr conv hD hJ
    rw [Tdvp.lyLoop, e1, ok_bind] at h
    simp only at h
    rw [e2] at h
    obtain ⟨b, h1, h2⟩ := bind_eq_ok h
    obtain ⟨c, h3, h4⟩ := bind_eq_ok h1
    obtain rfl := (Except.ok.injEq _ _ ▸ h4 : _ = b)
    have hb := hinv (a.conv ++ [c])
    split at h2
    · next hstop =>
      obtain ⟨rfl, rfl⟩ := (by simpa using h2 : _ = a' ∧ Js.length = n')
      refine ⟨[J], .last e1, by simp, by simp, by simp, hb, ?_⟩
      rintro rfl
      simp [Tdvp.lyStop] at hstop
    · obtain ⟨y, h5, h6⟩ := bind_eq_ok h2
      have e3 : Js.length + 1 = (Js ++ [J]).length := by simp
      rw [e3] at h6
      obtain ⟨Ks, g1, g2, -, g4, g5, g6⟩ := ih (Js ++ [J]) y (some vs) _ a' n' (hnext y h5) hb h6
      refine ⟨J :: Ks, .cons e1 h5 g1, by simpa using g2, by simp, ?_, by simpa using g5, fun ht => by simp [g6 ht]⟩
      rw [g4]
      simp

/-- **C97** Whatever `lyapunov` returns for an orthonormal initial basis `Q`: after rounds with the matrices `Js` of the states the run visits,
every entry of `lys`, `lys_`, `exps`, `exps_` has sum zero; `exps[m]` is the mean of the first `k+m+1` entries of `lys` over the step of time; and
`exp(Jₙ dt)⋯exp(J₁ dt) Q` is an orthonormal matrix times an upper triangular `T` with `Σ lys = log|diag T|`: the sums are the rates at which the vectors
of `Q` grow orthogonally to the ones before.  `lys_` is the mean of these with the rates of the inverse transposed flow. -/
theorem Tdvp.lyapunov_spec {qr : ND ℂ → Py (ND ℂ × ND ℂ)} (hqr : QRLaw qr) {conv : List (List ℝ) → Py ℝ} {thresh : Option ℝ} (hD : 0 < D) {Q : ND ℂ}
    (hQ : IsUnitary Q (2 * D)) {x : FMPS ℂ} (hx : I x none) {t0 t1 : ℝ} {ts : List ℝ} (ht : t0 ≠ t1) {k : ℕ} {exps lys expsB lysB : List (List ℝ)}
    (h : Tdvp.lyapunov qr conv thresh jac evolve x Q (t0 :: t1 :: ts) k = .ok (exps, lys, expsB, lysB)) :
    ∃ Js, Visits jac evolve x none Js ∧ 0 < Js.length ∧ Js.length ≤ ts.length + 2 ∧ (thresh = none → Js.length = ts.length + 2) ∧
      lys.length = Js.length ∧ lysB.length = Js.length ∧ exps.length = Js.length - k ∧ expsB.length = Js.length - k ∧
      (∀ l ∈ lys ++ lysB ++ exps ++ expsB, l.length = 2 * D ∧ l.sum = 0) ∧
      (∀ m < Js.length - k, ∀ j < 2 * D, (exps.getD m []).getD j 0 * ((k + m + 1) * (t1 - t0)) = total (lys.take (k + m + 1)) j ∧
        (expsB.getD m []).getD j 0 * ((k + m + 1) * (t1 - t0)) = total (lysB.take (k + m + 1)) j) ∧
      ∃ U T UB TB : Matrix (Fin (2 * D)) (Fin (2 * D)) ℂ, Uᴴ * U = 1 ∧ T.BlockTriangular id ∧ flow (2 * D) (t1 - t0) Js * toM (2 * D) (2 * D) Q = U * T ∧
        UBᴴ * UB = 1 ∧ TB.BlockTriangular id ∧ (flow (2 * D) (t1 - t0) Js)ᵀ * (UB * TB) = toM (2 * D) (2 * D) Q ∧
        ∀ j, T j j ≠ 0 ∧ TB j j ≠ 0 ∧ total lys j = Real.log ‖T j j‖ ∧ total lysB j = (Real.log ‖T j j‖ + Real.log ‖TB j j‖) / 2 := by
  unfold Tdvp.lyapunov at h
  rw [show Tdvp.lyDt (t0 :: t1 :: ts) = .ok (t1 - t0) by simp [Tdvp.lyDt, pyGet], ok_bind] at h
  obtain ⟨⟨a, n⟩, h1, h2⟩ := bind_eq_ok h
  simp only [Except.ok.injEq, Prod.mk.injEq] at h2
  obtain ⟨rfl, rfl, rfl, rfl⟩ := h2
  obtain ⟨Js, v1, v2, v3, v4, hinv, v5⟩ := lyLoop_inv hI hqr hD (dt := t1 - t0) (Q := Q) _ [] x none _ a n hx (LyInv.init hQ) h1
  simp only [List.nil_append, List.length_nil, zero_add] at hinv v4
  have hpos := v3 (by simp)
  have hn : n + 2 = Js.length + 1 := by omega
  have hdt : t1 - t0 ≠ 0 := sub_ne_zero.2 (Ne.symm ht)
  have cutlen : ∀ {lys exps : List (List ℝ)}, LySeq D Js.length lys exps →
      (((exps.drop (k + 1)).take (n + 2 - (k + 1))).map fun e => e.map fun t => t / (t1 - t0)).length = Js.length - k := by
    intro lys exps hs
    simp [hs.elen]
    omega
  have cutval : ∀ {lys exps : List (List ℝ)}, LySeq D Js.length lys exps → ∀ m (hm : m < Js.length - k),
      (((exps.drop (k + 1)).take (n + 2 - (k + 1))).map fun e => e.map fun t => t / (t1 - t0)).getD m [] =
        (List.range (2 * D)).map fun j => total (lys.take (k + m + 1)) j / ((k : ℝ) + m + 1) / (t1 - t0) := by
    intro lys exps hs m hm
    have h0 : k + 1 + m < exps.length := by rw [hs.elen]; omega
    rw [List.getD_eq_getElem _ _ (by rw [cutlen hs]; exact hm)]
    simp only [List.getElem_map, List.getElem_take, List.getElem_drop]
    have := hs.mean (k + m) (by omega)
    rw [List.getD_eq_getElem _ _ (by omega)] at this
    simp only [show k + 1 + m = k + m + 1 by omega, this, List.map_map]
    refine List.map_congr_left fun j _ => ?_
    simp [total]
  have cutsum : ∀ {lys exps : List (List ℝ)}, LySeq D Js.length lys exps →
      ∀ l ∈ (((exps.drop (k + 1)).take (n + 2 - (k + 1))).map fun e => e.map fun t => t / (t1 - t0)), l.length = 2 * D ∧ l.sum = 0 := by
    intro lys exps hs l hl
    obtain ⟨m, hm, rfl⟩ := List.getElem_of_mem hl
    rw [cutlen hs] at hm
    have e := cutval hs m hm
    rw [List.getD_eq_getElem _ _ (by rw [cutlen hs]; exact hm)] at e
    rw [e]
    refine ⟨by simp, ?_⟩
    rw [list_sum_fin (n := 2 * D) (by simp)]
    have e1 : ∀ j : Fin (2 * D), ((List.range (2 * D)).map fun j => total (lys.take (k + m + 1)) j / ((k : ℝ) + m + 1) / (t1 - t0)).getD j 0 =
        total (lys.take (k + m + 1)) j / ((k : ℝ) + m + 1) / (t1 - t0) := by
      intro j
      rw [List.getD_eq_getElem _ _ (by simp)]
      simp
    rw [Finset.sum_congr rfl fun j _ => e1 j, ← Finset.sum_div, ← Finset.sum_div]
    have e2 : ∀ ls : List (List ℝ), (∀ l ∈ ls, l.length = 2 * D ∧ l.sum = 0) → ∑ j : Fin (2 * D), total ls j = 0 := by
      intro ls
      induction ls with
      | nil => intro _; simp [total]
      | cons l ls ih =>
        intro h
        have h1 := h l (by simp)
        have h2 := ih fun l' hl' => h l' (by simp [hl'])
        unfold total at h2 ⊢
        simp only [List.map_cons, List.sum_cons, Finset.sum_add_distrib]
        rw [h2, ← list_sum_fin h1.1, h1.2, add_zero]
    rw [e2 _ fun l hl => hs.each l (List.mem_of_mem_take hl)]
    simp
  refine ⟨Js, v1, hpos, by simpa using v2, fun h => by simpa using v5 h, hinv.seq.len, hinv.seqB.len, cutlen hinv.seq, cutlen hinv.seqB, ?_, ?_, ?_⟩
  · intro l hl
    simp only [List.mem_append] at hl
    rcases hl with ((hl | hl) | hl) | hl
    · exact hinv.seq.each l hl
    · exact hinv.seqB.each l hl
    · exact cutsum hinv.seq l hl
    · exact cutsum hinv.seqB l hl
  · intro m hm j hj
    rw [cutval hinv.seq m hm, cutval hinv.seqB m hm]
    have hk : (k : ℝ) + m + 1 ≠ 0 := by positivity
    constructor <;> (rw [List.getD_eq_getElem _ _ (by simpa using hj)]; simp; field_simp)
  · obtain ⟨T, tT, pT, dT⟩ := hinv.growth
    obtain ⟨TB, tB, pB, dB⟩ := hinv.growthB
    exact ⟨_, T, _, TB, (isUnitary_iff.1 hinv.hQ).2, tT, pT, (isUnitary_iff.1 hinv.hQB).2, tB, pB,
      fun j => ⟨(dT j).1, (dB j).1, (dT j).2, by rw [(dB j).2, (dT j).2]⟩⟩

/-- The run succeeds if the evolution does and the criterion of convergence can be evaluated. -/
theorem Tdvp.lyapunov_total {qr : ND ℂ → Py (ND ℂ × ND ℂ)} (hqr : QRLaw qr) {conv : List (List ℝ) → Py ℝ} (hconv : ∀ l, ∃ c, conv l = .ok c) (thresh : Option ℝ)
    (hev : ∀ x old, I x old → ∃ y, evolve x = .ok y) (hD : 0 < D) {Q : ND ℂ} (hQ : IsUnitary Q (2 * D)) {x : FMPS ℂ} (hx : I x none) (t0 t1 : ℝ) (ts : List ℝ) (k : ℕ) :
    ∃ out, Tdvp.lyapunov qr conv thresh jac evolve x Q (t0 :: t1 :: ts) k = .ok out := by
  have key : ∀ (k : ℕ) (Js : List (ND ℂ)) (x : FMPS ℂ) (old : Option (List (ND ℂ))) (a : Tdvp.LyAcc), I x old → LyInv D (t1 - t0) Q Js a →
      ∃ out, Tdvp.lyLoop qr conv thresh jac evolve (t1 - t0) k Js.length x old a = .ok out := by
    intro k
    induction k with
    | zero => exact fun Js x old a _ _ => ⟨_, rfl⟩
    | succ k ih =>
      intro Js x old a hx ha
      obtain ⟨J, vs, e1, hJ, hnext⟩ := hI x old hx
      obtain ⟨Q', QB', ly, ex, lyB, exB, e2, hinv⟩ := ha.step hqr conv hD hJ
      obtain ⟨c, ec⟩ := hconv (a.exps ++ [ex])
      obtain ⟨y, ey⟩ := hev x old hx
      rw [Tdvp.lyLoop, e1, ok_bind]
      simp only
      rw [e2, ec, ok_bind, ok_bind]
      split
      · exact ⟨_, rfl⟩
      · rw [ey, ok_bind, show Js.length + 1 = (Js ++ [J]).length by simp]
        exact ih (Js ++ [J]) y (some vs) _ (hnext y ey) (hinv _)
  obtain ⟨⟨a, n⟩, e⟩ := key (ts.length + 2) [] x none _ hx (LyInv.init hQ)
  unfold Tdvp.lyapunov
  rw [show Tdvp.lyDt (t0 :: t1 :: ts) = .ok (t1 - t0) by simp [Tdvp.lyDt, pyGet], ok_bind]
  simp only [List.length_cons, List.length_nil] at e ⊢
  rw [e]
  exact ⟨_, rfl⟩

/-- With a numpy that refuses lists of arrays of different lengths (1.24 and later; `conv_window` at least 1), the first round already raises: `exps` is
then `[array([0]), array of 2D numbers]`. -/
theorem Tdvp.lyapunov_ragged {qr : ND ℂ → Py (ND ℂ × ND ℂ)} (hqr : QRLaw qr) {conv : List (List ℝ) → Py ℝ}
    (hconv : ∀ l, (∃ a ∈ l, ∃ b ∈ l, a.length ≠ b.length) → conv l = .error .valueError) (thresh : Option ℝ)
    (hD : 0 < D) {Q : ND ℂ} (hQ : IsUnitary Q (2 * D)) {x : FMPS ℂ} (hx : I x none) (t0 t1 : ℝ) (ts : List ℝ) (k : ℕ) :
    Tdvp.lyapunov qr conv thresh jac evolve x Q (t0 :: t1 :: ts) k = .error .valueError := by
  obtain ⟨J, vs, e1, hJ, hnext⟩ := hI x none hx
  obtain ⟨Q', QB', ly, ex, lyB, exB, e2, hinv⟩ := (LyInv.init (dt := t1 - t0) hQ).step hqr conv hD hJ
  have hl : ex.length = 2 * D := by
    have := (hinv []).seq.mean 0 (by simp)
    simp only [List.cons_append, List.nil_append, zero_add, List.getD_cons_succ, List.getD_cons_zero] at this
    rw [this]
    simp
  have ec : conv ([[0]] ++ [ex]) = .error .valueError := hconv _ ⟨[0], by simp, ex, by simp, by simp; omega⟩
  unfold Tdvp.lyapunov
  rw [show Tdvp.lyDt (t0 :: t1 :: ts) = .ok (t1 - t0) by simp [Tdvp.lyDt, pyGet], ok_bind]
  simp only [List.length_cons, List.length_nil] at e2 ⊢
  rw [Tdvp.lyLoop, e1, ok_bind]
  simp only
  rw [e2, ec]
  rfl

end

end Xmps
