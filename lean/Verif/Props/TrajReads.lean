import Verif.Props.TrajEntropy

/-!
# `loschmidt`, `mps_evs`, `mps_energies` (C101)
-/

namespace Xmps

open Finset Spec

/-- Cauchy–Schwarz for two states -/
theorem braket_le (ds : List ℕ) (As Bs : List (ND ℂ)) :
    ‖braket ds As Bs‖ ^ 2 ≤ (sumIdx ds fun s => ‖psi As s‖ ^ 2) * sumIdx ds fun s => ‖psi Bs s‖ ^ 2 := by
  unfold braket
  rw [sumIdx_eq_range, sumIdx_eq_range, sumIdx_eq_range]
  refine (pow_le_pow_left₀ (norm_nonneg _) (norm_sum_le _ _) 2).trans ?_
  simp only [norm_mul, norm_star]
  exact sum_mul_sq_le_sq_mul_sq _ _ _

namespace Tdvp

open Xmps.Ncon

theorem recs_map {L d : ℕ} (hL : 2 ≤ L) {D : ℕ} {log : List (FMPS ℂ)} {hist : List (List ℝ)} (hr : List.Forall₂ Rec log hist) (hok : ∀ x ∈ log, Ok L d x ∧ x.Standard D)
    {β : Type} {f : FMPS ℂ → Py β} {R : β → FMPS ℂ → Prop} (hf : ∀ x ∈ log, ∀ y, Ok L d y → List.Forall₂ (· ≈ ·) y.data x.data → ∃ b, f y = .ok b ∧ R b x) :
    ∃ bs, hist.mapM (fun v => do
        let mps ← FMPS.deserializeReal v (some L) (some d) (some D) none
        f mps) = .ok bs ∧ List.Forall₂ R bs log := by
  induction hr with
  | nil => exact ⟨[], rfl, .nil⟩
  | @cons x v log hist h1 h2 ih =>
    obtain ⟨y, r1, r2, r3⟩ := Rec.read hL h1 (hok x (by simp)).1 (hok x (by simp)).2
    obtain ⟨b, b1, b2⟩ := hf x (by simp) y r3 r2
    obtain ⟨bs, q1, q2⟩ := ih (fun z hz => hok z (by simp [hz])) (fun z hz => hf z (by simp [hz]))
    refine ⟨b :: bs, ?_, .cons b2 q2⟩
    rw [List.mapM_cons, r1, ok_bind, b1, ok_bind, q1]
    rfl

/-- **C101** `loschmidt()` without `edint`, all states with the bond dimension the trajectory has now: the moduli of the overlaps with the first
recorded state. -/
theorem loschmidt_hist (svd : Svd) (eig : Eig) (O : SetOrder) {L d : ℕ} (hL : 2 ≤ L) {tr : Traj} {x0 : FMPS ℂ} {log : List (FMPS ℂ)}
    (h : Aligned L d tr (x0 :: log)) (hs : ∀ x ∈ x0 :: log, x.Standard tr.mps.D) :
    ∃ vs, loschmidt svd eig O tr none = .ok (.inr vs) ∧ List.Forall₂ (fun v (x : FMPS ℂ) => v = ‖braket (List.replicate L d) x0.data x.data‖) vs (x0 :: log) := by
  have hrec := h.recd
  obtain ⟨v0, hist, g1, g2, e⟩ : ∃ v0 hist, Rec x0 v0 ∧ List.Forall₂ Rec log hist ∧ tr.history = v0 :: hist := by
    match hh : tr.history, hrec with
    | v0 :: hist, .cons g1 g2 => exact ⟨v0, hist, g1, g2, rfl⟩
  obtain ⟨y0, r1, r2, r3⟩ := Rec.read hL g1 (h.ok x0 (by simp)) (hs x0 (by simp))
  have s0 := sameState_of_eqv r3.holds (h.ok x0 (by simp)).holds r2
  obtain ⟨vs, q1, q2⟩ := recs_map (D := tr.mps.D) hL hrec (fun x hx => ⟨h.ok x hx, hs x hx⟩) (f := fun psi => do
      let o ← y0.overlap O psi
      .ok ‖o.val []‖) (R := fun v (x : FMPS ℂ) => v = ‖braket (List.replicate L d) x0.data x.data‖) (by
    intro x hx y oy hxy
    obtain ⟨R, o1, -, o3⟩ := FMPS.overlap_inner O r3.holds oy.holds
    refine ⟨_, by rw [o1, ok_bind], ?_⟩
    rw [o3, (sameState_of_eqv oy.holds (h.ok x hx).holds hxy).braket s0, ← star_braket, norm_star])
  refine ⟨vs, ?_, q2⟩
  rw [loschmidt, loschmidtHist, h.nonempty (by simp), guardPy_true, ok_bind, e, pyGet_ok (by simp), ok_bind]
  simp only [histChain, h.mps.L, h.mps.d, List.getElem_cons_zero, r1, ok_bind]
  rw [← e, q1, ok_bind]

/-- **C101** for normalised states the first value is 1 and none exceeds 1. -/
theorem loschmidt_bounds (svd : Svd) (eig : Eig) (O : SetOrder) {L d : ℕ} (hL : 2 ≤ L) {tr : Traj} {x0 : FMPS ℂ} {log : List (FMPS ℂ)}
    (h : Aligned L d tr (x0 :: log)) (hs : ∀ x ∈ x0 :: log, x.Standard tr.mps.D) (hn : ∀ x ∈ x0 :: log, braket (List.replicate L d) x.data x.data = 1) :
    ∃ vs, loschmidt svd eig O tr none = .ok (.inr (1 :: vs)) ∧ ∀ v ∈ vs, 0 ≤ v ∧ v ≤ 1 := by
  obtain ⟨vs, e, hv⟩ := loschmidt_hist svd eig O hL h hs
  match vs, hv with
  | v :: vs, .cons h1 h2 =>
    have hv1 : v = 1 := by rw [h1, hn x0 (by simp), norm_one]
    refine ⟨vs, by rw [e, hv1], ?_⟩
    have one : ∀ x ∈ x0 :: log, (sumIdx (List.replicate L d) fun s => ‖psi x.data s‖ ^ 2) = 1 := by
      intro x hx
      have := hn x hx
      rw [braket_self] at this
      exact_mod_cast this
    have h0 := one x0 (by simp)
    have hall : ∀ x ∈ log, (sumIdx (List.replicate L d) fun s => ‖psi x.data s‖ ^ 2) = 1 := fun x hx => one x (by simp [hx])
    clear e h hs hn one h1 hv
    induction h2 with
    | nil => simp
    | @cons w x ws xs g1 g2 ih =>
      intro u hu
      rcases List.mem_cons.1 hu with rfl | hu
      · rw [g1]
        refine ⟨norm_nonneg _, ?_⟩
        have := braket_le (List.replicate L d) x0.data x.data
        rw [h0, hall x (by simp), mul_one] at this
        exact (sq_le_one_iff₀ (norm_nonneg _)).1 this
      · exact ih (fun x hx => hall x (by simp [hx])) u hu

/-- **C101** (violated): after `edint` `loschmidt()` returns the Schmidt weights, not overlaps. -/
theorem loschmidt_ed (svd : Svd) (eig : Eig) (O : SetOrder) (tr : Traj) (ed : List (ND ℂ)) {rows : List (List (List ℂ))}
    (h : schmidts svd eig tr (some ed) = .ok rows) : loschmidt svd eig O tr (some ed) = .ok (.inl rows) := by
  rw [loschmidt, h, ok_bind]

/-- **C101** `mps_evs(ops, site)`: for every recorded state and every operator the real part of the expectation value at the site in the normalised
state. -/
theorem mpsEvs_hist {svd : Svd} (eig : Eig) (hsvd : SVDLaw svd) {L d : ℕ} (hL : 2 ≤ L) {tr : Traj} {log : List (FMPS ℂ)}
    (h : Aligned L d tr log) (hne : log ≠ []) (hlive : ∀ x ∈ log, Live L d x) {ops : List (ND ℂ)} (ho : ∀ op ∈ ops, op.shape = [d, d]) {site : ℕ} (hs : site < L) :
    mpsEvs svd eig tr ops site = .ok (log.map fun x => ops.map fun op =>
      (opExpect (List.replicate L d) x.data site 1 (matElem [d] op) / braket (List.replicate L d) x.data x.data).re) := by
  obtain ⟨vs, e, hv⟩ := hist_map hL h (f := fun y => do
      let r ← y.Es svd eig ops site
      .ok r.1) (R := fun b (x : FMPS ℂ) => b = ops.map fun op =>
      (opExpect (List.replicate L d) x.data site 1 (matElem [d] op) / braket (List.replicate L d) x.data x.data).re) (by
    intro x hx y oy hxy
    obtain ⟨hy, hss⟩ := (hlive x hx).read (h.ok x hx) oy hxy
    obtain ⟨z, e, -, -⟩ := FMPS.Es_spec (eig := eig) hsvd oy.holds oy.uniform hy.pos hy.nonzero (site := site) (by simpa using hs) (ops := ops) (by rw [oy.d]; exact ho)
    refine ⟨_, by rw [e, ok_bind], ?_⟩
    rw [oy.d]
    simp only [hss.braket hss]
    refine List.map_congr_left fun op _ => ?_
    rw [hss.opExpect (by simpa using hs)])
  rw [mpsEvs, h.nonempty hne, guardPy_true, ok_bind, e]
  congr 1
  clear e h hne hlive
  induction hv with
  | nil => rfl
  | cons h1 h2 ih => rw [h1, ih, List.map_cons]

/-- what `mps_energies` reports for a state: with a list of terms the energy per site, with the whole Hamiltonian the total energy -/
noncomputable def Spec.energyReport (L d : ℕ) (As : List (ND ℂ)) : EdH → ℝ
  | .terms hs => energyPerSite (List.replicate L d) As d hs
  | .full H => (opExpect (List.replicate L d) As 0 L (matElem (List.replicate L d) H) / braket (List.replicate L d) As As).re

/-- the Hamiltonian fits: terms on neighbouring sites of the open chain, or a matrix on the whole chain -/
def Spec.FitsH (L d : ℕ) : EdH → Prop
  | .terms hs => hs.length < L ∧ ∀ h ∈ hs, h.shape = [d * d, d * d]
  | .full H => H.shape = [d ^ L, d ^ L]

theorem energyReport_congr {L d : ℕ} {As Bs : List (ND ℂ)} (h : SameState (List.replicate L d) As Bs) {H : EdH} (hH : Spec.FitsH L d H) :
    Spec.energyReport L d As H = Spec.energyReport L d Bs H := by
  cases H with
  | terms hs =>
    simp only [Spec.energyReport, energyPerSite, h.braket h]
    congr 1
    refine Finset.sum_congr rfl fun m hm => ?_
    have := Finset.mem_range.1 hm
    have := hH.1
    rw [h.opExpect (by simp; omega)]
  | full H => simp only [Spec.energyReport, h.braket h, h.opExpect (i := 0) (k := L) (by simp)]

theorem energyOf_leftCanonicalise {svd : Svd} {eig : Eig} (hsvd : SVDLaw svd) (heig : EigOrthoLaw eig) (O : SetOrder) {L d : ℕ} {y : FMPS ℂ} (oy : Ok L d y)
    (hy : Live L d y) {H : EdH} (hH : Spec.FitsH L d H) :
    (do
      let r ← y.leftCanonicalise svd eig
      energyOf O H r.1) = .ok (Spec.energyReport L d y.data H) := by
  cases H with
  | terms hs =>
    obtain ⟨z, Ls, e, -, e2⟩ := FMPS.energy_leftCanonicalise hsvd heig O oy.holds hy.pos hy.nonzero hH.1 hH.2
    rw [e, ok_bind]
    exact e2
  | full H =>
    obtain ⟨z, Ls, e, -, hz, hr, hn, -⟩ := FMPS.leftCanonicalise_weights hsvd heig oy.holds oy.uniform hy.pos hy.nonzero
    rw [e, ok_bind]
    change z.energyFull O H = _
    rw [FMPS.energyFull, FMPS.EL_spec O hz hH, Spec.energyReport, hr.opExpect (by simp) hn]

/-- **C101** `mps_energies()`: for every recorded state the energy in the normalised state, per site if the Hamiltonian is a list of terms, in total
if it is one matrix (`fullH`). -/
theorem mpsEnergies_hist {svd : Svd} {eig : Eig} (hsvd : SVDLaw svd) (heig : EigOrthoLaw eig) (O : SetOrder) {L d : ℕ} (hL : 2 ≤ L) {tr : Traj} {log : List (FMPS ℂ)}
    (h : Aligned L d tr log) (hne : log ≠ []) (hlive : ∀ x ∈ log, Live L d x) {H : EdH} (hH : Spec.FitsH L d H) :
    mpsEnergies svd eig O H tr = .ok (log.map fun x => Spec.energyReport L d x.data H) := by
  obtain ⟨Es, e, d1, d2, -⟩ := h.ds
  obtain ⟨ys, e1, h1⟩ := hist_map hL h (f := fun y => .ok y) (R := fun y (x : FMPS ℂ) => Ok L d y ∧ List.Forall₂ (· ≈ ·) y.data x.data)
    fun x hx y oy hxy => ⟨y, rfl, oy, hxy⟩
  have e2 : mpsList tr = .ok ys := by
    rw [mpsList, h.nonempty hne, guardPy_true, ok_bind, ← e1]
    congr 1
    funext p
    cases hc : histChain tr p with
    | ok a => exact hc
    | error a => exact hc
  have hok := h.ok
  rw [mpsEnergies, h.nonempty hne, guardPy_true, ok_bind, e2, ok_bind]
  clear e1 e2 h hne d1 d2
  induction h1 with
  | nil => rfl
  | @cons y x ys log g1 g2 ih =>
    obtain ⟨hy, hss⟩ := (hlive x (by simp)).read (hok x (by simp)) g1.1 g1.2
    rw [List.mapM_cons, energyOf_leftCanonicalise hsvd heig O g1.1 hy hH, ok_bind, energyReport_congr hss hH,
      ih (fun z hz => hlive z (by simp [hz])) (fun z hz => hok z (by simp [hz])), List.map_cons]
    rfl

/-- **C101** (violated): `loschmidt()` reads all entries with the present bond dimension.  A run of two sites with bond dimension 1, then an expansion to 2:
`loschmidt()` raises, although `mps_list()` still reads the history. -/
theorem loschmidt_expand_fails (svd : Svd) (eig : Eig) (O : SetOrder) : ∃ tr log,
    runEvs (fun x _ => .ok x) (fun x => .ok x) (fun _ D _ => .ok (flatChain 2 2 D)) [.integrate [0, 1], .resize true 2] (Traj.new (flatChain 2 2 1), []) = .ok (tr, log) ∧
    (∃ ys, mpsList tr = .ok ys) ∧ loschmidt svd eig O tr none = .error .valueError := by
  obtain ⟨v1, hv1⟩ := serializeReal_ok (flatChain_ok (L := 2) (d := 2) (D := 1) (by decide) (le_refl 1))
  obtain ⟨y1, i1, -⟩ := integrate_id (T := [0, 1]) (le_refl 2) (le_refl 1) hv1 (Traj.new (flatChain 2 2 1)) rfl
  refine ⟨⟨flatChain 2 2 1, flatChain 2 2 2, [1, 1, 2], [v1, v1]⟩, List.replicate 2 (flatChain 2 2 1), ?_, ?_, ?_⟩
  · rw [runEvs, i1, ok_bind, runEvs,
      show resizeTo _ 2 _ = .ok ⟨flatChain 2 2 1, flatChain 2 2 2, [1, 1, 2], [v1, v1]⟩ by simp [resizeTo, setLast, Traj.new, List.replicate_succ]; rfl, ok_bind, runEvs]
    rfl
  · have ho := flatChain_ok (L := 2) (d := 2) (D := 1) (by decide) (le_refl 1)
    obtain ⟨y, r1, -⟩ := Rec.read (le_refl 2) hv1 ho ho.std
    change FMPS.deserializeReal v1 (some 2) (some 2) (some 1) none = _ at r1
    exact ⟨[y, y], by simp [mpsList, guardPy, flatChain, r1]⟩
  · have hl : v1.length = 8 := by
      rw [serializeReal_length hv1]
      simp [flatChain, bondAt, List.range_succ]
    have r2 : FMPS.deserializeReal v1 (some 2) (some 2) (some 2) none = .error .valueError := by
      have hc : FMPS.createStructure 2 2 (some 2) = .ok [(1, 2), (2, 1)] := by decide
      unfold FMPS.deserializeReal FMPS.joinReal
      rw [hl, show (8 % 2 == 0) = true from rfl, guardPy_true, ok_bind, ok_bind]
      simp only [FMPS.deserialize, hc, ok_bind, List.map_cons, List.map_nil, FMPS.cutUp]
      simp [hl, guardPy]
    simp [loschmidt, loschmidtHist, guardPy, pyGet, histChain, flatChain, r2]

/-! ### the hypotheses are met -/

/-- the state above, normalised -/
noncomputable def bellUnit : FMPS ℂ :=
  ⟨[⟨[2, 1, 2], fun i => if i.getD 0 0 = i.getD 2 0 then ((Real.sqrt 2)⁻¹ : ℝ) else 0⟩, ⟨[2, 2, 1], fun i => if i.getD 0 0 = i.getD 1 0 then 1 else 0⟩],
    2, 2, 2, false, false, none, none⟩

theorem bellUnit_ok : Ok 2 2 bellUnit := by
  refine ⟨⟨⟨2, rfl, 1, rfl, rfl⟩, by simp, rfl, rfl⟩, ?_⟩
  unfold FMPS.Standard bellUnit
  simp [List.range_succ, bondAt]

theorem bellUnit_norm : braket [2, 2] bellUnit.data bellUnit.data = 1 := by
  have hp : ∀ s < 2, ∀ t < 2, psi bellUnit.data [s, t] = if s = t then (((Real.sqrt 2)⁻¹ : ℝ) : ℂ) else 0 := by
    intro s hs t ht
    rw [psi_eq_amp (ss := [s, t]) bellUnit_ok.holds.chain (by simp [bellUnit]) rfl]
    simp [bellUnit, ND.dim, sum_range_succ]
    interval_cases s <;> interval_cases t <;> simp
  have hs2 : (((Real.sqrt 2)⁻¹ : ℝ) : ℂ) * (((Real.sqrt 2)⁻¹ : ℝ) : ℂ) = 1 / 2 := by
    rw [← Complex.ofReal_mul, ← mul_inv, Real.mul_self_sqrt (by norm_num)]
    push_cast
    ring
  have hst : star (((Real.sqrt 2)⁻¹ : ℝ) : ℂ) = (((Real.sqrt 2)⁻¹ : ℝ) : ℂ) := Complex.conj_ofReal _
  unfold braket
  simp only [sumIdx_cons, sumIdx_nil, sum_range_succ, sum_range_zero, zero_add]
  rw [hp 0 (by decide) 0 (by decide), hp 0 (by decide) 1 (by decide), hp 1 (by decide) 0 (by decide), hp 1 (by decide) 1 (by decide)]
  simp only [if_true, zero_ne_one, one_ne_zero, if_false, mul_zero, hst, hs2]
  norm_num

noncomputable def bellUnitTraj : Traj :=
  ⟨bellUnit, bellUnit, [2, 2, 2], [(serializeReal_ok bellUnit_ok).choose, (serializeReal_ok bellUnit_ok).choose]⟩

theorem bellUnitTraj_aligned : Aligned 2 2 bellUnitTraj [bellUnit, bellUnit] :=
  ⟨bellUnit_ok, .cons (serializeReal_ok bellUnit_ok).choose_spec (.cons (serializeReal_ok bellUnit_ok).choose_spec .nil), by simp [bellUnit_ok], [2, 2], 2, rfl,
    .cons bellUnit_ok.std (.cons bellUnit_ok.std .nil), bellUnit_ok.std⟩

example (svd : Svd) (eig : Eig) (O : SetOrder) := loschmidt_bounds svd eig O (le_refl 2) bellUnitTraj_aligned
  (by simp only [List.mem_cons, List.not_mem_nil, or_false, or_self, forall_eq]; exact bellUnit_ok.std)
  (by simp only [List.mem_cons, List.not_mem_nil, or_false, or_self, forall_eq]; exact bellUnit_norm)
example {svd : Svd} {eig : Eig} (hsvd : SVDLaw svd) (ops : List (ND ℂ)) (ho : ∀ op ∈ ops, op.shape = [2, 2]) :=
  mpsEvs_hist eig hsvd (le_refl 2) bellTraj_aligned (by simp) (by simp [bellChain_live]) ho (site := 1) (by decide)
example {svd : Svd} {eig : Eig} (hsvd : SVDLaw svd) (heig : EigOrthoLaw eig) (O : SetOrder) (h : ND ℂ) (hh : h.shape = [4, 4]) :=
  mpsEnergies_hist hsvd heig O (le_refl 2) bellTraj_aligned (by simp) (by simp [bellChain_live]) (H := .terms [h]) ⟨by simp, by simp [hh]⟩

end Tdvp

end Xmps
