import Verif.Model.TrajObs
import Verif.Lemmas.Entropy
import Verif.Props.Trajectory
import Verif.Props.ExpectCanon
import Verif.Props.Envs
import Verif.Props.FmpsOverlap
import Verif.Props.FromState
import Verif.Props.ExactDiag

/-!
# What is read off a trajectory (C99, C100, C101)

`schmidts`, `von_neumann`, `renyi`, `loschmidt`, `mps_evs`, `mps_energies` of `fTDVP.Trajectory`.
-/

namespace Xmps

open Finset Spec

/-! ### equal states -/

/-- the normalised amplitudes -/
noncomputable def Spec.unitOf (ds : List ℕ) (ψ : List ℕ → ℂ) : List ℕ → ℂ := fun s => ψ s / (Real.sqrt (sumIdx ds fun s => ‖ψ s‖ ^ 2) : ℂ)

/-- the two chains have the same amplitudes -/
def SameState (ds : List ℕ) (As Bs : List (ND ℂ)) : Prop := ∀ s, InB ds s → psi As s = psi Bs s

theorem sameState_of_eqv {x y : FMPS ℂ} {ds : List ℕ} (hy : y.Holds ds) (hx : x.Holds ds) (h : List.Forall₂ (· ≈ ·) y.data x.data) :
    SameState ds y.data x.data := fun s hs => by
  rw [Holds.psi_amp hy hs, Holds.psi_amp hx hs]
  exact amp_congr hy.chain h hs 0 0 one_pos

theorem SameState.symm {ds : List ℕ} {As Bs : List (ND ℂ)} (h : SameState ds As Bs) : SameState ds Bs As := fun s hs => (h s hs).symm

theorem SameState.braket {ds : List ℕ} {As Bs As' Bs' : List (ND ℂ)} (h : SameState ds As Bs) (h' : SameState ds As' Bs') :
    Spec.braket ds As As' = Spec.braket ds Bs Bs' := sumIdx_congr fun s hs => by rw [h s hs, h' s hs]

theorem SameState.opExpect {ds : List ℕ} {As Bs : List (ND ℂ)} (h : SameState ds As Bs) {i k : ℕ} (hik : i + k ≤ ds.length)
    (G : List ℕ → List ℕ → ℂ) : Spec.opExpect ds As i k G = Spec.opExpect ds Bs i k G := by
  unfold Spec.opExpect
  refine sumIdx_congr fun s hs => sumIdx_congr fun t ht => ?_
  rw [h s hs, h _ (hs.replace ht hik)]

/-- the Schmidt weights of the normalised state do not depend on a factor -/
theorem schmidt_unit_scale {ds : List ℕ} {ψ φ : List ℕ → ℂ} {w : ℂ} (hw : w ≠ 0) (h : ∀ s, InB ds s → ψ s = w * φ s) {m : ℕ} {lam : List ℝ}
    (hs : SchmidtAt (ds.take m) (ds.drop m) (unitOf ds φ) lam) : SchmidtAt (ds.take m) (ds.drop m) (unitOf ds ψ) lam := by
  have hn0 : (‖w‖ : ℂ) ≠ 0 := by simpa using hw
  have hnorm : Real.sqrt (sumIdx ds fun s => ‖ψ s‖ ^ 2) = ‖w‖ * Real.sqrt (sumIdx ds fun s => ‖φ s‖ ^ 2) := by
    rw [sumIdx_congr (g := fun s => ‖w‖ ^ 2 * ‖φ s‖ ^ 2) fun s hs => by rw [h s hs, norm_mul, mul_pow], sumIdx_mul_left,
      Real.sqrt_mul (by positivity), Real.sqrt_sq (norm_nonneg _)]
  refine schmidt_congr (schmidt_scale hs (z := w / (‖w‖ : ℂ)) ?_) ?_
  · rw [star_div₀, show star (‖w‖ : ℂ) = (‖w‖ : ℂ) from Complex.conj_ofReal _, div_mul_div_comm, star_mul_self_norm]
    push_cast
    rw [← sq]
    exact div_self (pow_ne_zero 2 hn0)
  · intro s1 hs1 s2 hs2
    have : InB ds (s1 ++ s2) := by
      have := InB.append hs1 hs2
      rwa [List.take_append_drop] at this
    simp only [unitOf, h _ this, hnorm]
    push_cast
    rw [div_mul_div_comm]

theorem posDims_eqv {As Bs : List (ND ℂ)} (h : List.Forall₂ (· ≈ ·) As Bs) (hp : PosDims Bs) : PosDims As := by
  induction h with
  | nil => exact hp
  | cons h _ ih =>
    rw [PosDims.cons] at hp ⊢
    exact ⟨by rw [h.1]; exact hp.1, ih hp.2⟩

/-! ### the weights of one state -/

theorem FMPS.leftCanonicalise_weights {svd : Svd} {eig : Eig} (hsvd : SVDLaw svd) (heig : EigOrthoLaw eig) {x : FMPS ℂ}
    {ds : List ℕ} (hx : x.Holds ds) (hu : ∀ t ∈ ds, t = x.d) (hp : PosDims x.data) (hnz : ∃ s, InB ds s ∧ psi x.data s ≠ 0) :
    ∃ y Ls, x.leftCanonicalise svd eig = .ok (y, some Ls) ∧ Ls.length = ds.length + 1 ∧ y.Holds ds ∧ SameRay ds x.data y.data ∧ braket ds y.data y.data = 1 ∧
      ∀ m ≤ ds.length, ∃ L lam, pyGet Ls m = .ok L ∧ DiagReal L lam ∧ SchmidtAt (ds.take m) (ds.drop m) (unitOf ds (psi x.data)) lam := by
  obtain ⟨y, Ls, R, z, h1, h2, -, -, h3, -, -, -, -, -, h4, hl, h5, -⟩ :=
    FMPS.leftCanonicalise_spec hsvd heig hx hu hp none (by simp) (fun _ => hnz)
  set w := z * R.val [0, 0] with hw
  have h4 : ∀ s, InB ds s → psi x.data s = w * psi y.data s := h4 rfl
  have hw0 : w ≠ 0 := by
    rintro h0
    obtain ⟨s, hs, hne⟩ := hnz
    exact hne (by rw [h4 s hs, h0, zero_mul])
  have hy1 : (sumIdx ds fun s => ‖psi y.data s‖ ^ 2) = 1 := by
    rw [braket_self] at h3
    exact_mod_cast h3
  refine ⟨y, Ls, h1, hl, h2, ⟨w, hw0, h4⟩, h3, fun m hm => ?_⟩
  obtain ⟨L, lam, hL, hdiag, hsch, -⟩ := h5 m hm
  refine ⟨L, lam, hL, hdiag, schmidt_unit_scale hw0 h4 (schmidt_congr hsch fun s1 _ s2 _ => ?_)⟩
  simp [unitOf, hy1]

/-- the normalised amplitudes are normalised -/
theorem unitOf_norm {ds : List ℕ} {ψ : List ℕ → ℂ} (hnz : ∃ s, InB ds s ∧ ψ s ≠ 0) :
    sumIdx ds (fun s => star (unitOf ds ψ s) * unitOf ds ψ s) = 1 := by
  have hre : 0 < sumIdx ds fun s => ‖ψ s‖ ^ 2 := by
    obtain ⟨s, hs, hne⟩ := hnz
    exact sumIdx_pos (fun _ => by positivity) hs (by positivity)
  have hbr : sumIdx ds (fun s => star (ψ s) * ψ s) = ((sumIdx ds fun s => ‖ψ s‖ ^ 2 : ℝ) : ℂ) := by
    rw [sumIdx_ofReal]
    exact sumIdx_congr fun s _ => star_mul_norm _
  set N := sumIdx ds fun s => ‖ψ s‖ ^ 2 with hN
  set r := Real.sqrt N with hr
  have hr0 : (r : ℂ) ≠ 0 := by exact_mod_cast (Real.sqrt_pos.2 hre).ne'
  have hrr : (r : ℂ) * (r : ℂ) = (N : ℂ) := by
    rw [← Complex.ofReal_mul, Real.mul_self_sqrt hre.le]
  rw [sumIdx_congr (g := fun s => ((r : ℂ) * (r : ℂ))⁻¹ * (star (ψ s) * ψ s)) fun s _ => by
    simp only [unitOf, ← hN, ← hr]
    rw [star_div₀, show star (r : ℂ) = (r : ℂ) from Complex.conj_ofReal _]
    field_simp, sumIdx_mul_left, hrr, hbr]
  exact inv_mul_cancel₀ (by exact_mod_cast hre.ne')

theorem weights_sum {ds : List ℕ} {ψ : List ℕ → ℂ} (hnz : ∃ s, InB ds s ∧ ψ s ≠ 0) {m : ℕ} {lam : List ℝ}
    (h : SchmidtAt (ds.take m) (ds.drop m) (unitOf ds ψ) lam) : lam.sum = 1 := by
  have := h.sum_norm
  rw [List.take_append_drop, unitOf_norm hnz] at this
  exact_mod_cast this.symm

/-- across the left end of the chain there is one weight -/
theorem weights_left_end {ds : List ℕ} {ψ : List ℕ → ℂ} (hnz : ∃ s, InB ds s ∧ ψ s ≠ 0) {lam : List ℝ}
    (h : SchmidtAt (ds.take 0) (ds.drop 0) (unitOf ds ψ) lam) : lam.length = 1 := by
  have h1 := weights_sum hnz h
  have h2 : lam.length ≤ 1 := h.rank_le (f := fun _ _ => 1) (g := fun _ s => unitOf ds ψ s) (by
    intro s1 hs1 s2 _
    have : s1 = [] := by
      have := hs1.length_eq
      simpa using this
    subst this
    simp)
  rcases Nat.lt_or_ge 0 lam.length with h3 | h3
  · omega
  · have : lam = [] := List.length_eq_zero_iff.1 (by omega)
    subst this
    simp at h1

end Xmps

namespace Xmps.Tdvp

open Finset Spec Xmps.Ncon

/-! ### `schmidts` -/

/-- `row` lists the Schmidt weights of the normalised state, one list for every cut from the left end to the right end. -/
structure WeightRow (ds : List ℕ) (ψ : List ℕ → ℂ) (row : List (List ℂ)) : Prop where
  len : row.length = ds.length + 1
  cut : ∀ m ≤ ds.length, ∃ lam : List ℝ, row[m]? = some (lam.map Complex.ofReal) ∧ SchmidtAt (ds.take m) (ds.drop m) (unitOf ds ψ) lam

theorem diagVec_real {L : ND ℂ} {lam : List ℝ} (h : DiagReal L lam) : diagVec L = lam.map Complex.ofReal := by
  have hd : min (L.dim 0) (L.dim 1) = lam.length := by simp [ND.dim, h.1]
  unfold diagVec
  rw [hd]
  refine List.ext_getElem (by simp) fun i hi _ => ?_
  have hi : i < lam.length := by simpa using hi
  rw [List.getElem_map, List.getElem_range, h.2 i hi i hi, if_pos rfl, List.getElem_map, List.getD_eq_getElem _ _ hi]

theorem schmidtRow_ok {svd : Svd} {eig : Eig} (hsvd : SVDLaw svd) (heig : EigOrthoLaw eig) {x : FMPS ℂ} {ds : List ℕ} (hx : x.Holds ds)
    (hu : ∀ t ∈ ds, t = x.d) (hp : PosDims x.data) (hnz : ∃ s, InB ds s ∧ psi x.data s ≠ 0) :
    ∃ row, schmidtRow svd eig x = .ok row ∧ WeightRow ds (psi x.data) row := by
  obtain ⟨y, Ls, e, hl, -, -, -, hw⟩ := FMPS.leftCanonicalise_weights hsvd heig hx hu hp hnz
  refine ⟨Ls.map diagVec, by rw [schmidtRow, e, ok_bind], by simp [hl], fun m hm => ?_⟩
  obtain ⟨L, lam, h1, h2, h3⟩ := hw m hm
  refine ⟨lam, ?_, h3⟩
  have hm' : m < Ls.length := by omega
  rw [pyGet_ok hm'] at h1
  have : Ls[m] = L := Except.ok.inj h1
  rw [List.getElem?_map, List.getElem?_eq_getElem hm', this, Option.map_some, diagVec_real h2]

theorem WeightRow.scale {ds : List ℕ} {ψ φ : List ℕ → ℂ} {row : List (List ℂ)} (h : WeightRow ds φ row) {w : ℂ} (hw : w ≠ 0)
    (hs : ∀ s, InB ds s → ψ s = w * φ s) : WeightRow ds ψ row := by
  refine ⟨h.len, fun m hm => ?_⟩
  obtain ⟨lam, h1, h2⟩ := h.cut m hm
  exact ⟨lam, h1, schmidt_unit_scale hw hs h2⟩

theorem WeightRow.congr {ds : List ℕ} {As Bs : List (ND ℂ)} {row : List (List ℂ)} (h : WeightRow ds (psi As) row) (hs : SameState ds As Bs) :
    WeightRow ds (psi Bs) row := h.scale one_ne_zero fun s hin => by rw [one_mul, hs s hin]

/-- a state that can be canonicalised: no empty axes, not zero -/
structure Live (L d : ℕ) (x : FMPS ℂ) : Prop where
  pos : PosDims x.data
  nonzero : ∃ s, InB (List.replicate L d) s ∧ psi x.data s ≠ 0

/-- what is computed from the entries of the history, entry by entry -/
theorem hist_map {L d : ℕ} (hL : 2 ≤ L) {tr : Traj} {log : List (FMPS ℂ)} (h : Aligned L d tr log) {β : Type} {f : FMPS ℂ → Py β} {R : β → FMPS ℂ → Prop}
    (hf : ∀ x ∈ log, ∀ y, Ok L d y → List.Forall₂ (· ≈ ·) y.data x.data → ∃ b, f y = .ok b ∧ R b x) :
    ∃ bs, (tr.Ds.zip tr.history).mapM (fun (p : ℕ × List ℝ) => do
        let mps ← histChain tr p
        f mps) = .ok bs ∧ List.Forall₂ R bs log := by
  obtain ⟨Es, e, hD, hs, -⟩ := h.ds
  have hr := h.recd
  have hok := h.ok
  have hz : tr.Ds.zip tr.history = Es.zip tr.history := by
    have hlen : Es.length = tr.history.length := hs.length_eq.trans hr.length_eq
    rw [hD]
    conv_lhs => rw [← List.append_nil tr.history]
    rw [List.zip_append hlen]
    simp
  rw [hz]
  unfold histChain
  rw [h.mps.L, h.mps.d]
  clear hz hD
  generalize tr.history = hist at hr ⊢
  clear h
  induction hs generalizing hist with
  | nil => exact ⟨[], by simp, .nil⟩
  | @cons E x Es log h1 h2 ih =>
    cases hr with
    | @cons _ v _ hist' g1 g2 =>
      obtain ⟨y, r1, r2, r3⟩ := Rec.read hL g1 (hok x (by simp)) h1
      obtain ⟨b, b1, b2⟩ := hf x (by simp) y r3 r2
      obtain ⟨bs, q1, q2⟩ := ih (fun x hx => hf x (by simp [hx])) (fun z hz => hok z (by simp [hz])) hist' g2
      refine ⟨b :: bs, ?_, .cons b2 q2⟩
      rw [List.zip_cons_cons, List.mapM_cons, r1, ok_bind, b1, ok_bind, q1]
      rfl

theorem Aligned.nonempty {L d : ℕ} {tr : Traj} {log : List (FMPS ℂ)} (h : Aligned L d tr log) (hne : log ≠ []) : (!tr.history.isEmpty) = true := by
  have := h.recd
  match hh : tr.history with
  | [] =>
    rw [hh] at this
    cases this
    exact absurd rfl hne
  | _ :: _ => rfl

theorem Ok.uniform {L d : ℕ} {y : FMPS ℂ} (h : Ok L d y) : ∀ t ∈ List.replicate L d, t = y.d := by
  intro t ht
  rw [h.d]
  exact List.eq_of_mem_replicate ht

theorem Live.read {L d : ℕ} {x y : FMPS ℂ} (hx : Live L d x) (ox : Ok L d x) (oy : Ok L d y) (h : List.Forall₂ (· ≈ ·) y.data x.data) :
    Live L d y ∧ SameState (List.replicate L d) y.data x.data := by
  have hs := sameState_of_eqv oy.holds ox.holds h
  refine ⟨⟨posDims_eqv h hx.pos, ?_⟩, hs⟩
  obtain ⟨s, h1, h2⟩ := hx.nonzero
  exact ⟨s, h1, by rw [hs s h1]; exact h2⟩

/-- **C99** `schmidts()` of a trajectory: for every recorded state the Schmidt weights of the normalised state across every cut, in order. -/
theorem schmidts_hist {svd : Svd} {eig : Eig} (hsvd : SVDLaw svd) (heig : EigOrthoLaw eig) {L d : ℕ} (hL : 2 ≤ L) {tr : Traj} {log : List (FMPS ℂ)}
    (h : Aligned L d tr log) (hne : log ≠ []) (hlive : ∀ x ∈ log, Live L d x) :
    ∃ rows, schmidts svd eig tr none = .ok rows ∧ List.Forall₂ (fun row x => WeightRow (List.replicate L d) (psi x.data) row) rows log := by
  obtain ⟨rows, e, hr⟩ := hist_map hL h (f := schmidtRow svd eig) (R := fun row x => WeightRow (List.replicate L d) (psi x.data) row) (by
    intro x hx y oy hxy
    obtain ⟨hy, hs⟩ := (hlive x hx).read (h.ok x hx) oy hxy
    obtain ⟨row, e, hw⟩ := schmidtRow_ok hsvd heig oy.holds oy.uniform hy.pos hy.nonzero
    exact ⟨row, e, hw.congr hs⟩)
  refine ⟨rows, ?_, hr⟩
  rw [schmidts, h.nonempty hne, guardPy_true, ok_bind, e]

/-- the amplitudes of an entry of `ed_history` -/
def edAmp (L d : ℕ) (x : ND ℂ) : List ℕ → ℂ := fun s => x.val [ravel (List.replicate L d) s]

/-- **C99** `schmidts()` after `edint`: the Schmidt weights of every entry of `ed_history`. -/
theorem schmidts_ed {svd : Svd} {eig : Eig} (hsvd : SVDLaw svd) (heig : EigOrthoLaw eig) {L d : ℕ} (hd : 0 < d) (hL : 0 < L) {tr : Traj}
    (hm : tr.mps.L = L ∧ tr.mps.d = d) {ed : List (ND ℂ)} (hed : ∀ x ∈ ed, x.shape = [d ^ L] ∧ ∃ k < d ^ L, x.val [k] ≠ 0) :
    ∃ rows, schmidts svd eig tr (some ed) = .ok rows ∧ List.Forall₂ (fun row x => WeightRow (List.replicate L d) (edAmp L d x) row) rows ed := by
  have step : ∀ x ∈ ed, ∃ row, (do
      let mps ← edChain svd tr x
      schmidtRow svd eig mps) = Except.ok row ∧ WeightRow (List.replicate L d) (edAmp L d x) row := by
    intro x hx
    obtain ⟨hs, k, hk, hne⟩ := hed x hx
    have hre : x.reshape (List.replicate L d) = .ok (x.reshapeR (List.replicate L d)) := ND.reshape_ok (by simp [hs])
    obtain ⟨y, Ls, w, e, hy, hp, -, hb, hv, -⟩ := FMPS.leftFromState_spec hsvd hd hL (state := x.reshapeR (List.replicate L d)) rfl
    have hval : ∀ s, InB (List.replicate L d) s → edAmp L d x s = w * psi y.data s := by
      intro s hin
      rw [← hv s hin]
      simp [edAmp, ND.reshapeR, hs, unravel]
    have hin : InB (List.replicate L d) (unravel (List.replicate L d) k) := InB_unravel (by simpa using hk)
    have hk' : edAmp L d x (unravel (List.replicate L d) k) ≠ 0 := by
      rw [edAmp, ravel_unravel (by simpa using hk)]
      exact hne
    have hw0 : w ≠ 0 := by
      rintro rfl
      exact hk' (by rw [hval _ hin, zero_mul])
    have hyd : ∀ t ∈ List.replicate L d, t = y.d := by
      intro t ht
      rw [hy.d]
      exact replicate_headI ht
    obtain ⟨row, er, hrow⟩ := schmidtRow_ok hsvd heig hy hyd hp ⟨_, hin, fun h0 => hk' (by rw [hval _ hin, h0, mul_zero])⟩
    refine ⟨row, ?_, hrow.scale hw0 hval⟩
    rw [edChain, hm.1, hm.2, hre, ok_bind, e, ok_bind]
    exact er
  unfold schmidts
  clear hm
  induction ed with
  | nil => exact ⟨[], by simp, .nil⟩
  | cons x ed ih =>
    obtain ⟨row, e1, h1⟩ := step x (by simp)
    obtain ⟨rows, e2, h2⟩ := ih (fun y hy => hed y (by simp [hy])) (fun y hy => step y (by simp [hy]))
    refine ⟨row :: rows, ?_, .cons h1 h2⟩
    simp only at e2 ⊢
    rw [List.mapM_cons, e1, ok_bind, e2]
    rfl

end Xmps.Tdvp
