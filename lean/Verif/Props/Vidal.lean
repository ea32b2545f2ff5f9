import Verif.Model.Vidal
import Verif.Props.Canonicalise
import Verif.Props.Expect
import Verif.Lemmas.MatBridge

/-!
# C50: vidal form
-/

namespace Xmps.Spec

open Finset

/-- Contract of `numpy.linalg.inv`: a square matrix that has an inverse is mapped to it. -/
def InvLaw (inv : ND ℂ → Py (ND ℂ)) : Prop :=
  ∀ (M N : ND ℂ) (n : ℕ), M.shape = [n, n] → N.shape = [n, n] →
    (∀ i < n, ∀ j < n, ∑ k ∈ range n, M.val [i, k] * N.val [k, j] = if i = j then 1 else 0) →
    ∃ R, inv M = .ok R ∧ R.shape = [n, n] ∧ ∀ i < n, ∀ j < n, R.val [i, j] = N.val [i, j]

end Xmps.Spec

namespace Xmps

open Spec Finset

theorem dotSwap_ok {M A : ND ℂ} {n d r : ℕ} (hM : M.shape = [n, n]) (hA : A.shape = [d, n, r]) :
    ∃ R, VFMPS.dotSwap M A = .ok R ∧ R.shape = [d, n, r] ∧
      ∀ s i j, R.val [s, i, j] = ∑ k ∈ range n, M.val [i, k] * A.val [s, k, j] := by
  have e1 : M.tensordot A [1] [1] = .ok (M.tensordotR A [1] [1]) := by
    simp [ND.tensordot, ND.rank, ND.dim, hM, hA]
  have s1 : (M.tensordotR A [1] [1]).shape = [n, d, r] := by
    simp [ND.tensordotR, ND.transposeR, ND.rank, ND.others, ND.dim, hM, hA, List.range_succ]
  have v1 : ∀ i s j, (M.tensordotR A [1] [1]).val [i, s, j] = ∑ k ∈ range n, M.val [i, k] * A.val [s, k, j] := by
    intro i s j
    simp [ND.tensordotR, ND.transposeR, ND.rank, ND.others, ND.dim, hM, hA, List.range_succ]
  set T := M.tensordotR A [1] [1] with hT
  have e2 : T.transpose [1, 0, 2] = .ok (T.transposeR [1, 0, 2]) :=
    ND.transpose_ok (by rw [ND.rank, s1]; exact (by decide : [1, 0, 2].Perm (List.range 3)))
  refine ⟨T.transposeR [1, 0, 2], ?_, ?_, fun s i j => ?_⟩
  · unfold VFMPS.dotSwap
    rw [e1, ok_bind, e2]
  · simp [ND.transposeR, ND.dim, s1]
  · rw [← v1]
    simp [ND.transposeR, ND.rank, s1, List.range_succ]

/-- the pair `(L, G)` is made from `(L, A)`: `L` times `G` is `A` -/
theorem vidalStep_ok {inv : ND ℂ → Py (ND ℂ)} (hinv : InvLaw inv) {L A : ND ℂ} {lam : List ℝ} {d r : ℕ} (hL : DiagReal L lam)
    (hpos : ∀ x ∈ lam, 0 < x) (hA : A.shape = [d, lam.length, r]) :
    ∃ G B, VFMPS.vidalStep inv (L, A) = .ok (L, G) ∧ VFMPS.dotSwap L G = .ok B ∧ B ≈ A ∧ G.shape = A.shape ∧
      ∀ s < d, ∀ i < lam.length, ∀ j < r, A.val [s, i, j] = (lam.getD i 0 : ℝ) * G.val [s, i, j] := by
  set n := lam.length with hn
  have hp : ∀ i < n, ((lam.getD i 0 : ℝ) : ℂ) ≠ 0 := by
    intro i hi
    rw [List.getD_eq_getElem _ _ hi]
    exact Complex.ofReal_ne_zero.2 (hpos _ (List.getElem_mem hi)).ne'
  let N : ND ℂ := ⟨[n, n], fun
    | [i, j] => if i = j then ((lam.getD i 0 : ℝ) : ℂ)⁻¹ else 0
    | _ => 0⟩
  have hLv : ∀ i < n, ∀ f : ℕ → ℂ, ∑ k ∈ range n, L.val [i, k] * f k = (lam.getD i 0 : ℝ) * f i := by
    intro i hi f
    rw [Finset.sum_congr rfl fun k hk => by rw [hL.2 i hi k (by simpa using hk)]]
    simp only [ite_mul, zero_mul]
    rw [Finset.sum_ite_eq, if_pos (by simpa using hi)]
  have hN : ∀ i < n, ∀ j < n, ∑ k ∈ range n, L.val [i, k] * N.val [k, j] = if i = j then 1 else 0 := by
    intro i hi j hj
    rw [hLv i hi]
    change _ * (if i = j then _ else _) = _
    split_ifs
    · exact mul_inv_cancel₀ (hp i hi)
    · simp
  obtain ⟨R, h1, h2, h3⟩ := hinv L N n hL.1 rfl hN
  obtain ⟨G, g1, g2, g3⟩ := dotSwap_ok h2 hA
  obtain ⟨B, b1, b2, b3⟩ := dotSwap_ok hL.1 g2
  have hGA : ∀ s i j, i < n → G.val [s, i, j] = ((lam.getD i 0 : ℝ) : ℂ)⁻¹ * A.val [s, i, j] := by
    intro s i j hi
    rw [g3]
    have : ∀ k ∈ range n, R.val [i, k] * A.val [s, k, j] = if i = k then ((lam.getD i 0 : ℝ) : ℂ)⁻¹ * A.val [s, k, j] else 0 := by
      intro k hk
      rw [h3 i hi k (by simpa using hk)]
      change (if i = k then _ else _) * _ = _
      split_ifs <;> simp
    rw [Finset.sum_congr rfl this, Finset.sum_ite_eq, if_pos (by simpa using hi)]
  have hLG : ∀ s i j, i < n → ((lam.getD i 0 : ℝ) : ℂ) * G.val [s, i, j] = A.val [s, i, j] := by
    intro s i j hi
    rw [hGA s i j hi, mul_inv_cancel_left₀ (hp i hi)]
  refine ⟨G, B, ?_, b1, ⟨by rw [b2, hA], ?_⟩, by rw [g2, hA], fun s _ i hi j _ => (hLG s i j hi).symm⟩
  · unfold VFMPS.vidalStep
    rw [h1, ok_bind, g1, ok_bind]
  · rw [b2]
    intro idx hi
    match idx, hi with
    | [s, i, j], hi =>
      rw [b3, hLv i hi.2.1, hLG s i j hi.2.1]

theorem vidal_list {inv : ND ℂ → Py (ND ℂ)} (hinv : InvLaw inv) : ∀ {ps : List (ND ℂ × ND ℂ)},
    (∀ p ∈ ps, ∃ (lam : List ℝ) (d r : ℕ), DiagReal p.1 lam ∧ (∀ x ∈ lam, 0 < x) ∧ p.2.shape = [d, lam.length, r]) →
    ∃ qs Bs, ps.mapM (VFMPS.vidalStep inv) = .ok qs ∧ qs.mapM (fun p => VFMPS.dotSwap p.1 p.2) = .ok Bs ∧
      List.Forall₂ (· ≈ ·) Bs (ps.map Prod.snd) ∧ qs.map Prod.fst = ps.map Prod.fst
  | [], _ => ⟨[], [], rfl, rfl, .nil, rfl⟩
  | (L, A) :: ps, h => by
    obtain ⟨lam, d, r, h1, h2, h3⟩ := h (L, A) (by simp)
    obtain ⟨G, B, g1, g2, g3, -⟩ := vidalStep_ok hinv h1 h2 h3
    obtain ⟨qs, Bs, e1, e2, e3, e4⟩ := vidal_list hinv (ps := ps) (fun p hp => h p (by simp [hp]))
    refine ⟨(L, G) :: qs, B :: Bs, ?_, ?_, .cons g3 e3, by simp [e4]⟩
    · rw [List.mapM_cons, g1, ok_bind, e1]
      rfl
    · rw [List.mapM_cons, g2, ok_bind, e2]
      rfl

/-- **C50**: `vfMPS().from_fMPS(x)` succeeds for every nonzero state, puts `x` in right canonical form, stores with each
tensor the diagonal matrix of the (squared) Schmidt coefficients of the bond to its left, and `to_fMPS` gives the
arrays of the canonicalised `x` back: the same state up to a factor. -/
theorem VFMPS.roundTrip {svd : Svd} {eig : Eig} {inv : ND ℂ → Py (ND ℂ)} (hsvd : SVDLaw svd) (heig : EigOrthoLaw eig) (hinv : InvLaw inv)
    {x : FMPS ℂ} {ds : List ℕ} (hx : x.Holds ds) (hu : ∀ t ∈ ds, t = x.d) (hp : PosDims x.data)
    (hnz : ∃ s, InB ds s ∧ psi x.data s ≠ 0) :
    ∃ v y z, VFMPS.fromFMPS svd eig inv x = .ok (v, y) ∧ v.toFMPS = .ok z ∧ List.Forall₂ (· ≈ ·) z.data y.data ∧
      y.Holds ds ∧ z.Holds ds ∧ (∀ A ∈ y.data, RightIso A) ∧ SameRay ds x.data y.data ∧
      (∀ s, InB ds s → psi z.data s = psi y.data s) ∧ v.data.length = ds.length ∧
      ∀ m < ds.length, ∃ L G lam, pyGet v.data m = .ok (L, G) ∧ DiagReal L lam ∧ SchmidtAt (ds.take m) (ds.drop m) (psi y.data) lam := by
  obtain ⟨y, Ls, h1, h2, h3, h4, h5, -, h6, h7, h8, -⟩ :=
    FMPS.rightCanonicalise_spec hsvd heig hx hu hp none (by simp) (fun _ => hnz)
  have hyl : y.data.length = ds.length := h2.chain.length_eq
  have hps : ∀ p ∈ Ls.zip y.data, ∃ (lam : List ℝ) (d r : ℕ), DiagReal p.1 lam ∧ (∀ x ∈ lam, 0 < x) ∧ p.2.shape = [d, lam.length, r] := by
    intro p hp
    obtain ⟨m, hm, rfl⟩ := List.mem_iff_getElem.1 hp
    simp only [List.length_zip] at hm
    obtain ⟨L, lam, a1, a2, a3, a4, -⟩ := h8 m (by omega)
    have hL : Ls[m]'(by omega) = L := by
      have := pyGet_ok (l := Ls) (i := m) (by omega)
      rw [a1] at this
      exact (Except.ok.inj this).symm
    have hA : pyGet y.data m = .ok (y.data[m]'(by omega)) := pyGet_ok (by omega)
    have hd := a4 _ hA
    obtain ⟨d, l, r, hsh⟩ := h2.chain.shapes (y.data[m]'(by omega)) (List.getElem_mem _)
    rw [dim1 hsh] at hd
    refine ⟨lam, d, r, ?_, a3.1, ?_⟩
    · simpa [List.getElem_zip, hL] using a2
    · simp only [List.getElem_zip]
      rw [hsh, hd]
  obtain ⟨qs, Bs, e1, e2, e3, e4⟩ := vidal_list hinv hps
  rw [List.map_snd_zip (by omega)] at e3
  have e3' : List.Forall₂ (· ≈ ·) y.data Bs := (List.Forall₂.flip e3).imp fun _ _ h => ND.Eqv.symm h
  have hch : MpsChain ds Bs 1 1 := chain_congr h2.chain e3'
  obtain ⟨z, f1, f2, f3, -⟩ := init_holds hch hx.ne (some x.d) (Or.inr (by rw [hx.d]))
  have hql : qs.length = ds.length := by
    have := congrArg List.length e4
    simp only [List.length_map, List.length_zip] at this
    omega
  refine ⟨⟨qs, x.d⟩, y, z, ?_, ?_, by rw [f2]; exact e3, h2, f3, h4, h6 rfl, ?_, hql, ?_⟩
  · unfold VFMPS.fromFMPS
    rw [h1, ok_bind]
    simp only [Option.elim, ok_bind, e1]
  · unfold VFMPS.toFMPS
    simp only [e2, ok_bind, f1]
  · intro s hs
    rw [f2, psi_eq_amp hch (by rw [← f2]; exact f3.data_ne) hs.length_eq, psi_eq_amp h2.chain h2.data_ne hs.length_eq]
    exact (amp_congr h2.chain e3' hs 0 0 (by simp)).symm
  · intro m hm
    obtain ⟨L, lam, a1, a2, a3, a4, -⟩ := h8 m (by omega)
    have hL : Ls[m]'(by omega) = L := by
      have := pyGet_ok (l := Ls) (i := m) (by omega)
      rw [a1] at this
      exact (Except.ok.inj this).symm
    have hq : (qs[m]'(by omega)).1 = L := by
      have := congrArg (fun l => l[m]?) e4
      simp only [List.getElem?_map] at this
      rw [List.getElem?_eq_getElem (by omega), List.getElem?_eq_getElem (by simp; omega)] at this
      simp only [Option.map_some, List.getElem_zip, hL] at this
      exact Option.some.inj this
    refine ⟨L, (qs[m]'(by omega)).2, lam, ?_, a2, a3⟩
    rw [pyGet_ok (by change m < qs.length; omega), ← hq]

/-- the contract of `inv` can be met -/
theorem invLaw_exists : ∃ inv, InvLaw inv := by
  refine ⟨fun M => match M.shape with
    | [m, _] => .ok (ofM (toM m m M)⁻¹)
    | _ => .error .linAlgError, ?_⟩
  intro M N n hM hN h
  refine ⟨ofM (toM n n M)⁻¹, by simp only [hM], rfl, ?_⟩
  rw [← toM_eq_iff, toM_ofM]
  exact Matrix.inv_eq_right_inv (toM_mul_one_iff.2 h)

example {svd : Svd} {eig : Eig} {inv : ND ℂ → Py (ND ℂ)} (hsvd : SVDLaw svd) (heig : EigOrthoLaw eig) (hinv : InvLaw inv) :=
  VFMPS.roundTrip hsvd heig hinv (exTwo_holds 2) exTwo_uniform (exTwo_pos 2) exTwo_nonzero

end Xmps
