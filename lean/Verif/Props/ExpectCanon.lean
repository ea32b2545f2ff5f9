import Verif.Model.ExpectCanon
import Verif.Props.Canonicalise
import Verif.Props.ExpectHistory
import Verif.Lemmas.CanonBack

/-!
# C23, C24: expectation values by canonicalisation, the entanglement entropy, and the centre that
`mixed_canonicalise` records
-/

namespace Xmps

open Finset Spec Xmps.Ncon

/-- the tensor at the centre carries the expectation values of its site -/
theorem centre_site {As : List (ND ℂ)} {ds : List ℕ} {c d : ℕ} (hch : MpsChain ds As 1 1) (hc : CenteredAt As c)
    (hd : ds.getD c 0 = d) : ∃ M m n, pyGet As c = .ok M ∧ M.shape = [d, m, n] ∧
      ∀ G, opExpect ds As c 1 G = ∑ s ∈ range d, ∑ t ∈ range d, ∑ a ∈ range m, ∑ b ∈ range n,
        star (M.val [s, a, b]) * (G [s] [t] * M.val [t, a, b]) := by
  have hlt : c < ds.length := hch.length_eq ▸ hc.1
  obtain ⟨ds1, ds0, ds2, As1, As0, As2, m, n, e1, e2, l1, l2, l3, l4, c1, c0, c2⟩ :=
    chain_block (i := c) (k := 1) hch (by omega)
  obtain ⟨d', rfl⟩ : ∃ d', ds0 = [d'] := List.length_eq_one_iff.1 l3
  obtain ⟨M, rfl⟩ : ∃ M, As0 = [M] := List.length_eq_one_iff.1 l4
  have hd' : d' = d := by rw [← hd, e1, ← l1]; simp
  subst hd'
  obtain ⟨n', hM, hn'⟩ := c0
  have hn' : n' = n := hn'
  subst hn'
  refine ⟨M, m, n', by rw [e2, ← l2]; simp [pyGet], hM, fun G => ?_⟩
  obtain ⟨i1, i2⟩ := CenteredAt.block (e2 ▸ hc) (by omega) (by simp; omega)
  have := opExpect_block c1 (As0 := [M]) (ds0 := [d']) ⟨n', hM, rfl⟩ c2 (by simp) i1 i2 G
  rw [l1, show [d'].length = 1 from rfl, ← e1, ← e2] at this
  rw [this]
  simp only [sumIdx_cons, sumIdx_nil]
  refine Finset.sum_congr rfl fun s _ => Finset.sum_congr rfl fun t _ => Finset.sum_congr rfl fun a _ =>
    Finset.sum_congr rfl fun b hb => ?_
  rw [amp_single _ _ _ _ (by rw [dim2 hM]; simpa using hb), amp_single _ _ _ _ (by rw [dim2 hM]; simpa using hb)]

theorem siteValue_ok {M op : ND ℂ} {d m n : ℕ} (hM : M.shape = [d, m, n]) (ho : op.shape = [d, d]) :
    FMPS.siteValue M op = .ok (∑ s ∈ range d, ∑ t ∈ range d, ∑ a ∈ range m, ∑ b ∈ range n,
        star (M.val [s, a, b]) * (op.val [s, t] * M.val [t, a, b])).re := by
  obtain ⟨hH, hHv⟩ := hc3 hM
  have e1 : M.hc.tensordot M [2] [1] = .ok (ND.tensordotR M.hc M [2] [1]) := by
    simp [ND.tensordot, ND.rank, ND.dim, hH, hM]
  have s1 : (ND.tensordotR M.hc M [2] [1]).shape = [d, n, d, n] := by
    simp [ND.tensordotR, ND.transposeR, ND.rank, ND.others, ND.dim, hH, hM, List.range_succ]
  have v1 : ∀ s b t b', (ND.tensordotR M.hc M [2] [1]).val [s, b, t, b'] =
      ∑ a ∈ range m, star (M.val [s, a, b]) * M.val [t, a, b'] := by
    intro s b t b'
    simp [ND.tensordotR, ND.transposeR, ND.rank, ND.others, ND.dim, hH, hM, List.range_succ, hHv]
  set T := ND.tensordotR M.hc M [2] [1] with hT
  have e2 : T.trace 1 3 = .ok (T.traceR 1 3) := by simp [ND.trace, ND.rank, s1]
  have s2 : (T.traceR 1 3).shape = [d, d] := by simp [ND.traceR, ND.rank, ND.others, ND.dim, s1, List.range_succ]
  have v2 : ∀ s t, (T.traceR 1 3).val [s, t] = ∑ b ∈ range n, ∑ a ∈ range m, star (M.val [s, a, b]) * M.val [t, a, b] := by
    intro s t
    rw [← Finset.sum_congr rfl fun b _ => v1 s b t b]
    simp [ND.traceR, ND.transposeR, ND.rank, ND.others, ND.dim, s1, List.range_succ]
  have e3 : op.tensordot (T.traceR 1 3) [0, 1] [0, 1] = .ok (op.tensordotR (T.traceR 1 3) [0, 1] [0, 1]) := by
    simp [ND.tensordot, ND.rank, ND.dim, ho, s2]
  have v3 : (op.tensordotR (T.traceR 1 3) [0, 1] [0, 1]).val [] =
      ∑ s ∈ range d, ∑ t ∈ range d, op.val [s, t] * (T.traceR 1 3).val [s, t] := by
    simp [ND.tensordotR, ND.transposeR, ND.rank, ND.others, ND.dim, ho, s2, List.range_succ]
  unfold FMPS.siteValue
  rw [e1, ok_bind, e2, ok_bind, e3, ok_bind, v3]
  refine congrArg (fun z : ℂ => (.ok z.re : Py ℝ)) (Finset.sum_congr rfl fun s _ => Finset.sum_congr rfl fun t _ => ?_)
  rw [v2, Finset.sum_comm, Finset.mul_sum]
  refine Finset.sum_congr rfl fun a _ => ?_
  rw [Finset.mul_sum]
  exact Finset.sum_congr rfl fun b _ => by ring

theorem ncon_EC (O : SetOrder) {M op : ND ℂ} {d m n : ℕ} (hM : M.shape = [d, m, n]) (ho : op.shape = [d, d]) :
    ∃ R, nc O [M, M.conj, op] [[1, 3, 4], [2, 3, 4], [1, 2]] = .ok R ∧
      R.val [] = ∑ s ∈ range d, ∑ t ∈ range d, ∑ a ∈ range m, ∑ b ∈ range n,
        M.val [s, a, b] * (star (M.val [t, a, b]) * op.val [s, t]) := by
  obtain ⟨R, hR, hs, hv⟩ := nc_eval O (AA := [M, M.conj, op]) (v := [[1, 3, 4], [2, 3, 4], [1, 2]])
    (dimOf [(1, d), (2, d), (3, m), (4, n)]) [1, 2, 3, 4] []
    ⟨by simp, by simp [ND.conj, hM, ho, dimOf, List.lookup], by simp, by simp, by decide, by decide, by decide,
      by decide, by decide⟩ (by decide) (by decide)
  refine ⟨R, hR, ?_⟩
  rw [hv _ rfl]
  simp [labelSum, netTerm, assign, dimOf, List.lookup, Function.update, ND.conj]

/-- `mixed_canonicalise(site)` puts the centre on `site` (but records 0, see `mixedCanonicalise_stale`) -/
theorem FMPS.mixedCanonicalise_centre {svd : Svd} {eig : Eig} (hsvd : SVDLaw svd) {x : FMPS ℂ} {ds : List ℕ} (hx : x.Holds ds)
    (hu : ∀ t ∈ ds, t = x.d) (hp : PosDims x.data) (hnz : ∃ s, InB ds s ∧ psi x.data s ≠ 0) {oc : ℕ} (hoc : oc < ds.length)
    (sweepBack : Bool) : ∃ y, x.mixedCanonicalise svd eig oc none sweepBack = .ok y ∧ y.Holds ds ∧ PosDims y.data ∧
      CenteredAt y.data oc ∧ braket ds y.data y.data = 1 ∧ SameRay ds x.data y.data ∧
      y.canonical = true ∧ y.orthogonal = true ∧ y.oc = some 0 := by
  obtain ⟨y, As1, A, As2, h1, h2, h3, h4, h5, h6, h7, h8, -, h9⟩ :=
    FMPS.mixedCanonicalise_spec (eig := eig) hsvd hx hu hp none (by simp) (fun _ => hnz) hoc sweepBack
  obtain ⟨h8, c, hc, h10⟩ := h8 rfl
  refine ⟨y, h1, h2, h3, ⟨by rw [h2.chain.length_eq]; exact hoc, ?_, ?_⟩, h8, ⟨c, hc, h10⟩, h9⟩
  · rw [h4, List.take_left' h5]; exact h6
  · rw [h4, ← h5, show As1 ++ A :: As2 = (As1 ++ [A]) ++ As2 by simp, List.drop_left' (by simp)]; exact h7

/-- **C23 for `Es`**: every entry is the normalised expectation value. -/
theorem FMPS.Es_spec {svd : Svd} {eig : Eig} (hsvd : SVDLaw svd) {x : FMPS ℂ} {ds : List ℕ} (hx : x.Holds ds)
    (hu : ∀ t ∈ ds, t = x.d) (hp : PosDims x.data) (hnz : ∃ s, InB ds s ∧ psi x.data s ≠ 0) {site : ℕ} (hs : site < ds.length)
    {ops : List (ND ℂ)} (ho : ∀ op ∈ ops, op.shape = [x.d, x.d]) :
    ∃ y, x.Es svd eig ops site = .ok (ops.map fun op =>
        (opExpect ds x.data site 1 (matElem [x.d] op) / braket ds x.data x.data).re, y) ∧
      y.Holds ds ∧ SameRay ds x.data y.data := by
  obtain ⟨y, h1, h2, h3, h4, h5, h6, -⟩ := FMPS.mixedCanonicalise_centre (eig := eig) hsvd hx hu hp hnz hs true
  obtain ⟨M, m, n, hg, hM, hG⟩ := centre_site h2.chain h4 (d := x.d) (by
    rw [List.getD_eq_getElem _ _ hs]; exact hu _ (List.getElem_mem hs))
  refine ⟨y, ?_, h2, h6⟩
  have : ops.mapM (FMPS.siteValue M) = .ok (ops.map fun op =>
      (opExpect ds x.data site 1 (matElem [x.d] op) / braket ds x.data x.data).re) := by
    refine mapM_ok fun op hop => ?_
    rw [siteValue_ok hM (ho op hop), ← h6.opExpect (by omega) h5, hG]
    simp [matElem]
  unfold FMPS.Es
  rw [h1, ok_bind, hg, ok_bind, this, ok_bind]

/-- `E_` canonicalises the object and returns, like `E`, the expectation value of the transposed
matrix. -/
theorem FMPS.ECanon_spec {svd : Svd} {eig : Eig} (hsvd : SVDLaw svd) (O : SetOrder) {x : FMPS ℂ} {ds : List ℕ} (hx : x.Holds ds)
    (hu : ∀ t ∈ ds, t = x.d) (hp : PosDims x.data) (hnz : ∃ s, InB ds s ∧ psi x.data s ≠ 0) {site : ℕ} (hs : site < ds.length)
    {op : ND ℂ} (ho : op.shape = [x.d, x.d]) :
    ∃ y, x.ECanon svd eig O op site = .ok
        ((opExpect ds x.data site 1 (fun s t => matElem [x.d] op t s) / braket ds x.data x.data).re, y) ∧
      y.Holds ds ∧ SameRay ds x.data y.data := by
  obtain ⟨y, h1, h2, h3, h4, h5, h6, -⟩ := FMPS.mixedCanonicalise_centre (eig := eig) hsvd hx hu hp hnz hs true
  obtain ⟨M, m, n, hg, hM, hG⟩ := centre_site h2.chain h4 (d := x.d) (by
    rw [List.getD_eq_getElem _ _ hs]; exact hu _ (List.getElem_mem hs))
  obtain ⟨R, hR, hv⟩ := ncon_EC O hM ho
  refine ⟨y, ?_, h2, h6⟩
  unfold FMPS.ECanon
  rw [h1, ok_bind, hg, ok_bind, hR, ok_bind, hv, ← h6.opExpect (by omega) h5, hG]
  refine congrArg (fun z : ℂ => (.ok (z.re, y) : Py (ℝ × FMPS ℂ))) ?_
  rw [Finset.sum_comm]
  refine Finset.sum_congr rfl fun t _ => Finset.sum_congr rfl fun s _ => Finset.sum_congr rfl fun a _ =>
    Finset.sum_congr rfl fun b _ => ?_
  simp only [matElem, ravel_cons, ravel_nil, List.prod_nil, mul_one, add_zero]
  ring

example {svd : Svd} {eig : Eig} (hsvd : SVDLaw svd) :=
  FMPS.Es_spec (eig := eig) hsvd (exTwo_holds 2) exTwo_uniform (exTwo_pos 2) exTwo_nonzero (site := 1) (by simp)
    (ops := [sigmaY]) (by simp [sigmaY, exTwo])
example {svd : Svd} {eig : Eig} (hsvd : SVDLaw svd) (O : SetOrder) :=
  FMPS.ECanon_spec (eig := eig) hsvd O (exTwo_holds 2) exTwo_uniform (exTwo_pos 2) exTwo_nonzero (site := 1) (op := sigmaY)
    (by simp) (by simp [sigmaY, exTwo])

/-! ### the centre recorded by `mixed_canonicalise` -/

/-- **C24 fails after `mixed_canonicalise(1)`** (and so after `Es(ops, 1)` and `E_(op, 1)`): the method
puts the centre on site 1 and records site 0.  On a two-site state with two Schmidt coefficients
`E(identity, 0)` then returns at least 2 (exactly: the bond dimension), whatever LAPACK returns. -/
theorem FMPS.mixedCanonicalise_stale {svd : Svd} {eig : Eig} (hsvd : SVDLaw svd) (qr rq : ND ℂ → Py (ND ℂ × ND ℂ)) (O : SetOrder) :
    ∃ y v, (exTwo 2).mixedCanonicalise svd eig 1 = .ok y ∧
      opExpect [2, 2] y.data 0 1 (matElem [2] (eyeND 2)) / braket [2, 2] y.data y.data = 1 ∧
      y.E qr rq O (eyeND 2) 0 = .ok (v, y) ∧ 2 ≤ v := by
  obtain ⟨y, h1, h2, h3, h4, h5, ⟨c, hc, h6⟩, h7, h8, h9⟩ := FMPS.mixedCanonicalise_centre (eig := eig) hsvd (exTwo_holds 2)
    exTwo_uniform (exTwo_pos 2) exTwo_nonzero (oc := 1) (by simp) true
  have hch := h2.chain
  obtain ⟨A, B, hy⟩ : ∃ A B, y.data = [A, B] := List.length_eq_two.1 (by simpa using hch.length_eq)
  rw [hy] at hch
  obtain ⟨n, hA, m, hB, hm⟩ := hch
  have hm : m = 1 := hm
  subst hm
  have hiso : LeftIso A := h4.2.1 A (by rw [hy]; simp)
  have hpsi : ∀ s t, psi y.data [s, t] = ∑ b ∈ range n, A.val [s, 0, b] * B.val [t, b, 0] := by
    intro s t
    rw [psi_eq_amp (ss := [s, t]) h2.chain h2.data_ne rfl, hy]
    simp only [amp_cons, dim2 hA, dim2 hB, Finset.sum_range_one]
    simp
  have v00 : c * psi y.data [0, 0] = 2 := by
    rw [← h6 _ (by simp [InB, List.replicate])]; simp [psi, exTwo, exData, pathProd, ND.dim, Finset.sum_range_succ]
  have v01 : c * psi y.data [0, 1] = 2 * Complex.I := by
    rw [← h6 _ (by simp [InB, List.replicate])]; simp [psi, exTwo, exData, pathProd, ND.dim, Finset.sum_range_succ]
  have v10 : c * psi y.data [1, 0] = 2 * Complex.I := by
    rw [← h6 _ (by simp [InB, List.replicate])]; simp [psi, exTwo, exData, pathProd, ND.dim, Finset.sum_range_succ]
  have v11 : c * psi y.data [1, 1] = 2 := by
    rw [← h6 _ (by simp [InB, List.replicate])]; simp [psi, exTwo, exData, pathProd, ND.dim, Finset.sum_range_succ]
  have hn : 2 ≤ n := by
    by_contra hlt
    have h01 : n = 0 ∨ n = 1 := by omega
    rcases h01 with rfl | rfl
    · rw [hpsi] at v00
      simp at v00
    · have hdet : psi y.data [0, 0] * psi y.data [1, 1] = psi y.data [0, 1] * psi y.data [1, 0] := by
        simp only [hpsi, Finset.sum_range_one]; ring
      have : (2 : ℂ) * 2 = 2 * Complex.I * (2 * Complex.I) := by
        calc (2 : ℂ) * 2 = (c * psi y.data [0, 0]) * (c * psi y.data [1, 1]) := by rw [v00, v11]
          _ = (c * psi y.data [0, 1]) * (c * psi y.data [1, 0]) := by linear_combination c * c * hdet
          _ = _ := by rw [v01, v10]
      have h := congrArg Complex.re this
      norm_num at h
  obtain ⟨R, hR, hv⟩ := ncon_E O hA (op := eyeND 2) rfl
  have hval : R.val [] = (n : ℂ) := by
    rw [hv, Finset.sum_range_one]
    calc _ = ∑ b ∈ range n, (1 : ℂ) := by
          refine Finset.sum_congr rfl fun b hb => ?_
          have hb : b < n := by simpa using hb
          have := hiso b (by rwa [dim2 hA]) b (by rwa [dim2 hA])
          rw [if_pos rfl, dim0 hA, dim1 hA] at this
          rw [← this]
          refine Finset.sum_congr rfl fun s hs => ?_
          have hs : s < 2 := by simpa using hs
          simp only [eyeND, mul_ite, mul_one, mul_zero, Finset.sum_ite_eq, mem_range, hs, if_true, Finset.sum_range_one]
          ring
      _ = n := by simp
  refine ⟨y, n, h1, ?_, ?_, by exact_mod_cast hn⟩
  · have h5 : braket [2, 2] y.data y.data = 1 := h5
    rw [h5, div_one, ← h5]
    simp [opExpect, braket, sumIdx_cons, sumIdx_nil, Finset.sum_range_succ, matElem, eyeND]
  · unfold FMPS.E
    have hre : y.recenter qr rq [0] = .ok y := by
      unfold FMPS.recenter
      rw [if_neg (by simp [h7, h9])]
    have hg : pyGet y.data 0 = .ok A := by rw [hy]; rfl
    rw [hre, ok_bind, hg, ok_bind, hR, ok_bind, hval]
    simp

/-! ### entanglement entropy -/

open Classical in
/-- the entropy of a list of weights, weights up to `1e-8` ignored -/
noncomputable def entropyOf (lam : List ℝ) : ℝ := -((lam.filter fun v => 1e-8 < v).map fun v => v * Real.log v).sum

theorem schmidt_scale {ds1 ds2 : List ℕ} {ψ : List ℕ → ℂ} {lam : List ℝ} (h : SchmidtAt ds1 ds2 ψ lam) {z : ℂ}
    (hz : star z * z = 1) : SchmidtAt ds1 ds2 (fun s => z * ψ s) lam := by
  obtain ⟨hp, u, v, h1, h2, h3⟩ := h
  refine ⟨hp, fun a s => z * u a s, v, ?_, ?_, h3⟩
  · intro s1 hs1 s2 hs2
    simp only [h1 s1 hs1 s2 hs2, Finset.mul_sum]
    exact Finset.sum_congr rfl fun a _ => by ring
  · intro a ha b hb
    rw [← h2 a ha b hb]
    refine sumIdx_congr fun s _ => ?_
    rw [star_mul']
    linear_combination (star (u a s) * u b s) * hz

theorem schmidt_congr {ds1 ds2 : List ℕ} {ψ φ : List ℕ → ℂ} {lam : List ℝ} (h : SchmidtAt ds1 ds2 ψ lam)
    (he : ∀ s1, InB ds1 s1 → ∀ s2, InB ds2 s2 → φ (s1 ++ s2) = ψ (s1 ++ s2)) : SchmidtAt ds1 ds2 φ lam := by
  obtain ⟨hp, u, v, h1, h2, h3⟩ := h
  exact ⟨hp, u, v, fun s1 hs1 s2 hs2 => by rw [he s1 hs1 s2 hs2, h1 s1 hs1 s2 hs2], h2, h3⟩

/-- **C54**: `entanglement_entropy(site)` is `-Σ λ log λ` over the squared Schmidt coefficients of the
normalised state across the bond left of `site` (coefficients up to `1e-8` are left out). -/
theorem FMPS.entanglementEntropy_spec {svd : Svd} {eig : Eig} (hsvd : SVDLaw svd) (heig : EigOrthoLaw eig) {x : FMPS ℂ}
    {ds : List ℕ} (hx : x.Holds ds) (hu : ∀ t ∈ ds, t = x.d) (hp : PosDims x.data)
    (hnz : ∃ s, InB ds s ∧ psi x.data s ≠ 0) {site : ℕ} (hs : site ≤ ds.length) :
    ∃ v y lam, x.entanglementEntropy svd eig site = .ok (v, y) ∧
      SchmidtAt (ds.take site) (ds.drop site) (fun s => psi x.data s / (Real.sqrt (braket ds x.data x.data).re : ℂ)) lam ∧
      v = entropyOf lam := by
  obtain ⟨y, Ls, R, z, h1, h2, -, -, h3, -, -, -, -, -, h4, -, h5, -⟩ :=
    FMPS.leftCanonicalise_spec hsvd heig hx hu hp none (by simp) (fun _ => hnz)
  obtain ⟨L, lam, hL, hdiag, hsch, -⟩ := h5 site hs
  set w := z * R.val [0, 0] with hw
  have h4 := h4 rfl
  have hbr : braket ds x.data x.data = star w * w := by
    have : ∀ s, InB ds s → psi x.data s = w * psi y.data s := h4
    have e : braket ds x.data x.data = star w * w * braket ds y.data y.data := by
      unfold braket
      rw [← sumIdx_mul_left]
      exact sumIdx_congr fun s hs => by rw [this s hs, star_mul']; ring
    rw [e, h3, mul_one]
  have hsq : (Real.sqrt (braket ds x.data x.data).re : ℂ) = (‖w‖ : ℂ) := by
    rw [hbr]
    have : (star w * w).re = ‖w‖ ^ 2 := by
      have := Complex.normSq_eq_conj_mul_self (z := w)
      rw [show star w * w = (Complex.normSq w : ℂ) from this.symm, Complex.ofReal_re, Complex.normSq_eq_norm_sq]
    rw [this, Real.sqrt_sq (norm_nonneg _)]
  have hw0 : w ≠ 0 := by
    rintro h0
    obtain ⟨s, hs, hne⟩ := hnz
    exact hne (by rw [h4 s hs, h0, zero_mul])
  have hn0 : (‖w‖ : ℂ) ≠ 0 := by simpa using hw0
  refine ⟨entropyOf lam, y, lam, ?_, ?_, rfl⟩
  · unfold FMPS.entanglementEntropy
    rw [h1, ok_bind]
    simp only [Option.elim_some, ok_bind, hL]
    have hd : min (L.dim 0) (L.dim 1) = lam.length := by simp [ND.dim, hdiag.1]
    have hlist : ((List.range (min (L.dim 0) (L.dim 1))).map fun i => ‖L.val [i, i]‖) = lam := by
      rw [hd]
      refine List.ext_getElem (by simp) fun i hi _ => ?_
      have hi : i < lam.length := by simpa using hi
      rw [List.getElem_map, List.getElem_range, hdiag.2 i hi i hi, if_pos rfl, Complex.norm_real, List.getD_eq_getElem _ _ hi]
      exact abs_of_pos (hsch.1 _ (List.getElem_mem hi))
    rw [hlist]
    rfl
  · refine schmidt_congr (schmidt_scale hsch (z := w / (‖w‖ : ℂ)) ?_) ?_
    · rw [star_div₀]
      have : star (‖w‖ : ℂ) = (‖w‖ : ℂ) := Complex.conj_ofReal _
      rw [this, div_mul_div_comm]
      have h := Complex.normSq_eq_conj_mul_self (z := w)
      rw [show star w * w = (Complex.normSq w : ℂ) from h.symm, Complex.normSq_eq_norm_sq]
      push_cast
      rw [← sq]
      exact div_self (pow_ne_zero 2 hn0)
    · intro s1 hs1 s2 hs2
      have : InB ds (s1 ++ s2) := by
        have := InB.append hs1 hs2
        rwa [List.take_append_drop] at this
      simp only [h4 _ this, hsq]
      rw [div_mul_eq_mul_div]

example {svd : Svd} {eig : Eig} (hsvd : SVDLaw svd) (heig : EigOrthoLaw eig) :=
  FMPS.entanglementEntropy_spec hsvd heig (exTwo_holds 2) exTwo_uniform (exTwo_pos 2) exTwo_nonzero (site := 1) (by simp)

end Xmps
