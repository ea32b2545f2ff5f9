import Verif.Model.TfdExpect
import Verif.Props.Tfd
import Verif.Props.ExpectCanon
import Verif.Props.Envs
import Verif.Props.Tools

/-!
# C59: one-site expectation values of thermofield doubles
-/

namespace Xmps.Spec

/-- The matrix elements, between basis states of one doubled site of local dimension `d ^ 2`, of the operator with
matrix elements `G s t` on the first (second) copy and the identity on the other. -/
def copyOp (first : Bool) (d : ℕ) (G : ℕ → ℕ → ℂ) : List ℕ → List ℕ → ℂ
  | [u], [v] => if first then (if u % d = v % d then G (u / d) (v / d) else 0)
      else if u / d = v / d then G (u % d) (v % d) else 0
  | _, _ => 0

end Xmps.Spec

namespace Xmps

open Spec Finset

theorem copyMat_ok {op : ND ℂ} {d : ℕ} (ho : op.shape = [d, d]) (lr : ℕ) : (TFD.copyMat op lr).shape = [d ^ 2, d ^ 2] ∧
    ∀ u < d ^ 2, ∀ v < d ^ 2, (TFD.copyMat op lr).val [u, v] = copyOp (lr = 0) d (fun s t => op.val [s, t]) [u] [v] := by
  have d0 : op.dim 0 = d := by simp [ND.dim, ho]
  have d1 : op.dim 1 = d := by simp [ND.dim, ho]
  have e0 : (eyeND (K := ℂ) d).dim 0 = d := rfl
  have e1 : (eyeND (K := ℂ) d).dim 1 = d := rfl
  have ev : ∀ i j, (eyeND (K := ℂ) d).val [i, j] = if i = j then 1 else 0 := fun _ _ => rfl
  unfold TFD.copyMat
  rw [d0]
  by_cases h : lr = 0
  · simp only [h, if_true]
    refine ⟨by simp [kron, d0, d1, e0, e1, pow_two], fun u hu v hv => ?_⟩
    simp only [kron, e0, e1, copyOp, List.getD_cons_zero, List.getD_cons_succ, ev, decide_true, if_true]
    split_ifs <;> simp
  · simp only [h, if_false]
    refine ⟨by simp [kron, d0, d1, e0, e1, pow_two], fun u hu v hv => ?_⟩
    simp only [kron, d0, d1, copyOp, List.getD_cons_zero, List.getD_cons_succ, ev, decide_false]
    split_ifs <;> simp_all

theorem copyOp_swap (first : Bool) (d : ℕ) (G : ℕ → ℕ → ℂ) (u v : ℕ) :
    copyOp first d (fun s t => G t s) [u] [v] = copyOp first d G [v] [u] := by
  simp only [copyOp, eq_comm]

theorem siteTrace_ok {M op : ND ℂ} {d m n : ℕ} (hM : M.shape = [d, m, n]) (ho : op.shape = [d, d]) :
    TFD.siteTrace M op = .ok (∑ s ∈ range d, ∑ t ∈ range d, ∑ a ∈ range m, ∑ b ∈ range n,
        star (M.val [s, a, b]) * (op.val [t, s] * M.val [t, a, b])) := by
  obtain ⟨hH, hHv⟩ := hc3 hM
  have e1 : op.tensordot M [0] [0] = .ok (op.tensordotR M [0] [0]) := by
    simp [ND.tensordot, ND.rank, ND.dim, ho, hM]
  have s1 : (op.tensordotR M [0] [0]).shape = [d, m, n] := by
    simp [ND.tensordotR, ND.transposeR, ND.rank, ND.others, ND.dim, ho, hM, List.range_succ]
  have v1 : ∀ s a b, (op.tensordotR M [0] [0]).val [s, a, b] = ∑ t ∈ range d, op.val [t, s] * M.val [t, a, b] := by
    intro s a b
    simp [ND.tensordotR, ND.transposeR, ND.rank, ND.others, ND.dim, ho, hM, List.range_succ]
  obtain ⟨R, e2, s2, v2⟩ := ND.matmul33 hH s1
  obtain ⟨S, e3, s3, v3⟩ := sum0_ok s2
  have e4 : S.trace 0 1 = .ok (S.traceR 0 1) := by simp [ND.trace, ND.rank, s3]
  have v4 : (S.traceR 0 1).val [] = ∑ b ∈ range n, S.val [b, b] := by
    simp [ND.traceR, ND.transposeR, ND.rank, ND.others, ND.dim, s3, List.range_succ]
  unfold TFD.siteTrace
  rw [e1, ok_bind, e2, ok_bind, e3, ok_bind, e4, ok_bind, v4]
  refine congrArg Except.ok ?_
  calc _ = ∑ b ∈ range n, ∑ s ∈ range d, ∑ a ∈ range m, ∑ t ∈ range d, star (M.val [s, a, b]) * (op.val [t, s] * M.val [t, a, b]) := by
        refine sum_congr rfl fun b _ => ?_
        rw [v3]
        refine sum_congr rfl fun s hs => ?_
        rw [v2 s (by simpa using hs)]
        refine sum_congr rfl fun a _ => ?_
        rw [hHv, v1, mul_sum]
    _ = _ := by
        rw [sum_comm]
        refine sum_congr rfl fun s _ => ?_
        rw [sum_comm' (t' := range m) (s' := fun _ => range n) (by simp [and_comm])]
        rw [sum_comm' (s := range d) (t' := range m) (s' := fun _ => range d) (by simp [and_comm])]
        refine sum_congr rfl fun a _ => ?_
        rw [sum_comm]

/-- **C59**: `fTFD.E(op, site, lr)` is the normalised expectation value, in the doubled state, of the
*transposed* matrix on the first copy (`lr = 0`) or on the second. -/
theorem TFD.E_spec {svd : Svd} {eig : Eig} (hsvd : SVDLaw svd) {x : FMPS ℂ} {L d : ℕ} (hx : x.Holds (List.replicate L (d ^ 2)))
    (hp : PosDims x.data) (hnz : ∃ s, InB (List.replicate L (d ^ 2)) s ∧ psi x.data s ≠ 0) {site : ℕ} (hs : site < L)
    {op : ND ℂ} (ho : op.shape = [d, d]) (lr : ℕ) :
    ∃ y, TFD.E svd eig x op site lr = .ok ((opExpect (List.replicate L (d ^ 2)) x.data site 1
        (copyOp (lr = 0) d fun s t => op.val [t, s]) /
          braket (List.replicate L (d ^ 2)) x.data x.data).re, y) ∧
      y.Holds (List.replicate L (d ^ 2)) ∧ SameRay (List.replicate L (d ^ 2)) x.data y.data := by
  have hxd : x.d = d ^ 2 := by
    rw [hx.d]
    cases L with
    | zero => omega
    | succ L => rfl
  have hu : ∀ t ∈ List.replicate L (d ^ 2), t = x.d := fun t ht => by rw [hxd]; exact List.eq_of_mem_replicate ht
  obtain ⟨y, h1, h2, h3, h4, h5, h6, -⟩ := FMPS.mixedCanonicalise_centre (eig := eig) hsvd hx hu hp hnz (oc := site) (by simpa using hs) true
  obtain ⟨M, m, n, hg, hM, hG⟩ := centre_site h2.chain h4 (d := d ^ 2) (by
    rw [List.getD_eq_getElem _ _ (by simpa using hs), List.getElem_replicate])
  obtain ⟨hc, hcv⟩ := copyMat_ok ho lr
  refine ⟨y, ?_, h2, h6⟩
  unfold TFD.E
  simp only []
  rw [h1, ok_bind, hg, ok_bind, siteTrace_ok hM hc, ok_bind, ← h6.opExpect (by simp; omega) h5, hG]
  refine congrArg (fun z : ℂ => (.ok (z.re, y) : Py (ℝ × FMPS ℂ))) ?_
  refine sum_congr rfl fun s hs => sum_congr rfl fun t ht => sum_congr rfl fun a _ => sum_congr rfl fun b _ => ?_
  rw [hcv t (by simpa using ht) s (by simpa using hs), copyOp_swap]

/-- **C59** for `Es`: the same values, but the real part is not taken. -/
theorem TFD.Es_spec {svd : Svd} {eig : Eig} (hsvd : SVDLaw svd) {x : FMPS ℂ} {L d : ℕ} (hx : x.Holds (List.replicate L (d ^ 2)))
    (hp : PosDims x.data) (hnz : ∃ s, InB (List.replicate L (d ^ 2)) s ∧ psi x.data s ≠ 0) {site : ℕ} (hs : site < L)
    {ops : List (ND ℂ)} (ho : ∀ op ∈ ops, op.shape = [d, d]) (lr : ℕ) :
    ∃ y, TFD.Es svd eig x ops site lr = .ok (ops.map fun op => opExpect (List.replicate L (d ^ 2)) x.data site 1
        (copyOp (lr = 0) d fun s t => op.val [t, s]) /
          braket (List.replicate L (d ^ 2)) x.data x.data, y) ∧
      y.Holds (List.replicate L (d ^ 2)) ∧ SameRay (List.replicate L (d ^ 2)) x.data y.data := by
  have hxd : x.d = d ^ 2 := by
    rw [hx.d]
    cases L with
    | zero => omega
    | succ L => rfl
  have hu : ∀ t ∈ List.replicate L (d ^ 2), t = x.d := fun t ht => by rw [hxd]; exact List.eq_of_mem_replicate ht
  obtain ⟨y, h1, h2, h3, h4, h5, h6, -⟩ := FMPS.mixedCanonicalise_centre (eig := eig) hsvd hx hu hp hnz (oc := site) (by simpa using hs) true
  obtain ⟨M, m, n, hg, hM, hG⟩ := centre_site h2.chain h4 (d := d ^ 2) (by
    rw [List.getD_eq_getElem _ _ (by simpa using hs), List.getElem_replicate])
  refine ⟨y, ?_, h2, h6⟩
  unfold TFD.Es
  simp only [List.mapM_map]
  rw [h1, ok_bind, hg, ok_bind, mapM_ok (g := fun op => opExpect (List.replicate L (d ^ 2)) x.data site 1
        (copyOp (lr = 0) d fun s t => op.val [t, s]) / braket (List.replicate L (d ^ 2)) x.data x.data), ok_bind]
  intro op hop
  obtain ⟨hc, hcv⟩ := copyMat_ok (ho op hop) lr
  change TFD.siteTrace M (TFD.copyMat op lr) = _
  rw [siteTrace_ok hM hc, ← h6.opExpect (by simp; omega) h5, hG]
  refine congrArg Except.ok ?_
  refine sum_congr rfl fun s hs => sum_congr rfl fun t ht => sum_congr rfl fun a _ => sum_congr rfl fun b _ => ?_
  rw [hcv t (by simpa using ht) s (by simpa using hs), copyOp_swap]

/-! ## The double of a pure state -/

theorem sumIdx_pairs : ∀ (ds : List ℕ) (f : List ℕ → ℂ),
    sumIdx (ds.map (· ^ 2)) f = sumIdx ds fun s => sumIdx ds fun t => f (pairIdx ds s t)
  | [], f => rfl
  | d :: ds, f => by
    simp only [List.map_cons, sumIdx_cons, pairIdx]
    rw [sum_flat']
    refine sum_congr rfl fun s _ => ?_
    rw [sumIdx_finset_sum]
    refine sum_congr rfl fun t _ => ?_
    exact sumIdx_pairs ds _

theorem drop_take_one : ∀ {ds s : List ℕ} {i : ℕ}, InB ds s → i < ds.length → (s.drop i).take 1 = [s.getD i 0] ∧
    ∀ v, s.take i ++ ([v] ++ s.drop (i + 1)) = s.set i v
  | d :: ds, a :: s, 0, _, _ => by simp
  | d :: ds, a :: s, i + 1, h, hi => by
    obtain ⟨h1, h2⟩ := drop_take_one (i := i) h.2 (by simpa using hi)
    refine ⟨by simpa using h1, fun v => ?_⟩
    simpa using h2 v

theorem opExpect_site {ds : List ℕ} {As : List (ND ℂ)} {i : ℕ} (hi : i < ds.length) (G : List ℕ → List ℕ → ℂ) :
    opExpect ds As i 1 G = sumIdx ds fun s => ∑ v ∈ range (ds.getD i 0), star (psi As s) * (G [s.getD i 0] [v] * psi As (s.set i v)) := by
  unfold opExpect
  refine sumIdx_congr fun s hs => ?_
  obtain ⟨h1, h2⟩ := drop_take_one hs hi
  have : (ds.drop i).take 1 = [ds.getD i 0] := by
    rw [List.drop_eq_getElem_cons hi, List.getD_eq_getElem _ _ hi]
    rfl
  rw [this, sumIdx_cons]
  simp only [sumIdx_nil, h1, h2]

theorem pairIdx_getD : ∀ {ds s t : List ℕ} {i : ℕ}, InB ds s → InB ds t → i < ds.length →
    (pairIdx ds s t).getD i 0 = s.getD i 0 * ds.getD i 0 + t.getD i 0 ∧ s.getD i 0 < ds.getD i 0 ∧ t.getD i 0 < ds.getD i 0 ∧
    ∀ v v', (pairIdx ds s t).set i (v * ds.getD i 0 + v') = pairIdx ds (s.set i v) (t.set i v')
  | d :: ds, a :: s, b :: t, 0, hs, ht, _ => by simp [pairIdx, hs.1, ht.1]
  | d :: ds, a :: s, b :: t, i + 1, hs, ht, hi => by
    obtain ⟨h1, h2, h3, h4⟩ := pairIdx_getD (i := i) hs.2 ht.2 (by simpa using hi)
    refine ⟨by simpa [pairIdx] using h1, by simpa using h2, by simpa using h3, fun v v' => ?_⟩
    simpa [pairIdx] using h4 v v'

theorem inB_set : ∀ {ds s : List ℕ} {i v : ℕ}, InB ds s → v < ds.getD i 0 → InB ds (s.set i v)
  | [], [], _, _, _, h => by simp at h
  | d :: ds, a :: s, 0, v, h, hv => ⟨by simpa using hv, h.2⟩
  | d :: ds, a :: s, i + 1, v, h, hv => ⟨h.1, inB_set h.2 (by simpa using hv)⟩

theorem set_getD_self : ∀ {ds s : List ℕ} {i : ℕ}, InB ds s → i < ds.length → s.set i (s.getD i 0) = s
  | d :: ds, a :: s, 0, _, _ => by simp
  | d :: ds, a :: s, i + 1, h, hi => by simpa using set_getD_self (i := i) h.2 (by simpa using hi)

/-- one-site expectation value on one copy of a product of two copies -/
theorem opExpect_pair {ds : List ℕ} {As Bs : List (ND ℂ)} {i d : ℕ} (hi : i < ds.length) (hd : ds.getD i 0 = d)
    (h : ∀ s t, InB ds s → InB ds t → psi Bs (pairIdx ds s t) = psi As s * psi As t) (first : Bool) (G : ℕ → ℕ → ℂ) :
    opExpect (ds.map (· ^ 2)) Bs i 1 (copyOp first d G) =
      opExpect ds As i 1 (fun s t => G (s.getD 0 0) (t.getD 0 0)) * braket ds As As := by
  rw [opExpect_site (by simpa using hi), opExpect_site hi, sumIdx_pairs]
  have hd2 : (ds.map (· ^ 2)).getD i 0 = d ^ 2 := by
    rw [List.getD_eq_getElem _ _ (by simpa using hi), List.getElem_map, ← hd, List.getD_eq_getElem _ _ hi]
  have key : ∀ s t, InB ds s → InB ds t →
      ∑ v ∈ range (d ^ 2), star (psi Bs (pairIdx ds s t)) * (copyOp first d G [(pairIdx ds s t).getD i 0] [v] *
        psi Bs ((pairIdx ds s t).set i v)) =
      if first then (∑ v ∈ range d, star (psi As s) * (G (s.getD i 0) v * psi As (s.set i v))) * (star (psi As t) * psi As t)
      else (star (psi As s) * psi As s) * ∑ v ∈ range d, star (psi As t) * (G (t.getD i 0) v * psi As (t.set i v)) := by
    intro s t hs ht
    obtain ⟨h1, h2, h3, h4⟩ := pairIdx_getD hs ht hi
    rw [hd] at h1 h2 h3 h4
    rw [sum_flat', h s t hs ht, h1]
    simp only [h4]
    have hd' : ∀ v < d, v < ds.getD i 0 := fun v hv => by rw [hd]; exact hv
    cases first
    · simp only [copyOp, Bool.false_eq_true, if_false, flat_div h3, flat_mod h3]
      have e0 : ∀ v ∈ range d, ∀ v' ∈ range d,
          star (psi As s * psi As t) * ((if s.getD i 0 = (v * d + v') / d then G (t.getD i 0) ((v * d + v') % d) else 0) *
            psi Bs (pairIdx ds (s.set i v) (t.set i v'))) =
          if s.getD i 0 = v then star (psi As s * psi As t) * (G (t.getD i 0) v' * (psi As (s.set i v) * psi As (t.set i v'))) else 0 := by
        intro v hv v' hv'
        rw [flat_div (by simpa using hv'), flat_mod (by simpa using hv'),
          h _ _ (inB_set hs (hd' v (by simpa using hv))) (inB_set ht (hd' v' (by simpa using hv')))]
        split_ifs <;> simp
      rw [sum_congr rfl fun v hv => sum_congr rfl (e0 v hv), sum_comm, mul_sum]
      refine sum_congr rfl fun v' hv' => ?_
      rw [sum_ite_eq, if_pos (by simpa using h2), set_getD_self hs hi, star_mul']
      ring
    · simp only [copyOp, if_true, flat_div h3, flat_mod h3]
      have e0 : ∀ v ∈ range d, ∀ v' ∈ range d,
          star (psi As s * psi As t) * ((if t.getD i 0 = (v * d + v') % d then G (s.getD i 0) ((v * d + v') / d) else 0) *
            psi Bs (pairIdx ds (s.set i v) (t.set i v'))) =
          if t.getD i 0 = v' then star (psi As s * psi As t) * (G (s.getD i 0) v * (psi As (s.set i v) * psi As (t.set i v'))) else 0 := by
        intro v hv v' hv'
        rw [flat_div (by simpa using hv'), flat_mod (by simpa using hv'),
          h _ _ (inB_set hs (hd' v (by simpa using hv))) (inB_set ht (hd' v' (by simpa using hv')))]
        split_ifs <;> simp
      rw [sum_congr rfl fun v hv => sum_congr rfl (e0 v hv), sum_mul]
      refine sum_congr rfl fun v hv => ?_
      rw [sum_ite_eq, if_pos (by simpa using h3), set_getD_self ht hi, star_mul']
      ring
  rw [hd2, sumIdx_congr fun s hs => sumIdx_congr fun t ht => key s t hs ht, hd]
  simp only [List.getD_cons_zero]
  cases first
  · simp only [Bool.false_eq_true, if_false]
    rw [sumIdx_congr fun s hs => sumIdx_mul_left _ _ _, sumIdx_mul_right, mul_comm]
    rfl
  · simp only [if_true]
    rw [sumIdx_congr fun s hs => sumIdx_mul_left _ _ _, sumIdx_mul_right]
    rfl

theorem braket_pair {ds : List ℕ} {As Bs : List (ND ℂ)}
    (h : ∀ s t, InB ds s → InB ds t → psi Bs (pairIdx ds s t) = psi As s * psi As t) :
    braket (ds.map (· ^ 2)) Bs Bs = braket ds As As * braket ds As As := by
  unfold braket
  rw [sumIdx_pairs, ← sumIdx_mul_right]
  refine sumIdx_congr fun s hs => ?_
  rw [← sumIdx_mul_left]
  refine sumIdx_congr fun t ht => ?_
  rw [h s t hs ht, star_mul']
  ring

/-- **C59**: on the thermofield double of a state `x`, both copies give the expectation value that
`x` gives: `fTFD().from_fMPS(x).E(op, site, lr)` is what `x.E(op, site)` is (`FMPS.E_spec`). -/
theorem TFD.E_double {svd : Svd} {eig : Eig} (hsvd : SVDLaw svd) {x : FMPS ℂ} {L d : ℕ} (hx : x.Holds (List.replicate L d))
    (hp : PosDims x.data) (hnz : ∃ s, InB (List.replicate L d) s ∧ psi x.data s ≠ 0) {site : ℕ} (hs : site < L)
    {op : ND ℂ} (ho : op.shape = [d, d]) (lr : ℕ) :
    ∃ y z, TFD.fromFMPS x = .ok y ∧ TFD.E svd eig y op site lr = .ok ((opExpect (List.replicate L d) x.data site 1
        (fun s t => matElem [d] op t s) / braket (List.replicate L d) x.data x.data).re, z) := by
  obtain ⟨y, h1, h2, h3, -, h5⟩ := fromFMPS_amplitude hx
  have hm : (List.replicate L d).map (· ^ 2) = List.replicate L (d ^ 2) := by simp
  have hi : site < (List.replicate L d).length := by simpa using hs
  have hd : (List.replicate L d).getD site 0 = d := by
    rw [List.getD_eq_getElem _ _ hi, List.getElem_replicate]
  have hpy : PosDims y.data := by
    have : ∀ {ds : List ℕ} {As Bs : List (ND ℂ)} {l r : ℕ}, MpsChain ds As l r → PosDims As →
        As.mapM (fun a => kron3 a a) = .ok Bs → PosDims Bs := by
      intro ds
      induction ds with
      | nil =>
        intro As Bs l r h _ hB
        cases As with
        | nil => cases hB; simp [PosDims]
        | cons _ _ => exact h.elim
      | cons d ds ih =>
        intro As Bs l r h hp hB
        cases As with
        | nil => exact h.elim
        | cons A As =>
          obtain ⟨m, hA, h⟩ := h
          obtain ⟨R, e1, e2, -⟩ := kron3_ok hA
          rw [List.mapM_cons, e1, ok_bind] at hB
          obtain ⟨Bs', g1, g2⟩ := bind_eq_ok hB
          cases g2
          have hA' := hp A (by simp)
          rw [hA] at hA'
          intro B hB
          rcases List.mem_cons.1 hB with rfl | hB
          · rw [e2]
            intro n hn
            simp only [List.mem_cons, List.not_mem_nil, or_false] at hn hA'
            have p1 := hA' d (by simp)
            have p2 := hA' l (by simp)
            have p3 := hA' m (by simp)
            rcases hn with rfl | rfl | rfl <;> positivity
          · exact ih h (fun A hA => hp A (by simp [hA])) g1 B hB
    unfold TFD.fromFMPS at h1
    obtain ⟨Bs, e1, e2⟩ := bind_eq_ok h1
    cases e2
    exact this hx.chain hp e1
  have hnz' : ∃ s, InB (List.replicate L (d ^ 2)) s ∧ psi y.data s ≠ 0 := by
    obtain ⟨s, a, b⟩ := hnz
    refine ⟨_, hm ▸ pairIdx_inB a a, ?_⟩
    rw [h5 s s a a]
    exact mul_ne_zero b b
  rw [hm] at h3
  obtain ⟨z, e1, -⟩ := TFD.E_spec (eig := eig) hsvd h3 hpy hnz' hs ho lr
  refine ⟨y, z, h1, ?_⟩
  rw [e1, ← hm, opExpect_pair hi hd h5, braket_pair h5]
  have hb : braket (List.replicate L d) x.data x.data ≠ 0 := by
    obtain ⟨s, a, b⟩ := hnz
    rw [braket_self]
    exact Complex.ofReal_ne_zero.2 (sumIdx_pos (fun _ => by positivity) a (by have := norm_pos_iff.2 b; positivity)).ne'
  rw [mul_div_mul_right _ _ hb]
  refine congrArg (fun w : ℂ => (Except.ok ((w / _).re, z) : Py (ℝ × FMPS ℂ))) ?_
  rw [opExpect_site hi, opExpect_site hi]
  refine sumIdx_congr fun s _ => sum_congr rfl fun v _ => ?_
  simp [matElem]

example {svd : Svd} {eig : Eig} (hsvd : SVDLaw svd) :=
  TFD.E_double (eig := eig) hsvd (exTwo_holds 2) (exTwo_pos 2) exTwo_nonzero (site := 1) (by simp) (op := sigmaY) rfl 1

theorem exPair_pos : PosDims exPair.data := by simp [PosDims, exPair]

/-- the pair `(0, 1)`: not the double of anything -/
example {svd : Svd} {eig : Eig} (hsvd : SVDLaw svd) :=
  TFD.E_spec (eig := eig) hsvd (L := 1) (d := 2) (x := exPair) ⟨⟨1, rfl, rfl⟩, by simp, rfl, rfl⟩ exPair_pos
    ⟨[1], by simp, by simp [psi, exPair, pathProd]⟩ (site := 0) (by simp) (op := sigmaY) rfl 1
example {svd : Svd} {eig : Eig} (hsvd : SVDLaw svd) :=
  TFD.Es_spec (eig := eig) hsvd (L := 1) (d := 2) (x := exPair) ⟨⟨1, rfl, rfl⟩, by simp, rfl, rfl⟩ exPair_pos
    ⟨[1], by simp, by simp [psi, exPair, pathProd]⟩ (site := 0) (by simp) (ops := [sigmaY, sigmaY]) (by simp [sigmaY]) 1

end Xmps
