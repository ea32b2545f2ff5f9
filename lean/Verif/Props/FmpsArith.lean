import Verif.Lemmas.FmpsExamples

/-!
# Properties C08-C11, C13, C14: state arithmetic and overlaps of `fMPS`

`x.Holds ds`: the object holds an open chain with local dimensions `ds` and its attributes `L`, `d`
are those of the data (what the constructor produces, see `FMPS.constructor_holds`).
`psi x.data s` is the amplitude of basis state `s` (`Verif/Spec/Mps.lean`).
-/

namespace Xmps

open Finset Xmps.Spec Xmps.Ncon

variable {K : Type}

/-- The constructor accepts every chain of at least one site. -/
theorem FMPS.constructor_holds {data : List (ND K)} {ds : List ℕ} (h : MpsChain ds data 1 1) (hne : ds ≠ []) :
    ∃ x, FMPS.init data = .ok x ∧ x.data = data ∧ x.Holds ds := by
  obtain ⟨x, h1, h2, h3, _⟩ := init_holds h hne none (Or.inl rfl)
  exact ⟨x, h1, h2, h3⟩

/-- **C08.** `recombine()` returns the array of amplitudes. -/
theorem FMPS.recombine_amplitudes [CommSemiring K] {x : FMPS K} {d L : ℕ} (h : x.Holds (List.replicate L d)) :
    ∃ R, x.recombine = .ok R ∧ R.shape = List.replicate L d ∧
      ∀ s, InB (List.replicate L d) s → R.val s = psi x.data s := recombine_ok h

/-! ### C09 addition -/

section add
variable [CommSemiring K]

/-- **C09** for chains of at least two sites: `x.add(y)` is the sum of the states.
(Missing: one site, where the code drops `y`, see `FMPS.add_one_site_drops_other`.) -/
theorem FMPS.add_state_partial {x y : FMPS K} {ds : List ℕ} (hx : x.Holds ds) (hy : y.Holds ds)
    (hL : 2 ≤ ds.length) :
    ∃ z, x.add y = .ok z ∧ z.Holds ds ∧ ∀ s, InB ds s → psi z.data s = psi x.data s + psi y.data s := by
  obtain ⟨d, d', ds, rfl⟩ : ∃ d d' t, ds = d :: d' :: t := by
    match ds, hL with
    | d :: d' :: t, _ => exact ⟨d, d', t, rfl⟩
  have hxc := hx.chain
  have hyc := hy.chain
  have hlen : x.L = x.data.length := by rw [hx.len, hxc.length_eq]
  obtain ⟨A, As, eA⟩ := List.exists_cons_of_ne_nil hx.data_ne
  obtain ⟨B, Bs, eB⟩ := List.exists_cons_of_ne_nil hy.data_ne
  rw [eA] at hxc
  rw [eB] at hyc
  obtain ⟨m, hA, h⟩ := hxc
  obtain ⟨m', hB, h'⟩ := hyc
  obtain ⟨R, hR, hs, hv1, hv2⟩ := concat2_ok hA hB
  obtain ⟨Cs, hCs, hch, hv⟩ := addSites_tail (by simp) h h'
  have hdata : MpsChain (d :: d' :: ds) (R :: Cs) 1 1 := ⟨_, hs, hch⟩
  obtain ⟨z, hz, hzd, hzh, _⟩ := init_holds hdata (by simp) none (Or.inl rfl)
  refine ⟨z, ?_, hzh, ?_⟩
  · unfold FMPS.add
    rw [hlen, List.take_length, eA, eB]
    have : FMPS.addSites true (A :: As) (B :: Bs) = .ok (R :: Cs) := by
      rw [FMPS.addSites]
      simp only [if_true, hR, ok_bind, hCs]
    simp only [le_refl, decide_true, guardPy_true, ok_bind, this, hz]
  · intro s hsb
    rw [Holds.psi_amp hzh hsb, Holds.psi_amp hx hsb, Holds.psi_amp hy hsb, hzd, eA, eB]
    match s, hsb with
    | s :: ss, hsb =>
      obtain ⟨w1, w2⟩ := hv ss hsb.2
      rw [amp_cons, amp_cons, amp_cons, dim2 hs, dim2 hA, dim2 hB, Finset.sum_range_add]
      congr 1
      · refine Finset.sum_congr rfl fun c hc => ?_
        have hc := Finset.mem_range.1 hc
        rw [hv1 s 0 c hc, w1 c hc]
      · refine Finset.sum_congr rfl fun c hc => ?_
        have hc := Finset.mem_range.1 hc
        rw [hv2 s 0 c, w2 c hc]

/-- **C09 is violated for one site**: the result of `x.add(y)` recombines to the state `x`. -/
theorem FMPS.add_one_site_drops_other {x y : FMPS K} {d : ℕ} (hx : x.Holds [d]) (hy : y.Holds [d]) :
    ∃ z R, x.add y = .ok z ∧ z.recombine = .ok R ∧ R.shape = [d] ∧ ∀ s < d, R.val [s] = psi x.data [s] := by
  have hxc := hx.chain
  have hyc := hy.chain
  have hlen : x.L = x.data.length := by rw [hx.len, hxc.length_eq]
  obtain ⟨A, As, eA⟩ := List.exists_cons_of_ne_nil hx.data_ne
  obtain ⟨B, Bs, eB⟩ := List.exists_cons_of_ne_nil hy.data_ne
  have hAs : As = [] := by
    have := hxc.length_eq
    rw [eA] at this
    simpa using this
  have hBs : Bs = [] := by
    have := hyc.length_eq
    rw [eB] at this
    simpa using this
  subst hAs hBs
  rw [eA] at hxc
  rw [eB] at hyc
  obtain ⟨m, hA, hm⟩ := hxc
  obtain ⟨m', hB, hm'⟩ := hyc
  have e1 : m = 1 := hm
  have e2 : m' = 1 := hm'
  subst e1 e2
  obtain ⟨R, hR, hs, hv1, hv2⟩ := concat2_ok hA hB
  obtain ⟨z, hz, hzd, hzL, hzd', _⟩ := init_ok (data := [R]) (by simp) (by simp [hs]) none
  have hz' : z.L = 1 := by simpa using hzL
  have hzd'' : z.d = d := by simpa [hs] using hzd'
  obtain ⟨Q, hQ, hQs, hQv⟩ := ND.build_ok (sh := [d]) (f := FMPS.amplitudeAt z.data) (g := fun s => psi x.data s) (by
    intro idx hi
    match idx, hi with
    | [s], hi =>
      have hsd : s < d := hi.1
      have hps : psi x.data [s] = A.val [s, 0, 0] := by
        rw [Holds.psi_amp hx hi, eA, amp_single _ _ _ _ (by rw [dim2 hA]; omega)]
      rw [hps, hzd]
      unfold FMPS.amplitudeAt
      have e0 : R.slice0 s = .ok ⟨[1, 1 + 1], fun idx => R.val (s :: idx)⟩ := ND.slice0_ok hs hsd
      have e1 : (⟨[1, 1 + 1], fun idx => R.val (s :: idx)⟩ : ND K).slice0 0 =
          .ok ⟨[1 + 1], fun idx => R.val (s :: 0 :: idx)⟩ := ND.slice0_ok rfl (by omega)
      have e2 : (⟨[1 + 1], fun idx => R.val (s :: 0 :: idx)⟩ : ND K).slice0 0 =
          .ok ⟨[], fun idx => R.val (s :: 0 :: 0 :: idx)⟩ := ND.slice0_ok rfl (by omega)
      simp only [List.zipIdx_cons, List.zipIdx_nil, List.mapM_cons, List.mapM_nil, pyGet_cons_zero, ok_bind, e0,
        py_pure, List.foldlM_nil, e1, e2]
      rw [hv1 s 0 0 (by omega)])
  refine ⟨z, Q, ?_, ?_, hQs, fun s hs => hQv [s] ⟨hs, trivial⟩⟩
  · unfold FMPS.add
    rw [hlen, List.take_length, eA, eB]
    simp only [le_refl, decide_true, guardPy_true, ok_bind, FMPS.addSites, if_true, hR, hz]
  · unfold FMPS.recombine
    rw [hz', hzd'']
    exact hQ

end add

/-! ### C10 scalar multiples -/

/-- **C10**: `x.mul(c)` multiplies every amplitude by `c`. -/
theorem FMPS.mul_state [CommSemiring K] {x : FMPS K} {ds : List ℕ} (h : x.Holds ds) (c : K) :
    ∃ z, x.mul c = .ok z ∧ z.Holds ds ∧ ∀ s, InB ds s → psi z.data s = c * psi x.data s := by
  have hc := h.chain
  obtain ⟨A, As, eA⟩ := List.exists_cons_of_ne_nil h.data_ne
  obtain ⟨d, ds', rfl⟩ := List.exists_cons_of_ne_nil h.ne
  rw [eA] at hc
  obtain ⟨m, hA, hc⟩ := hc
  have hdata : MpsChain (d :: ds') (A.smul c :: As) 1 1 := ⟨m, hA, hc⟩
  obtain ⟨z, hz, hzd, hzh, _⟩ := init_holds hdata (by simp) none (Or.inl rfl)
  refine ⟨z, ?_, hzh, fun s hs => ?_⟩
  · unfold FMPS.mul
    rw [eA, List.mapIdx_cons]
    have e : (List.mapIdx (fun i (t : ND K) => if i + 1 = 0 then t.smul c else t) As) = As := by
      apply List.ext_getElem <;> simp
    rw [e]
    exact hz
  · rw [Holds.psi_amp hzh hs, Holds.psi_amp h hs, hzd, eA]
    match s, hs with
    | s :: ss, hs => exact amp_smul_head c A As s ss 0 0

/-- **C10**: `x * c` multiplies every tensor by `c`, hence the state by `c^L`. -/
theorem FMPS.mulItem_state [CommSemiring K] {x : FMPS K} {ds : List ℕ} (h : x.Holds ds) (c : K) :
    ∃ z, x.mulItem c = .ok z ∧ z.Holds ds ∧ z.data = x.data.map (ND.smul c) ∧
      ∀ s, InB ds s → psi z.data s = c ^ x.L * psi x.data s := by
  obtain ⟨z, hz, hzd, hzh, _⟩ := init_holds (chain_smul_all c h.chain) h.ne (some x.d) (Or.inr (by rw [h.d]))
  refine ⟨z, hz, hzh, hzd, fun s hs => ?_⟩
  rw [Holds.psi_amp hzh hs, Holds.psi_amp h hs, hzd, amp_smul_all _ _ _ _ _ (by rw [h.chain.length_eq, hs.length_eq]),
    h.len, h.chain.length_eq]

/-- **C10**: `x / c` divides every tensor by `c`. -/
theorem FMPS.truediv_state {K : Type} [Field K] {x : FMPS K} {ds : List ℕ} (h : x.Holds ds) (c : K) :
    ∃ z, x.truediv c = .ok z ∧ z.Holds ds ∧ ∀ s, InB ds s → psi z.data s = psi x.data s / c ^ x.L := by
  obtain ⟨z, h1, h2, _, h4⟩ := FMPS.mulItem_state h c⁻¹
  refine ⟨z, h1, h2, fun s hs => ?_⟩
  rw [h4 s hs, inv_pow, div_eq_inv_mul]

/-! ### C11 product states and single-site operators -/

/-- **C11**: the amplitudes of a product state. -/
theorem FMPS.fromProductState_state [CommSemiring K] (vs : List (List K)) (hne : vs ≠ []) :
    ∃ z, FMPS.fromProductState vs = .ok z ∧ z.Holds (vs.map List.length) ∧
      ∀ s, InB (vs.map List.length) s → psi z.data s = Spec.prodAmp vs s := by
  obtain ⟨z, hz, hzd, hzh, _⟩ := init_holds (chain_columns vs) (by simpa using hne) none (Or.inl rfl)
  refine ⟨z, hz, hzh, fun s hs => ?_⟩
  rw [Holds.psi_amp hzh hs, hzd, amp_columns vs s (by have := hs.length_eq; simp at this; omega)]

section apply
variable [CommSemiring K]

/-- **C11**: `x.apply((op, site))` acts on the state as `op` on that site. -/
theorem FMPS.apply_state {x : FMPS K} {ds : List ℕ} (h : x.Holds ds) {op : ND K} {site d' : ℕ}
    (hi : site < ds.length) (ho : op.shape = [d', ds[site]]) :
    ∃ z, x.apply op site = .ok z ∧ z.Holds (ds.set site d') ∧
      ∀ s, InB (ds.set site d') s →
        psi z.data s = ∑ t ∈ range ds[site], op.val [s.getD site 0, t] * psi x.data (s.set site t) := by
  obtain ⟨ds1, d, ds2, As1, A, As2, m, n, e1, e2, l1, l2, h1, hA, h2⟩ := chain_at h.chain hi
  subst e1
  have hdg : (ds1 ++ d :: ds2)[site] = d := by
    subst l1; simp
  rw [hdg] at ho ⊢
  have hset : (ds1 ++ d :: ds2).set site d' = ds1 ++ d' :: ds2 := by
    subst l1; simp
  rw [hset]
  obtain ⟨R, hR, hRs, hRv⟩ := applyOp_ok ho hA
  have hset' : x.data.set site R = As1 ++ R :: As2 := by
    rw [e2]; subst l2; simp
  have hget : pyGet x.data site = .ok A := by
    rw [e2]; subst l2; simp [pyGet]
  have hdata : MpsChain (ds1 ++ d' :: ds2) (As1 ++ R :: As2) 1 1 :=
    (mpsChain_append (by rw [h1.length_eq])).2 ⟨m, h1, n, hRs, h2⟩
  obtain ⟨z, hz, hzd, hzh, _⟩ := init_holds hdata (by simp) none (Or.inl rfl)
  refine ⟨z, ?_, hzh, fun s hs => ?_⟩
  · unfold FMPS.apply
    simp only [hget, ok_bind, hR, hset', hz]
  · rw [Holds.psi_amp hzh hs]
    obtain ⟨s1, t, s2, rfl, hs1, ht, hs2⟩ := hs.split
    have ls1 : s1.length = site := by rw [hs1.length_eq, l1]
    have hgetD : (s1 ++ t :: s2).getD site 0 = t := by subst ls1; simp
    rw [hgetD, hzd, amp_mid h1 hs1.length_eq hRs t 0 0 Nat.one_pos]
    have : ∀ t' ∈ range d, op.val [t, t'] * psi x.data ((s1 ++ t :: s2).set site t') =
        ∑ c ∈ range m, ∑ e ∈ range n, op.val [t, t'] * (amp As1 s1 0 c * (A.val [t', c, e] * amp As2 s2 e 0)) := by
      intro t' ht'
      have hss : (s1 ++ t :: s2).set site t' = s1 ++ t' :: s2 := by subst ls1; simp
      rw [hss, Holds.psi_amp h (InB.append hs1 (InB_cons.2 ⟨Finset.mem_range.1 ht', hs2⟩)), e2,
        amp_mid h1 hs1.length_eq hA t' 0 0 Nat.one_pos]
      simp only [Finset.mul_sum]
    rw [Finset.sum_congr rfl this, Finset.sum_comm (s := range d)]
    refine Finset.sum_congr rfl fun c _ => ?_
    rw [Finset.sum_comm (s := range d)]
    refine Finset.sum_congr rfl fun e _ => ?_
    rw [hRv, Finset.sum_mul, Finset.mul_sum]
    exact Finset.sum_congr rfl fun t' _ => by ring

/-- **C11**: applying `a` then `b` on one site is applying `b @ a`. -/
theorem FMPS.apply_comp {x : FMPS K} {ds : List ℕ} (h : x.Holds ds) {a b ba : ND K} {site d1 d2 : ℕ}
    (hi : site < ds.length) (ha : a.shape = [d1, ds[site]]) (hb : b.shape = [d2, d1]) (hba : b.matmul a = .ok ba) :
    ∃ y z w, x.apply a site = .ok y ∧ y.apply b site = .ok z ∧ x.apply ba site = .ok w ∧
      z.Holds (ds.set site d2) ∧ w.Holds (ds.set site d2) ∧
      ∀ s, InB (ds.set site d2) s → psi z.data s = psi w.data s := by
  obtain ⟨y, hy, hyh, hyv⟩ := FMPS.apply_state h hi ha
  have hi' : site < (ds.set site d1).length := by simpa using hi
  have hg : (ds.set site d1)[site] = d1 := by simp
  obtain ⟨z, hz, hzh, hzv⟩ := FMPS.apply_state hyh hi' (op := b) (by rw [hg]; exact hb)
  obtain ⟨R, hR, hRs, hRv⟩ := ND.matmul22 hb ha
  rw [hba] at hR
  obtain rfl : ba = R := by injection hR
  obtain ⟨w, hw, hwh, hwv⟩ := FMPS.apply_state h hi hRs
  rw [List.set_set] at hzh hzv
  refine ⟨y, z, w, hy, hz, hw, hzh, hwh, fun s hs => ?_⟩
  rw [hzv s hs, hwv s hs]
  simp only [hg]
  have hlen : s.length = ds.length := by have := hs.length_eq; simpa using this
  have hsi : site < s.length := by omega
  have key : ∀ t ∈ range d1, b.val [s.getD site 0, t] * psi y.data (s.set site t) =
      ∑ t' ∈ range ds[site], b.val [s.getD site 0, t] * (a.val [t, t'] * psi x.data (s.set site t')) := by
    intro t ht
    have hsb : InB (ds.set site d1) (s.set site t) := by
      have hs' := hs
      clear hzv hwv hyv
      obtain ⟨ds1, d, ds2, As1, A, As2, m, n, e1, e2, l1, l2, h1, hA, h2⟩ := chain_at h.chain hi
      subst e1
      have e : ∀ q, (ds1 ++ d :: ds2).set site q = ds1 ++ q :: ds2 := by intro q; subst l1; simp
      rw [e] at hs' ⊢
      obtain ⟨s1, u, s2, rfl, hs1, _, hs2⟩ := hs'.split
      have ls1 : s1.length = site := by rw [hs1.length_eq, l1]
      have : (s1 ++ u :: s2).set site t = s1 ++ t :: s2 := by subst ls1; simp
      rw [this]
      exact InB.append hs1 ⟨Finset.mem_range.1 ht, hs2⟩
    rw [hyv _ hsb, Finset.mul_sum]
    refine Finset.sum_congr rfl fun t' _ => ?_
    rw [List.set_set]
    simp [hsi]
  rw [Finset.sum_congr rfl key, Finset.sum_comm]
  refine Finset.sum_congr rfl fun t' _ => ?_
  rw [hRv, Finset.sum_mul]
  exact Finset.sum_congr rfl fun t _ => by ring

/-- **C11**: operators on different sites commute. -/
theorem FMPS.apply_comm {x : FMPS K} {ds : List ℕ} (h : x.Holds ds) {a b : ND K} {i j di dj : ℕ}
    (hi : i < ds.length) (hj : j < ds.length) (hij : i ≠ j) (ha : a.shape = [di, ds[i]]) (hb : b.shape = [dj, ds[j]]) :
    ∃ y z y' z', x.apply a i = .ok y ∧ y.apply b j = .ok z ∧ x.apply b j = .ok y' ∧ y'.apply a i = .ok z' ∧
      ∀ s, InB ((ds.set i di).set j dj) s → psi z.data s = psi z'.data s := by
  obtain ⟨y, hy, hyh, hyv⟩ := FMPS.apply_state h hi ha
  obtain ⟨y', hy', hyh', hyv'⟩ := FMPS.apply_state h hj hb
  have gj : (ds.set i di)[j]'(by simpa using hj) = ds[j] := by rw [List.getElem_set_ne hij]
  have gi : (ds.set j dj)[i]'(by simpa using hi) = ds[i] := by rw [List.getElem_set_ne (Ne.symm hij)]
  obtain ⟨z, hz, hzh, hzv⟩ := FMPS.apply_state hyh (site := j) (by simpa using hj) (op := b) (by rw [gj]; exact hb)
  obtain ⟨z', hz', hzh', hzv'⟩ := FMPS.apply_state hyh' (site := i) (by simpa using hi) (op := a) (by rw [gi]; exact ha)
  refine ⟨y, z, y', z', hy, hz, hy', hz', fun s hs => ?_⟩
  have hs' : InB ((ds.set j dj).set i di) s := by rw [List.set_comm _ _ (Ne.symm hij)]; exact hs
  rw [hzv s hs, hzv' s hs', gi, gj]
  have hlen : s.length = ds.length := by have := hs.length_eq; simpa using this
  have k1 : ∀ t ∈ range ds[j], b.val [s.getD j 0, t] * psi y.data (s.set j t) =
      ∑ u ∈ range ds[i], b.val [s.getD j 0, t] * (a.val [s.getD i 0, u] * psi x.data ((s.set j t).set i u)) := by
    intro t ht
    have hb1 : InB (ds.set i di) (s.set j t) := by
      have := InB_set hs (d := ds[j]) (Finset.mem_range.1 ht)
      rw [← gj] at this
      simpa using this
    rw [hyv _ hb1, Finset.mul_sum]
    refine Finset.sum_congr rfl fun u _ => ?_
    have : (s.set j t).getD i 0 = s.getD i 0 := by simp [List.getElem?_set_ne (Ne.symm hij)]
    rw [this]
  have k2 : ∀ u ∈ range ds[i], a.val [s.getD i 0, u] * psi y'.data (s.set i u) =
      ∑ t ∈ range ds[j], a.val [s.getD i 0, u] * (b.val [s.getD j 0, t] * psi x.data ((s.set i u).set j t)) := by
    intro u hu
    have hb1 : InB (ds.set j dj) (s.set i u) := by
      have := InB_set hs' (d := ds[i]) (Finset.mem_range.1 hu)
      rw [← gi] at this
      simpa using this
    rw [hyv' _ hb1, Finset.mul_sum]
    refine Finset.sum_congr rfl fun t _ => ?_
    have : (s.set i u).getD j 0 = s.getD j 0 := by simp [List.getElem?_set_ne hij]
    rw [this]
  rw [Finset.sum_congr rfl k1, Finset.sum_congr rfl k2, Finset.sum_comm]
  refine Finset.sum_congr rfl fun u _ => Finset.sum_congr rfl fun t _ => ?_
  rw [List.set_comm _ _ hij]
  ring

end apply

/-- **C09**, subtraction through the documented state operations: `x.add(y.mul(-1))`
(`x - y` is documented as itemwise; see `FMPS.subItem`).  (Missing: one site, as for `add`.) -/
theorem FMPS.sub_state_partial {K : Type} [CommRing K] {x y : FMPS K} {ds : List ℕ} (hx : x.Holds ds) (hy : y.Holds ds)
    (hL : 2 ≤ ds.length) :
    ∃ w z, y.mul (-1) = .ok w ∧ x.add w = .ok z ∧ z.Holds ds ∧
      ∀ s, InB ds s → psi z.data s = psi x.data s - psi y.data s := by
  obtain ⟨w, hw, hwh, hwv⟩ := FMPS.mul_state hy (-1)
  obtain ⟨z, hz, hzh, hzv⟩ := FMPS.add_state_partial hx hwh hL
  exact ⟨w, z, hw, hz, hzh, fun s hs => by rw [hzv s hs, hwv s hs]; ring⟩

/-- **C09** at the level of the arrays returned by `recombine()`. -/
theorem FMPS.add_recombine_partial [CommSemiring K] {x y : FMPS K} {L d : ℕ} (hx : x.Holds (List.replicate (L + 2) d))
    (hy : y.Holds (List.replicate (L + 2) d)) :
    ∃ z X Y Z, x.add y = .ok z ∧ x.recombine = .ok X ∧ y.recombine = .ok Y ∧ z.recombine = .ok Z ∧
      Z ≈ ⟨X.shape, fun s => X.val s + Y.val s⟩ := by
  obtain ⟨z, hz, hzh, hzv⟩ := FMPS.add_state_partial hx hy (by simp)
  obtain ⟨X, hX, hXs, hXv⟩ := recombine_ok hx
  obtain ⟨Y, hY, hYs, hYv⟩ := recombine_ok hy
  obtain ⟨Z, hZ, hZs, hZv⟩ := recombine_ok hzh
  refine ⟨z, X, Y, Z, hz, hX, hY, hZ, by rw [hZs, hXs], fun s hs => ?_⟩
  rw [hZs] at hs
  simp only [hZv s hs, hzv s hs, hXv s hs, hYv s hs]

/-- **C09 is violated**: two one-site states whose `add` does not recombine to the sum. -/
theorem FMPS.add_not_sum_one_site :
    ∃ (x y z : FMPS ℂ) (R : ND ℂ), x.Holds [2] ∧ y.Holds [2] ∧ x.add y = .ok z ∧ z.recombine = .ok R ∧
      R.val [0] ≠ psi x.data [0] + psi y.data [0] := by
  have hx : (exOne [1, 0]).Holds [2] := exOne_holds [1, 0]
  have hy : (exOne [1, 1]).Holds [2] := exOne_holds [1, 1]
  obtain ⟨z, R, hz, hR, _, hv⟩ := FMPS.add_one_site_drops_other hx hy
  refine ⟨_, _, z, R, hx, hy, hz, hR, ?_⟩
  rw [hv 0 (by omega), exOne_psi, exOne_psi]
  simp

/-! ### the hypotheses are met -/

example : ∃ R, (exTwo 3).recombine = .ok R ∧ R.shape = List.replicate 2 2 ∧
    ∀ s, InB (List.replicate 2 2) s → R.val s = psi (exTwo 3).data s := FMPS.recombine_amplitudes (exTwo_holds 3)

example : ∃ z, (exTwo 3).add (exTwo 2) = .ok z ∧ z.Holds [2, 2] ∧
    ∀ s, InB [2, 2] s → psi z.data s = psi (exTwo 3).data s + psi (exTwo 2).data s :=
  FMPS.add_state_partial (exTwo_holds 3) (exTwo_holds 2) (by simp)

example : ∃ z, (exTwo 3).mul 2 = .ok z ∧ z.Holds [2, 2] ∧
    ∀ s, InB [2, 2] s → psi z.data s = 2 * psi (exTwo 3).data s := FMPS.mul_state (exTwo_holds 3) 2

example : ∃ z, (exTwo 3).mulItem 2 = .ok z ∧ z.Holds [2, 2] ∧ z.data = (exTwo 3).data.map (ND.smul 2) ∧
    ∀ s, InB [2, 2] s → psi z.data s = 2 ^ 2 * psi (exTwo 3).data s := FMPS.mulItem_state (exTwo_holds 3) 2

example : ∃ z, FMPS.fromProductState [[1, 2], [3, 4, 5]] = .ok z ∧ z.Holds [2, 3] ∧
    ∀ s, InB [2, 3] s → psi z.data s = Spec.prodAmp [[(1 : ℤ), 2], [3, 4, 5]] s :=
  FMPS.fromProductState_state _ (by simp)

/-- a 2x2 array `[[1,2],[3,4]]`-like operator and a 3x2 one are accepted by `apply` -/
example := FMPS.apply_state (exTwo_holds 3) (op := ⟨[3, 2], fun | [i, j] => (i : ℂ) + 2 * j | _ => 0⟩)
  (site := 1) (d' := 3) (by simp) rfl

example : ∃ y z y' z', (exTwo 3).apply (eyeND 2) 0 = .ok y ∧ y.apply (onesND [2, 2]) 1 = .ok z ∧
    (exTwo 3).apply (onesND [2, 2]) 1 = .ok y' ∧ y'.apply (eyeND 2) 0 = .ok z' ∧
    ∀ s, InB [2, 2] s → psi z.data s = psi z'.data s :=
  FMPS.apply_comm (exTwo_holds 3) (i := 0) (j := 1) (by simp) (by simp) (by simp) rfl rfl

example :=
  FMPS.apply_comp (exTwo_holds 3) (site := 1) (by simp) (a := onesND [2, 2]) (b := eyeND 2) rfl rfl rfl

end Xmps
