import Verif.Lemmas.OrthoSweeps
import Verif.Lemmas.FmpsExamples
import Verif.Props.LapackExists

/-!
# C15: orthogonalisation preserves the state

`norm_` is the 1x1 array `R` after a left or right sweep and a number after `mixed_orthogonalise`.
-/

namespace Xmps

open Finset Xmps.Spec

variable {K : Type}

section
variable [CommSemiring K] [StarRing K]

/-- `⟨ψ|ψ⟩` of a chain with isometries around a block is that of the block. -/
theorem braket_block {ds1 ds0 ds2 : List ℕ} {As1 As0 As2 : List (ND K)} {m n : ℕ}
    (h1 : MpsChain ds1 As1 1 m) (h0 : MpsChain ds0 As0 m n) (h2 : MpsChain ds2 As2 n 1)
    (hne : As1 ++ (As0 ++ As2) ≠ [])
    (i1 : ∀ A ∈ As1, LeftIso A) (i2 : ∀ A ∈ As2, RightIso A) :
    braket (ds1 ++ (ds0 ++ ds2)) (As1 ++ (As0 ++ As2)) (As1 ++ (As0 ++ As2)) =
      sumIdx ds0 fun s0 => ∑ c ∈ range m, ∑ e ∈ range n, star (amp As0 s0 c e) * amp As0 s0 c e := by
  have hc : MpsChain (ds1 ++ (ds0 ++ ds2)) (As1 ++ (As0 ++ As2)) 1 1 :=
    (mpsChain_append h1.length_eq).2 ⟨m, h1, (mpsChain_append h0.length_eq).2 ⟨n, h0, h2⟩⟩
  unfold braket
  rw [sumIdx_append]
  have e : ∀ s1, InB ds1 s1 → sumIdx (ds0 ++ ds2) (fun j => star (psi (As1 ++ (As0 ++ As2)) (s1 ++ j)) *
        psi (As1 ++ (As0 ++ As2)) (s1 ++ j)) =
      sumIdx ds0 fun s0 => sumIdx ds2 fun s2 => star (amp (As1 ++ (As0 ++ As2)) (s1 ++ (s0 ++ s2)) 0 0) *
        amp (As1 ++ (As0 ++ As2)) (s1 ++ (s0 ++ s2)) 0 0 := by
    intro s1 hs1
    rw [sumIdx_append]
    refine sumIdx_congr fun s0 hs0 => sumIdx_congr fun s2 hs2 => ?_
    rw [psi_eq_amp hc hne (by simp [hs1.length_eq, hs0.length_eq, hs2.length_eq])]
  rw [sumIdx_congr e, sumIdx_comm]
  refine sumIdx_congr fun s0 hs0 => ?_
  exact block_center h1 h0 h2 i1 i2 hs0.length_eq hs0.length_eq

theorem braket_leftIso {ds : List ℕ} {As : List (ND K)} (h : MpsChain ds As 1 1) (hne : As ≠ [])
    (hi : ∀ A ∈ As, LeftIso A) : braket ds As As = 1 := by
  have := braket_block (As0 := []) (As2 := []) (ds0 := []) (ds2 := []) h rfl rfl (by simpa using hne) hi (by simp)
  simpa using this

theorem braket_rightIso {ds : List ℕ} {As : List (ND K)} (h : MpsChain ds As 1 1) (hne : As ≠ [])
    (hi : ∀ A ∈ As, RightIso A) : braket ds As As = 1 := by
  have := braket_block (As0 := []) (As1 := []) (ds0 := []) (ds1 := []) rfl rfl h (by simpa using hne) (by simp) hi
  simpa using this

/-- `left_orthogonalise()`: every tensor becomes a left isometry, the new state times `norm_` is the
old state, the new state has norm 1, and the object records `oc = L`. -/
theorem FMPS.leftOrthogonalise_spec {qr : ND K → Py (ND K × ND K)} (hqr : QRLaw qr) {x : FMPS K} {ds : List ℕ}
    (hx : x.Holds ds) (hp : PosDims x.data) :
    ∃ y R, x.leftOrthogonalise qr = .ok y ∧ y.Holds ds ∧ PosDims y.data ∧ (∀ A ∈ y.data, LeftIso A) ∧
      y.norm_ = some R ∧ R.shape = [1, 1] ∧ (∀ s, InB ds s → psi x.data s = psi y.data s * R.val [0, 0]) ∧
      braket ds y.data y.data = 1 ∧ y.orthogonal = true ∧ y.oc = some ds.length := by
  have hlen := hx.chain.length_eq
  have hpos : 0 < ds.length := List.length_pos_iff.2 hx.ne
  obtain ⟨qs, rest', e, hq, hch, his, hpd, -, hamp⟩ := left_sweep hqr (ds.length - 1) x [] x.data ds 1 1 (by simp)
    (by simp [hx.len, hlen]) hx.chain hp (by omega)
  have hl2 := hch.length_eq
  obtain ⟨A, rfl⟩ : ∃ A, rest' = [A] := by
    apply List.length_eq_one_iff.1
    simp at hl2; omega
  obtain ⟨ds0, d, rfl, hl0⟩ : ∃ ds0 d, ds = ds0 ++ [d] ∧ qs.length = ds0.length := by
    rcases List.eq_nil_or_concat ds with rfl | ⟨u, d, rfl⟩
    · simp at hpos
    · exact ⟨u, d, by simp, by simpa using hq⟩
  obtain ⟨m, hch1, n, hA, hn⟩ := (mpsChain_append hl0).1 hch
  have hn : n = 1 := hn
  subst hn
  rw [PosDims.append, PosDims.cons, posDims3 hA] at hpd
  obtain ⟨hpq, ⟨hd, hm, -⟩, -⟩ := hpd
  have hmin : min (d * m) 1 = 1 := by have := Nat.mul_pos hd hm; omega
  obtain ⟨A', R, hstep, hA', hR, hi, hv⟩ := leftStep_last hqr (x := { x with data := [] ++ (qs ++ [A]) }) (pre := qs) (A := A)
    (by simp) (by simp [hx.len, hl0]) hA hd hm (by omega)
  rw [hmin] at hA' hR hv
  have hch' : MpsChain (ds0 ++ [d]) (qs ++ [A']) 1 1 := (mpsChain_append hl0).2 ⟨m, hch1, 1, hA', rfl⟩
  have hiso : ∀ B ∈ qs ++ [A'], LeftIso B := by
    intro B hB
    rcases List.mem_append.1 hB with hB | hB
    · exact his B hB
    · rw [List.mem_singleton.1 hB]; exact hi
  have hLL : x.L = (ds0 ++ [d]).length := hx.len
  refine ⟨{ x with data := qs ++ [A'], norm_ := some R, orthogonal := true, oc := some x.L }, R, ?_, ⟨hch', hx.ne, hx.len, hx.d⟩,
    PosDims.append.2 ⟨hpq, PosDims.cons.2 ⟨(posDims3 hA').2 ⟨hd, hm, by omega⟩, by simp [PosDims]⟩⟩,
    hiso, rfl, hR, ?_, braket_leftIso hch' (by simp) hiso, rfl, by simp [hLL]⟩
  · unfold FMPS.leftOrthogonalise
    simp only [Option.getD_none, Nat.sub_zero, true_and]
    have e1 : List.range' 0 x.L = List.range' 0 ((ds0 ++ [d]).length - 1) ++ [qs.length] := by
      rw [show x.L = ((ds0 ++ [d]).length - 1) + 1 by rw [hLL]; simp, List.range'_concat]
      simp [hl0]
    rw [e1, List.foldlM_append]
    simp only [List.length_nil] at e
    rw [e, ok_bind, List.foldlM_cons, hstep, ok_bind, List.foldlM_nil]
    simp
  · intro s hs
    rw [psi_eq_amp hx.chain hx.data_ne hs.length_eq, psi_eq_amp hch' (by simp) hs.length_eq, ← hamp s hs 0 (by omega) 0]
    obtain ⟨s1, t, s2, rfl, hs1, ht, hs2⟩ := InB.split (ds2 := []) hs
    match s2, hs2 with
    | [], _ =>
      rw [amp_mid hch1 hs1.length_eq hA t 0 0 (by omega), amp_mid hch1 hs1.length_eq hA' t 0 0 (by omega), Finset.sum_mul]
      refine Finset.sum_congr rfl fun c hc => ?_
      have := hv t ht c (by simpa using hc) 0 (by omega)
      simp only [Finset.sum_range_one] at this ⊢
      rw [this]
      simp
      ring

/-- `right_orthogonalise()`: every tensor becomes a right isometry, `norm_` times the new state is
the old state, the new state has norm 1, and the object records `oc = 0`. -/
theorem FMPS.rightOrthogonalise_spec {rq : ND K → Py (ND K × ND K)} (hrq : RQLaw rq) {x : FMPS K} {ds : List ℕ}
    (hx : x.Holds ds) (hp : PosDims x.data) :
    ∃ y R, x.rightOrthogonalise rq = .ok y ∧ y.Holds ds ∧ PosDims y.data ∧ (∀ A ∈ y.data, RightIso A) ∧
      y.norm_ = some R ∧ R.shape = [1, 1] ∧ (∀ s, InB ds s → psi x.data s = R.val [0, 0] * psi y.data s) ∧
      braket ds y.data y.data = 1 ∧ y.orthogonal = true ∧ y.oc = some 0 := by
  have hlen := hx.chain.length_eq
  have hpos : 0 < ds.length := List.length_pos_iff.2 hx.ne
  obtain ⟨rest', qs, e, hq, hch, his, hpd, -, hamp⟩ := right_sweep hrq (ds.length - 1) x x.data [] ds 1 1 (by simp)
    hx.chain hp (by omega)
  have hl2 := hch.length_eq
  obtain ⟨A, rfl⟩ : ∃ A, rest' = [A] := by
    apply List.length_eq_one_iff.1
    simp at hl2; omega
  obtain ⟨d, ds0, rfl⟩ := List.exists_cons_of_ne_nil hx.ne
  obtain ⟨n, hA, hch1⟩ := hch
  rw [List.singleton_append, PosDims.cons, posDims3 hA] at hpd
  obtain ⟨⟨hd, -, hn⟩, hpq⟩ := hpd
  have hmin : min 1 (d * n) = 1 := by have := Nat.mul_pos hd hn; omega
  obtain ⟨A', R, hstep, hA', hR, hi, hv⟩ := rightStep_last hrq (x := { x with data := [A] ++ qs ++ [] }) (post := qs) (A := A)
    (by simp) hA hd (by omega) hn
  rw [hmin] at hA' hR hv
  have hch' : MpsChain (d :: ds0) (A' :: qs) 1 1 := ⟨n, hA', hch1⟩
  have hiso : ∀ B ∈ A' :: qs, RightIso B := by
    intro B hB
    rcases List.mem_cons.1 hB with rfl | hB
    · exact hi
    · exact his B hB
  refine ⟨{ x with data := A' :: qs, norm_ := some R, orthogonal := true, oc := some 0 }, R, ?_, ⟨hch', hx.ne, hx.len, hx.d⟩,
    PosDims.cons.2 ⟨(posDims3 hA').2 ⟨hd, by omega, hn⟩, hpq⟩,
    hiso, rfl, hR, ?_, braket_rightIso hch' (by simp) hiso, rfl, rfl⟩
  · unfold FMPS.rightOrthogonalise
    simp only [Option.getD_none, Nat.sub_zero, true_and]
    have e1 : (List.range' 0 x.L).reverse = (List.range' (x.data.length - ((d :: ds0).length - 1)) ((d :: ds0).length - 1)).reverse ++ [0] := by
      rw [hx.len, hlen]
      simp [List.range'_succ]
    rw [e1, List.foldlM_append, e, ok_bind, List.foldlM_cons, hstep, ok_bind, List.foldlM_nil]
    simp
  · intro s hs
    rw [psi_eq_amp hx.chain hx.data_ne hs.length_eq, psi_eq_amp hch' (by simp) hs.length_eq, ← hamp s hs 0 (by omega) 0]
    match s, hs with
    | t :: s, hs =>
      simp only [List.singleton_append, amp_cons, dim2 hA, dim2 hA', Finset.mul_sum]
      refine Finset.sum_congr rfl fun c hc => ?_
      have := hv t hs.1 0 (by omega) c (by simpa using hc)
      simp only [Finset.sum_range_one] at this
      rw [this]
      ring

end


/-! ### the mixed form -/

theorem sumIdx_pos {s : List ℕ} {f : List ℕ → ℝ} (h0 : ∀ idx, 0 ≤ f idx) {idx : List ℕ} (hi : InB s idx)
    (h : 0 < f idx) : 0 < sumIdx s f := by
  rw [sumIdx_eq_flat]
  refine Finset.sum_pos' (fun k _ => h0 _) ⟨ravel s idx, by simpa using ravel_lt hi, ?_⟩
  rwa [unravel_ravel hi]

theorem sumIdx_nonneg {f : List ℕ → ℝ} (h0 : ∀ idx, 0 ≤ f idx) (s : List ℕ) : 0 ≤ sumIdx s f := by
  rw [sumIdx_eq_flat]
  exact Finset.sum_nonneg fun k _ => h0 _

theorem sumIdx_ofReal : ∀ (s : List ℕ) (f : List ℕ → ℝ), ((sumIdx s f : ℝ) : ℂ) = sumIdx s fun i => (f i : ℂ)
  | [], _ => rfl
  | n :: s, f => by
    simp only [sumIdx_cons, Complex.ofReal_sum]
    exact Finset.sum_congr rfl fun i _ => sumIdx_ofReal s _

theorem star_mul_norm (z : ℂ) : star z * z = ((‖z‖ ^ 2 : ℝ) : ℂ) := by
  rw [← Complex.normSq_eq_norm_sq, Complex.normSq_eq_conj_mul_self]
  rfl

theorem braket_self (ds : List ℕ) (As : List (ND ℂ)) :
    braket ds As As = ((sumIdx ds fun s => ‖psi As s‖ ^ 2 : ℝ) : ℂ) := by
  rw [sumIdx_ofReal]
  exact sumIdx_congr fun s _ => star_mul_norm _

/-- the square of `ndNorm` -/
theorem ndNorm_sq (A : ND ℂ) : ((ndNorm A : ℝ) : ℂ) ^ 2 = sumIdx A.shape fun idx => star (A.val idx) * A.val idx := by
  rw [← Complex.ofReal_pow, ndNorm, Real.sq_sqrt (sumIdx_nonneg (fun _ => by positivity) _), sumIdx_ofReal]
  exact sumIdx_congr fun s _ => (star_mul_norm _).symm

theorem ndNorm_nonneg (A : ND ℂ) : 0 ≤ ndNorm A := Real.sqrt_nonneg _

/-- In mixed form the norm of the central tensor is the norm of the state. -/
theorem braket_center {ds1 ds2 : List ℕ} {d : ℕ} {As1 As2 : List (ND ℂ)} {A : ND ℂ} {m n : ℕ}
    (h1 : MpsChain ds1 As1 1 m) (hA : A.shape = [d, m, n]) (h2 : MpsChain ds2 As2 n 1)
    (i1 : ∀ A ∈ As1, LeftIso A) (i2 : ∀ A ∈ As2, RightIso A) :
    braket (ds1 ++ d :: ds2) (As1 ++ A :: As2) (As1 ++ A :: As2) = ((ndNorm A : ℝ) : ℂ) ^ 2 := by
  have := braket_block (ds0 := [d]) (As0 := [A]) h1 ⟨n, hA, rfl⟩ h2 (by simp) i1 i2
  rw [List.singleton_append, List.singleton_append] at this
  rw [this, ndNorm_sq, hA]
  simp only [sumIdx_cons, sumIdx_nil]
  refine Finset.sum_congr rfl fun s _ => Finset.sum_congr rfl fun c _ => Finset.sum_congr rfl fun e he => ?_
  rw [amp_single _ _ _ _ (by rw [dim2 hA]; simpa using he)]

/-- scaling the central tensor scales the amplitudes -/
theorem amp_smul_mid {ds1 : List ℕ} {d : ℕ} {As1 As2 : List (ND ℂ)} {A : ND ℂ} {m n : ℕ} {s1 s2 : List ℕ}
    (h1 : MpsChain ds1 As1 1 m) (hl : s1.length = ds1.length) (hA : A.shape = [d, m, n]) (z : ℂ) (t : ℕ) :
    amp (As1 ++ A.smul z :: As2) (s1 ++ t :: s2) 0 0 = z * amp (As1 ++ A :: As2) (s1 ++ t :: s2) 0 0 := by
  rw [amp_mid h1 hl hA t 0 0 (by omega), amp_mid h1 hl (A := A.smul z) hA t 0 0 (by omega), Finset.mul_sum]
  refine Finset.sum_congr rfl fun c _ => ?_
  rw [Finset.mul_sum]
  refine Finset.sum_congr rfl fun e _ => ?_
  simp
  ring

/-- `self[oc] /= norm(self[oc])` on a chain with isometries on both sides of `oc`. -/
theorem normalise_center {ds1 ds2 : List ℕ} {d : ℕ} {As1 As2 : List (ND ℂ)} {A : ND ℂ} {m n : ℕ}
    (h1 : MpsChain ds1 As1 1 m) (hA : A.shape = [d, m, n]) (h2 : MpsChain ds2 As2 n 1)
    (i1 : ∀ A ∈ As1, LeftIso A) (i2 : ∀ A ∈ As2, RightIso A)
    (hnz : ∃ s, InB (ds1 ++ d :: ds2) s ∧ psi (As1 ++ A :: As2) s ≠ 0) :
    0 < ndNorm A ∧
      (∀ s, InB (ds1 ++ d :: ds2) s →
        psi (As1 ++ A :: As2) s = (ndNorm A : ℂ) * psi (As1 ++ A.smul ((ndNorm A : ℂ)⁻¹) :: As2) s) ∧
      braket (ds1 ++ d :: ds2) (As1 ++ A.smul ((ndNorm A : ℂ)⁻¹) :: As2) (As1 ++ A.smul ((ndNorm A : ℂ)⁻¹) :: As2) = 1 := by
  obtain ⟨s0, hs0, hne⟩ := hnz
  have hb := braket_center h1 hA h2 i1 i2
  have hpos : 0 < ndNorm A := by
    rcases lt_or_eq_of_le (ndNorm_nonneg A) with h | h
    · exact h
    · exfalso
      rw [← h, braket_self] at hb
      have hp : 0 < sumIdx (ds1 ++ d :: ds2) fun s => ‖psi (As1 ++ A :: As2) s‖ ^ 2 :=
        sumIdx_pos (fun _ => by positivity) hs0 (by have := norm_pos_iff.2 hne; positivity)
      have : (sumIdx (ds1 ++ d :: ds2) fun s => ‖psi (As1 ++ A :: As2) s‖ ^ 2) = 0 := by
        have := congrArg Complex.re hb
        simpa using this
      linarith
  have hpsi : ∀ s, InB (ds1 ++ d :: ds2) s →
        psi (As1 ++ A :: As2) s = (ndNorm A : ℂ) * psi (As1 ++ A.smul ((ndNorm A : ℂ)⁻¹) :: As2) s := by
    intro s hs
    have hc : MpsChain (ds1 ++ d :: ds2) (As1 ++ A :: As2) 1 1 := (mpsChain_append h1.length_eq).2 ⟨m, h1, n, hA, h2⟩
    have hc' : MpsChain (ds1 ++ d :: ds2) (As1 ++ A.smul ((ndNorm A : ℂ)⁻¹) :: As2) 1 1 :=
      (mpsChain_append h1.length_eq).2 ⟨m, h1, n, hA, h2⟩
    rw [psi_eq_amp hc (by simp) hs.length_eq, psi_eq_amp hc' (by simp) hs.length_eq]
    obtain ⟨s1, t, s2, rfl, hs1, ht, hs2⟩ := hs.split
    rw [amp_smul_mid h1 hs1.length_eq hA, ← mul_assoc, mul_inv_cancel₀ (by exact_mod_cast hpos.ne'), one_mul]
  refine ⟨hpos, hpsi, ?_⟩
  have e1 : braket (ds1 ++ d :: ds2) (As1 ++ A :: As2) (As1 ++ A :: As2) = (ndNorm A : ℂ) ^ 2 *
      braket (ds1 ++ d :: ds2) (As1 ++ A.smul ((ndNorm A : ℂ)⁻¹) :: As2) (As1 ++ A.smul ((ndNorm A : ℂ)⁻¹) :: As2) := by
    unfold braket
    rw [← sumIdx_mul_left]
    refine sumIdx_congr fun s hs => ?_
    rw [hpsi s hs, star_mul']
    have : star (ndNorm A : ℂ) = (ndNorm A : ℂ) := Complex.conj_ofReal _
    rw [this]
    ring
  rw [hb] at e1
  have hz : ((ndNorm A : ℂ)) ^ 2 ≠ 0 := pow_ne_zero _ (by exact_mod_cast hpos.ne')
  exact (mul_left_cancel₀ hz (by rw [mul_one]; exact e1)).symm

/-- `mixed_orthogonalise(oc)`: left isometries before the centre, right isometries after it, a
normalised state, and the old state is a multiple `c` of the new one.  For `oc > 0` the multiple is
`norm_`; for `oc = 0` the number stored in `norm_` is always 1. -/
theorem FMPS.mixedOrthogonalise_spec {qr rq : ND ℂ → Py (ND ℂ × ND ℂ)} (hqr : QRLaw qr) (hrq : RQLaw rq)
    {x : FMPS ℂ} {ds : List ℕ} (hx : x.Holds ds) (hp : PosDims x.data)
    (hnz : ∃ s, InB ds s ∧ psi x.data s ≠ 0) {oc : ℕ} (hoc : oc < ds.length) :
    ∃ y As1 A As2 n, ∃ c : ℂ, x.mixedOrthogonalise qr rq oc = .ok y ∧ y.Holds ds ∧ PosDims y.data ∧
      y.data = As1 ++ A :: As2 ∧ As1.length = oc ∧ (∀ B ∈ As1, LeftIso B) ∧ (∀ B ∈ As2, RightIso B) ∧
      y.orthogonal = true ∧ y.oc = some oc ∧ y.norm_ = some (scalarND ((n : ℝ) : ℂ)) ∧ 0 < n ∧
      braket ds y.data y.data = 1 ∧ c ≠ 0 ∧ (∀ s, InB ds s → psi x.data s = c * psi y.data s) ∧
      (0 < oc → c = n) ∧ (oc = 0 → n = 1) := by
  have hlen := hx.chain.length_eq
  have hpos : 0 < ds.length := List.length_pos_iff.2 hx.ne
  have hL := hx.len
  unfold FMPS.mixedOrthogonalise
  rw [show guardPy (Option.isNone none) PyErr.notImplemented = .ok () from rfl, ok_bind]
  rcases Nat.eq_zero_or_pos oc with rfl | hoc0
  · obtain ⟨y, R, hy, hyh, hyp, hiso, -, -, hpsi, hb, -, -⟩ := FMPS.rightOrthogonalise_spec hrq hx hp
    obtain ⟨d, ds2, rfl⟩ := List.exists_cons_of_ne_nil hx.ne
    obtain ⟨A, As2, hyd⟩ := List.exists_cons_of_ne_nil hyh.data_ne
    have hch := hyh.chain
    rw [hyd] at hch hiso hb hpsi
    obtain ⟨n, hA, hch2⟩ := hch
    have hi2 : ∀ B ∈ As2, RightIso B := fun B hB => hiso B (by simp [hB])
    have hnz' : ∃ s, InB ([] ++ d :: ds2) s ∧ psi ([] ++ A :: As2) s ≠ 0 := by
      obtain ⟨s, hs, hne⟩ := hnz
      refine ⟨s, hs, fun h => hne ?_⟩
      rw [hpsi s hs]
      simp only [List.nil_append] at h
      rw [h, mul_zero]
    obtain ⟨hn0, hps, hbr⟩ := normalise_center (As1 := []) (ds1 := []) rfl hA hch2 (by simp) hi2 hnz'
    have hc := braket_center (As1 := []) (ds1 := []) rfl hA hch2 (by simp) hi2
    simp only [List.nil_append] at hc hps hbr
    rw [hb] at hc
    have hn1 : ndNorm A = 1 := by
      have : (ndNorm A) ^ 2 = 1 := by exact_mod_cast hc.symm
      nlinarith
    have hleft : y.leftOrthogonalise qr (upTo := some 0) = .ok y := by
      unfold FMPS.leftOrthogonalise
      have : ¬ (0 = y.L) := by rw [hyh.len]; simp
      simp [this]
    have hget : pyGet y.data 0 = .ok A := by rw [hyd]; rfl
    have hcz : R.val [0, 0] ≠ 0 := by
      obtain ⟨s, hs, hne⟩ := hnz
      intro h
      exact hne (by rw [hpsi s hs, h, zero_mul])
    refine ⟨{ y with data := A.smul ((ndNorm A : ℂ)⁻¹) :: As2, norm_ := some (scalarND (ndNorm A : ℂ)), orthogonal := true, oc := some 0 }, [], A.smul ((ndNorm A : ℂ)⁻¹), As2, ndNorm A, R.val [0, 0], ?_, ⟨⟨n, hA, hch2⟩, hx.ne, hyh.len, hyh.d⟩, ?_, rfl, rfl,
        by simp, hi2, rfl, rfl, rfl, hn0, hbr, hcz, ?_, by simp, fun _ => hn1⟩
    · rw [hy, ok_bind, hleft, ok_bind, hget, ok_bind, hyd]
      rfl
    · rw [hyd, PosDims.cons] at hyp
      exact PosDims.cons.2 ⟨hyp.1, hyp.2⟩
    · intro s hs
      rw [hpsi s hs, hps s hs, hn1]
      simp
  · obtain ⟨rest1, qs1, e1, hq1, hch1, his1, hpd1, -, hamp1⟩ := right_sweep hrq (ds.length - oc) x x.data [] ds 1 1 (by simp)
      hx.chain hp (by omega)
    have hl1 := hch1.length_eq
    have hr1 : rest1.length = oc := by simp at hl1; omega
    have hright : x.rightOrthogonalise rq (fr := oc) = .ok { x with data := rest1 ++ qs1 } := by
      unfold FMPS.rightOrthogonalise
      have e2 : x.data.length - (ds.length - oc) = oc := by omega
      rw [e2] at e1
      simp only [Option.getD_none, hL]
      rw [e1, ok_bind, if_neg (by omega)]
      simp [hL]
    obtain ⟨qs, rest', e, hq, hch, his, hpd, htl, hamp⟩ := left_sweep hqr oc { x with data := rest1 ++ qs1 } [] (rest1 ++ qs1) ds 1 1
      (by simp) (by simp [hL]; simp at hl1; omega) hch1 hpd1 (by omega)
    have hleft : FMPS.leftOrthogonalise qr { x with data := rest1 ++ qs1 } (upTo := some oc) = .ok { x with data := qs ++ rest' } := by
      unfold FMPS.leftOrthogonalise
      simp only [Option.getD_some, Nat.sub_zero, hL, List.length_nil, List.nil_append] at e ⊢
      rw [e, ok_bind, if_neg (by omega)]
    have hl2 := hch.length_eq
    obtain ⟨A, As2, rfl⟩ : ∃ A As2, rest' = A :: As2 := by
      apply List.exists_cons_of_ne_nil
      rintro rfl
      simp at hl2; omega
    have htl' : As2 = qs1.tail := by
      simp only [List.tail_cons] at htl
      rw [htl, ← hr1, List.drop_left]
    have hi2 : ∀ B ∈ As2, RightIso B := fun B hB => his1 B (List.mem_of_mem_tail (htl' ▸ hB))
    obtain ⟨ds1, ds', rfl, hd1⟩ : ∃ ds1 ds', ds = ds1 ++ ds' ∧ qs.length = ds1.length :=
      ⟨ds.take oc, ds.drop oc, by simp, by rw [hq, List.length_take]; omega⟩
    obtain ⟨m, hchq, hchr⟩ := (mpsChain_append hd1).1 hch
    obtain ⟨d, ds2, rfl⟩ : ∃ d ds2, ds' = d :: ds2 := by
      apply List.exists_cons_of_ne_nil
      rintro rfl
      simp at hchr
    obtain ⟨n, hA, hch2⟩ := hchr
    have hsame : ∀ s, InB (ds1 ++ d :: ds2) s → psi (qs ++ A :: As2) s = psi x.data s := by
      intro s hs
      rw [psi_eq_amp hch (by simp) hs.length_eq, psi_eq_amp hx.chain hx.data_ne hs.length_eq, hamp s hs 0 (by omega) 0,
        hamp1 s hs 0 (by omega) 0]
    have hnz' : ∃ s, InB (ds1 ++ d :: ds2) s ∧ psi (qs ++ A :: As2) s ≠ 0 := by
      obtain ⟨s, hs, hne⟩ := hnz
      exact ⟨s, hs, by rwa [hsame s hs]⟩
    obtain ⟨hn0, hps, hbr⟩ := normalise_center hchq hA hch2 his hi2 hnz'
    have hget : pyGet (qs ++ A :: As2) oc = .ok A := by simp [pyGet, ← hq]
    refine ⟨{ x with data := qs ++ A.smul ((ndNorm A : ℂ)⁻¹) :: As2, norm_ := some (scalarND (ndNorm A : ℂ)), orthogonal := true, oc := some oc }, qs, A.smul ((ndNorm A : ℂ)⁻¹), As2, ndNorm A, ndNorm A, ?_,
        ⟨(mpsChain_append hchq.length_eq).2 ⟨m, hchq, n, hA, hch2⟩, hx.ne, hx.len, hx.d⟩, ?_, rfl, hq,
        his, hi2, rfl, rfl, rfl, hn0, hbr, by exact_mod_cast hn0.ne', ?_, fun _ => rfl, by omega⟩
    · rw [hright, ok_bind, hleft, ok_bind, hget, ok_bind]
      simp [← hq]
    · rw [PosDims.append, PosDims.cons] at hpd
      exact PosDims.append.2 ⟨hpd.1, PosDims.cons.2 ⟨hpd.2.1, hpd.2.2⟩⟩
    · intro s hs
      rw [← hsame s hs, hps s hs]


/-- **C15 fails at `oc = 0`**: the state `(2, 0)` of one site has norm 2, but after
`mixed_orthogonalise(0)` the attribute `norm_` is 1 and `norm_` times the new state is not the old
state, whatever factorisation LAPACK returns. -/
theorem FMPS.mixedOrthogonalise_norm_lost {qr rq : ND ℂ → Py (ND ℂ × ND ℂ)} (hqr : QRLaw qr) (hrq : RQLaw rq) :
    ∃ y, (exOne [2, 0]).mixedOrthogonalise qr rq 0 = .ok y ∧ y.norm_ = some (scalarND 1) ∧
      ¬ ∀ s, InB [2] s → psi (exOne [2, 0]).data s = 1 * psi y.data s := by
  have hp : PosDims (exOne [2, 0]).data := by
    intro A hA n hn
    simp only [exOne, List.mem_singleton] at hA
    subst hA
    simp only [FMPS.column, List.mem_cons, List.length_cons, List.length_nil] at hn
    rcases hn with rfl | rfl | rfl | h
    · omega
    · omega
    · omega
    · simp at h
  obtain ⟨y, As1, A, As2, n, c, hy, -, -, -, -, -, -, -, -, hn, -, hb, -, -, -, h1⟩ :=
    FMPS.mixedOrthogonalise_spec hqr hrq (exOne_holds [2, 0]) hp ⟨[0], by simp [InB], by rw [exOne_psi]; simp⟩ (oc := 0) (by simp)
  refine ⟨y, hy, by rw [hn, h1 rfl]; simp, fun h => ?_⟩
  have e : braket [2] (exOne [2, 0]).data (exOne [2, 0]).data = braket [2] y.data y.data := by
    refine sumIdx_congr fun s hs => ?_
    rw [h s hs, one_mul]
  rw [show ([2, 0] : List ℂ).length = 2 from rfl] at hb
  rw [hb] at e
  simp only [braket, sumIdx_cons, sumIdx_nil, exOne_psi, Finset.sum_range_succ, Finset.sum_range_zero] at e
  norm_num at e

theorem exTwo_pos (c : ℂ) : PosDims (exTwo c).data := by
  intro A hA n hn
  simp only [exTwo, exData, List.mem_cons, List.not_mem_nil, or_false] at hA
  rcases hA with rfl | rfl <;> simp at hn <;> omega

example {qr : ND ℂ → Py (ND ℂ × ND ℂ)} (hqr : QRLaw qr) := FMPS.leftOrthogonalise_spec hqr (exTwo_holds 2) (exTwo_pos 2)
example {rq : ND ℂ → Py (ND ℂ × ND ℂ)} (hrq : RQLaw rq) := FMPS.rightOrthogonalise_spec hrq (exTwo_holds 2) (exTwo_pos 2)
example : ∃ qr rq : ND ℂ → Py (ND ℂ × ND ℂ), QRLaw qr ∧ RQLaw rq :=
  ⟨_, _, qrLaw_exists.choose_spec, rqLaw_exists.choose_spec⟩

end Xmps
