import Verif.Model.IvMps
import Verif.Spec.IvMps
import Verif.Props.ImpsExpect

/-!
# The Vidal form of an infinite MPS (C82, C83)
-/

namespace Xmps

open Finset Matrix Spec ImpsCore ComplexOrder

variable {arn : ND ℂ → Py (ℝ × ND ℂ)} {chol : ND ℂ → Py (ND ℂ)} {svd : ND ℂ → Py (ND ℂ × List ℝ × ND ℂ)}
  {inv : ND ℂ → Py (ND ℂ)} {d D : ℕ}

/-- Functions with the contract of the eigensolver exist. -/
theorem arnLaw_exists : ∃ arn, ArnLaw arn := by
  classical
  let P : ND ℂ → ℕ → ℕ → ND ℂ → ND ℂ → ND ℂ → ℝ → Prop := fun M d D B l r eta =>
    0 < D ∧ IsTransfer d D B M ∧ FixedPoints d D B l r eta ∧ SimpleRight d D B eta
  refine ⟨fun M => if h : ∃ q : ℕ × ℕ × ND ℂ × ND ℂ × ND ℂ × ℝ, P M q.1 q.2.1 q.2.2.1 q.2.2.2.1 q.2.2.2.2.1 q.2.2.2.2.2 then
    .ok (h.choose.2.2.2.2.2, ⟨[h.choose.2.1 * h.choose.2.1, 1], fun
      | [i, _] => h.choose.2.2.2.2.1.val [i / h.choose.2.1, i % h.choose.2.1]
      | _ => 0⟩) else .error .exception, ?_⟩
  intro d D B M l r eta hD hM hf hs
  have h : ∃ q : ℕ × ℕ × ND ℂ × ND ℂ × ND ℂ × ℝ, P M q.1 q.2.1 q.2.2.1 q.2.2.2.1 q.2.2.2.2.1 q.2.2.2.2.2 := ⟨(d, D, B, l, r, eta), hD, hM, hf, hs⟩
  obtain ⟨d', D', B', l', r', eta', hq⟩ : ∃ d' D' B' l' r' eta', h.choose = (d', D', B', l', r', eta') := ⟨_, _, _, _, _, _, rfl⟩
  have hP := h.choose_spec
  rw [hq] at hP
  obtain ⟨hD', hM', hf', hs'⟩ := hP
  dsimp only at hD' hM' hf' hs'
  have eD : D' = D := by
    have h1 := hM.1.symm.trans hM'.1
    simp only [List.cons.injEq, and_true] at h1
    exact (Nat.pow_left_injective (n := 2) (by norm_num) h1.1).symm
  subst eD
  -- the two maps are the same
  have hmap : ∀ X : Matrix (Fin D') (Fin D') ℂ, ∑ s ∈ range d', toM3 D' D' B' s * X * (toM3 D' D' B' s)ᴴ =
      ∑ s ∈ range d, toM3 D' D' B s * X * (toM3 D' D' B s)ᴴ := by
    intro X
    have gen : ∀ (d : ℕ) (B : ND ℂ), IsTransfer d D' B M → ∀ a a' : Fin D', (∑ s ∈ range d, toM3 D' D' B s * X * (toM3 D' D' B s)ᴴ) a a' =
        ∑ b' : Fin D', ∑ b : Fin D', M.val [a * D' + a', b * D' + b'] * X b b' := by
      intro d B hB a a'
      simp only [Matrix.sum_apply, Matrix.mul_apply, conjTranspose_apply, toM3_apply, Finset.sum_mul]
      rw [Finset.sum_comm]
      refine sum_congr rfl fun b' _ => ?_
      rw [Finset.sum_comm]
      refine sum_congr rfl fun b _ => ?_
      rw [hB.2 a a.2 a' a'.2 b b.2 b' b'.2, Finset.sum_mul]
      exact sum_congr rfl fun s _ => by ring
    ext a a'
    rw [gen d' B' hM' a a', gen d B hM a a']
  have hadj : ∀ X : Matrix (Fin D') (Fin D') ℂ, ((toM D' D' l)ᵀ * ∑ s ∈ range d, toM3 D' D' B s * X * (toM3 D' D' B s)ᴴ).trace =
      eta * ((toM D' D' l)ᵀ * X).trace := by
    intro X
    have h1 := congrArg transpose hf.left
    rw [transpose_sum, transpose_smul] at h1
    have h2 : ∑ s ∈ range d, (toM3 D' D' B s)ᴴ * (toM D' D' l)ᵀ * toM3 D' D' B s = (eta : ℂ) • (toM D' D' l)ᵀ := by
      rw [← h1]
      refine sum_congr rfl fun s _ => ?_
      rw [transpose_mul, transpose_mul, transpose_transpose, IMPS.map_star_transpose, Matrix.mul_assoc]
    have h3 : ((eta : ℂ) • (toM D' D' l)ᵀ * X).trace = eta * ((toM D' D' l)ᵀ * X).trace := by
      rw [Matrix.smul_mul, trace_smul, smul_eq_mul]
    rw [← h3, ← h2, Finset.sum_mul, Finset.mul_sum, trace_sum, trace_sum]
    refine sum_congr rfl fun s _ => ?_
    rw [← Matrix.mul_assoc, Matrix.trace_mul_comm]
    simp only [Matrix.mul_assoc]
  obtain ⟨t, ht0, htr⟩ := trace_pos hD hf.pos_l.transpose hf'.pos_r
  have eE : eta' = eta := by
    have h1 := hadj (toM D' D' r')
    rw [← hmap, hf'.right, Matrix.mul_smul, trace_smul, htr, smul_eq_mul, ← Complex.ofReal_mul, ← Complex.ofReal_mul] at h1
    exact mul_right_cancel₀ ht0.ne' (Complex.ofReal_injective h1)
  subst eE
  obtain ⟨c, hc⟩ := hs (toM D' D' r') (toM D' D' r) (by rw [← hmap]; exact hf'.right) hf.right (by
    intro h0
    have hu := hf.pos_r.isUnit
    rw [h0] at hu
    haveI : Nonempty (Fin D') := ⟨⟨0, hD⟩⟩
    exact not_isUnit_zero hu)
  -- the factor is positive
  obtain ⟨t', ht0', htr'⟩ := trace_pos hD hf.pos_l.transpose hf.pos_r
  have hcr : c = ((t / t' : ℝ) : ℂ) := by
    rw [hc, Matrix.mul_smul, trace_smul, htr', smul_eq_mul] at htr
    have : (t' : ℂ) ≠ 0 := by exact_mod_cast ht0'.ne'
    push_cast
    field_simp
    exact htr
  refine ⟨⟨[D' * D', 1], fun
      | [i, _] => r'.val [i / D', i % D']
      | _ => 0⟩, c, (dif_pos h).trans (by rw [hq]), rfl, ?_, ?_⟩
  · rw [hcr, Complex.ofReal_re]
    exact (div_pos ht0 ht0').ne'
  · intro a ha b hb
    show r'.val [(a * D' + b) / D', (a * D' + b) % D'] = c * r.val [a, b]
    rw [mul_comm a D', Nat.mul_add_div hD, Nat.div_eq_of_lt hb, add_zero, Nat.mul_add_mod, Nat.mod_eq_of_lt hb]
    have := congrFun (congrFun hc ⟨a, ha⟩) ⟨b, hb⟩
    exact this

/-- a degenerate eigenvalue is degenerate on both sides -/
theorem simpleRight_of_left (hD : 0 < D) {A l r : ND ℂ} {eta : ℝ} (hf : FixedPoints d D A l r eta) (hs : SimpleLeft d D A eta) :
    SimpleRight d D A eta := by
  let E : Matrix (Fin D) (Fin D) ℂ → Matrix (Fin D) (Fin D) ℂ := fun K => ∑ s ∈ range d, (toM3 D D A s)ᴴ * K * toM3 D D A s
  let E' : Matrix (Fin D) (Fin D) ℂ → Matrix (Fin D) (Fin D) ℂ := fun X => ∑ s ∈ range d, toM3 D D A s * X * (toM3 D D A s)ᴴ
  have hadj : ∀ K X, (E K * X).trace = (K * E' X).trace := by
    intro K X
    show ((∑ s ∈ range d, (toM3 D D A s)ᴴ * K * toM3 D D A s) * X).trace = (K * ∑ s ∈ range d, toM3 D D A s * X * (toM3 D D A s)ᴴ).trace
    rw [Finset.sum_mul, Finset.mul_sum, trace_sum, trace_sum]
    refine sum_congr rfl fun s _ => ?_
    rw [Matrix.mul_assoc, Matrix.mul_assoc, Matrix.trace_mul_comm]
    simp only [Matrix.mul_assoc]
  have hr : E' (toM D D r) = (eta : ℂ) • toM D D r := hf.right
  have hl : E (toM D D l)ᵀ = (eta : ℂ) • (toM D D l)ᵀ := by
    have h1 := congrArg transpose hf.left
    rw [transpose_sum, transpose_smul] at h1
    rw [← h1]
    refine sum_congr rfl fun s _ => ?_
    rw [transpose_mul, transpose_mul, transpose_transpose, IMPS.map_star_transpose, Matrix.mul_assoc]
  obtain ⟨t, ht0, htr⟩ := trace_pos hD hf.pos_l.transpose hf.pos_r
  have htr0 : ((toM D D l)ᵀ * toM D D r).trace ≠ 0 := by
    rw [htr]
    exact_mod_cast ht0.ne'
  have hl0 : (toM D D l)ᵀ ≠ 0 := by
    intro h0
    rw [h0, Matrix.zero_mul, trace_zero] at htr0
    exact htr0 rfl
  let f : Matrix (Fin D) (Fin D) ℂ →ₗ[ℂ] Matrix (Fin D) (Fin D) ℂ :=
    { toFun := fun K => (eta : ℂ) • K - E K + (K * toM D D r).trace • (toM D D l)ᵀ
      map_add' := fun K K' => by
        simp only [E, Matrix.mul_add, Matrix.add_mul, Finset.sum_add_distrib, trace_add, add_smul, smul_add]
        abel
      map_smul' := fun c K => by
        simp only [E, Matrix.mul_smul, Matrix.smul_mul, ← Finset.smul_sum, trace_smul, smul_add, smul_sub, smul_smul, RingHom.id_apply, smul_eq_mul,
          mul_comm c] }
  have hfi : Function.Injective f := by
    rw [← LinearMap.ker_eq_bot, LinearMap.ker_eq_bot']
    intro K hK
    have hK' : (eta : ℂ) • K - E K + (K * toM D D r).trace • (toM D D l)ᵀ = 0 := hK
    have h1 := congrArg (fun M => (M * toM D D r).trace) hK'
    simp only [Matrix.add_mul, Matrix.sub_mul, trace_add, trace_sub, hadj, hr, Matrix.smul_mul, Matrix.mul_smul, trace_smul, Matrix.zero_mul, trace_zero,
      sub_self, zero_add, smul_eq_mul] at h1
    have ht := (mul_eq_zero.1 h1).resolve_right htr0
    rw [ht, zero_smul, add_zero, sub_eq_zero] at hK'
    obtain ⟨c, hc⟩ := hs K (toM D D l)ᵀ hK'.symm hl hl0
    rw [hc, Matrix.smul_mul, trace_smul, smul_eq_mul] at ht
    rw [hc, (mul_eq_zero.1 ht).resolve_right htr0, zero_smul]
  have hzero : ∀ X, E' X = (eta : ℂ) • X → ((toM D D l)ᵀ * X).trace = 0 → X = 0 := by
    intro X hX ht
    have hall : ∀ Y, (Y * X).trace = 0 := by
      intro Y
      obtain ⟨K, rfl⟩ := LinearMap.injective_iff_surjective.1 hfi Y
      show (((eta : ℂ) • K - E K + (K * toM D D r).trace • (toM D D l)ᵀ) * X).trace = 0
      rw [Matrix.add_mul, Matrix.sub_mul, trace_add, trace_sub, hadj, hX, Matrix.smul_mul, Matrix.smul_mul, Matrix.mul_smul, trace_smul, trace_smul, ht]
      simp
    exact Matrix.trace_conjTranspose_mul_self_eq_zero_iff.1 (hall Xᴴ)
  intro M N hM hN h0
  have hN0 : ((toM D D l)ᵀ * N).trace ≠ 0 := fun h => h0 (hzero N hN h)
  refine ⟨((toM D D l)ᵀ * M).trace / ((toM D D l)ᵀ * N).trace, ?_⟩
  rw [← sub_eq_zero]
  refine hzero _ ?_ ?_
  · show ∑ s ∈ range d, toM3 D D A s * _ * (toM3 D D A s)ᴴ = _
    simp only [Matrix.mul_sub, Matrix.sub_mul, Matrix.mul_smul, Matrix.smul_mul, Finset.sum_sub_distrib, ← Finset.smul_sum, smul_sub]
    rw [hM, hN, smul_comm (eta : ℂ)]
  · rw [Matrix.mul_sub, trace_sub, Matrix.mul_smul, trace_smul, smul_eq_mul, div_mul_cancel₀ _ hN0, sub_self]

namespace IvMPS

/-- `swapaxes(dot(L, G), 0, 1)` -/
theorem dotLG {L G : ND ℂ} (hL : L.shape = [D, D]) (hG : G.shape = [d, D, D]) : ∃ P Q, L.tensordot G [1] [1] = .ok P ∧ P.shape = [D, d, D] ∧
    P.transpose [1, 0, 2] = .ok Q ∧ Q.shape = [d, D, D] ∧ (∀ a s b, P.val [a, s, b] = ∑ c ∈ range D, L.val [a, c] * G.val [s, c, b]) ∧
    ∀ s, toM3 D D Q s = toM D D L * toM3 D D G s := by
  obtain ⟨P, p1, p2, p3⟩ : ∃ P, L.tensordot G [1] [1] = .ok P ∧ P.shape = [D, d, D] ∧
      ∀ a s b, P.val [a, s, b] = ∑ c ∈ range D, L.val [a, c] * G.val [s, c, b] := by
    refine ⟨L.tensordotR G [1] [1], by simp [ND.tensordot, ND.rank, ND.dim, hL, hG], ?_, fun a s b => ?_⟩ <;>
    simp [ND.tensordotR, ND.transposeR, ND.rank, ND.others, ND.dim, hG, hL, List.range_succ]
  refine ⟨P, P.transposeR [1, 0, 2], p1, p2, ND.transpose_ok (by rw [ND.rank, p2]; exact (by decide : [1, 0, 2].Perm (List.range 3))), ?_, p3, ?_⟩
  · simp [ND.transposeR, ND.dim, p2]
  · intro s
    ext a b
    have : (P.transposeR [1, 0, 2]).val [s, a, b] = P.val [a, s, b] := by simp [ND.transposeR, ND.rank, p2, List.range_succ]
    rw [toM3_apply, this, p3, Matrix.mul_apply, Finset.sum_range]
    rfl

/-- `dot` of an array of rank 3 and a matrix, the first leg not being the site -/
theorem dotT {P M : ND ℂ} (hP : P.shape = [D, d, D]) (hM : M.shape = [D, D]) : ∃ Q, P.tensordot M [2] [0] = .ok Q ∧ Q.shape = [D, d, D] ∧
    ∀ a s b, Q.val [a, s, b] = ∑ c ∈ range D, P.val [a, s, c] * M.val [c, b] := by
  refine ⟨P.tensordotR M [2] [0], by simp [ND.tensordot, ND.rank, ND.dim, hP, hM], ?_, fun s a b => ?_⟩ <;>
  simp [ND.tensordotR, ND.transposeR, ND.rank, ND.others, ND.dim, hP, hM, List.range_succ]

theorem swap01 {P : ND ℂ} (hP : P.shape = [D, d, D]) : ∃ Q, P.transpose [1, 0, 2] = .ok Q ∧ Q.shape = [d, D, D] ∧
    ∀ s a b, Q.val [s, a, b] = P.val [a, s, b] := by
  refine ⟨P.transposeR [1, 0, 2], ND.transpose_ok (by rw [ND.rank, hP]; exact (by decide : [1, 0, 2].Perm (List.range 3))), ?_, fun s a b => ?_⟩
  · simp [ND.transposeR, ND.dim, hP]
  · simp [ND.transposeR, ND.rank, hP, List.range_succ]

theorem transfer4_ok {B : ND ℂ} (hB : B.shape = [d, D, D]) : ∃ T, transfer4 B = .ok T ∧ T.shape = [D, D, D, D] ∧
    ∀ a a' b b', T.val [a, a', b, b'] = ∑ s ∈ range d, B.val [s, a, b] * star (B.val [s, a', b']) := by
  have hC : B.conj.shape = [d, D, D] := hB
  have hCv : ∀ i, B.conj.val i = star (B.val i) := fun _ => rfl
  obtain ⟨Bc, hBc⟩ : ∃ Bc, Bc = B.conj := ⟨_, rfl⟩
  rw [← hBc] at hC hCv
  obtain ⟨P, p1, p2, p3⟩ : ∃ P, B.tensordot Bc [0] [0] = .ok P ∧ P.shape = [D, D, D, D] ∧
      ∀ a b a' b', P.val [a, b, a', b'] = ∑ s ∈ range d, B.val [s, a, b] * Bc.val [s, a', b'] := by
    refine ⟨B.tensordotR Bc [0] [0], by simp [ND.tensordot, ND.rank, ND.dim, hB, hC], ?_, fun a b a' b' => ?_⟩ <;>
    simp [ND.tensordotR, ND.transposeR, ND.rank, ND.others, ND.dim, hB, hC, List.range_succ]
  refine ⟨P.transposeR [0, 2, 1, 3], ?_, ?_, ?_⟩
  · unfold transfer4
    rw [← hBc, p1, ok_bind]
    exact ND.transpose_ok (by rw [ND.rank, p2]; exact (by decide : [0, 2, 1, 3].Perm (List.range 4)))
  · simp [ND.transposeR, ND.dim, p2]
  · intro a a' b b'
    have : (P.transposeR [0, 2, 1, 3]).val [a, a', b, b'] = P.val [a, b, a', b'] := by simp [ND.transposeR, ND.rank, p2, List.range_succ]
    rw [this, p3]
    simp only [hCv]

theorem legs4_ok {B T : ND ℂ} (hT : T.shape = [D, D, D, D])
    (hv : ∀ a a' b b', T.val [a, a', b, b'] = ∑ s ∈ range d, B.val [s, a, b] * star (B.val [s, a', b'])) :
    ∃ M, legs4 T = .ok (D, M) ∧ IsTransfer d D B M := by
  have hd : T.dim 0 = D := by simp [ND.dim, hT]
  refine ⟨T.reshapeR [D ^ 2, D ^ 2], ?_, rfl, ?_⟩
  · unfold legs4
    rw [hd]
    rw [show (T.shape.all fun x => x == D) = true by simp [hT], show (T.shape.length == 4) = true by simp [hT], guardPy_true, ok_bind, ok_bind]
    dsimp only
    rw [ND.reshape_ok_any (by simp [hT]; ring), ok_bind]
  · intro a ha a' ha' b hb b' hb'
    rw [← hv]
    refine ND.reshapeR_val_any ?_ ?_
    · rw [hT]
      exact ⟨ha, ha', hb, hb', trivial⟩
    · rw [hT]
      simp [ravel]
      ring

theorem rEig_ok (harn : ArnLaw arn) (hD : 0 < D) {B T l r : ND ℂ} {eta : ℝ} (hf : FixedPoints d D B l r eta) (hs : SimpleRight d D B eta)
    (hT : T.shape = [D, D, D, D]) (hv : ∀ a a' b b', T.val [a, a', b, b'] = ∑ s ∈ range d, B.val [s, a, b] * star (B.val [s, a', b'])) :
    ∃ r', ∃ c : ℝ, rEigenmatrix arn T = .ok (eta, r') ∧ r'.shape = [D, D] ∧ 0 < c ∧ toM D D r' = (c : ℂ) • toM D D r := by
  obtain ⟨M, e1, hM⟩ := legs4_ok hT hv
  obtain ⟨v, z, e2, sv, hz, hvz⟩ := harn d D B M l r eta hD hM hf hs
  obtain ⟨w, e3, sw, hw⟩ := IMPS.rotate_ok hD sv hf.shape_r hf.pos_r hz hvz
  refine ⟨_, ‖z‖, ?_, sw, norm_pos_iff.2 fun e => hz (by rw [e]; rfl), hw⟩
  unfold rEigenmatrix
  simp only [e1, ok_bind, e2, e3]

theorem lEig_ok (harn : ArnLaw arn) (hD : 0 < D) {B T l r : ND ℂ} {eta : ℝ} (hf : FixedPoints d D B l r eta) (hs : SimpleLeft d D B eta)
    (hT : T.shape = [D, D, D, D]) (hv : ∀ a a' b b', T.val [a, a', b, b'] = ∑ s ∈ range d, B.val [s, a, b] * star (B.val [s, a', b'])) :
    ∃ l', ∃ c : ℝ, lEigenmatrix arn T = .ok (eta, l') ∧ l'.shape = [D, D] ∧ 0 < c ∧ toM D D l' = (c : ℂ) • toM D D l := by
  obtain ⟨M, e1, hM⟩ := legs4_ok hT hv
  obtain ⟨hs3, hv3⟩ := hc3 hf.shape
  have hB : ∀ s, toM3 D D B.hc s = (toM3 D D B s)ᴴ := by
    intro s
    ext i j
    rw [toM3_apply, hv3]
    rfl
  have hlT := toM_tr hf.shape_l
  have hrT := toM_tr hf.shape_r
  have hf' : FixedPoints d D B.hc r.tr l.tr eta := by
    refine ⟨hs3, hrT.1, hlT.1, hf.eta_pos, ?_, ?_, ?_, ?_⟩
    · rw [hlT.2]
      have := congrArg transpose hf.left
      rw [transpose_sum, transpose_smul] at this
      rw [← this]
      refine sum_congr rfl fun s _ => ?_
      rw [hB, conjTranspose_conjTranspose, transpose_mul, transpose_mul, transpose_transpose, IMPS.map_star_transpose, Matrix.mul_assoc]
    · rw [hrT.2]
      have := congrArg transpose hf.right
      rw [transpose_sum, transpose_smul] at this
      rw [← this]
      refine sum_congr rfl fun s _ => ?_
      rw [hB, transpose_mul, transpose_mul, Matrix.mul_assoc]
      congr 2
      ext i j
      simp
    · rw [hrT.2]
      exact hf.pos_r.transpose
    · rw [hlT.2]
      exact hf.pos_l.transpose
  have hs' : SimpleRight d D B.hc eta := by
    intro M N hM hN h0
    simp only [hB, conjTranspose_conjTranspose] at hM hN
    exact hs M N hM hN h0
  have hM' : IsTransfer d D B.hc M.hc := by
    refine ⟨by simp [ND.hc, hM.1], ?_⟩
    intro a ha a' ha' b hb b' hb'
    have : M.hc.val [a * D + a', b * D + b'] = star (M.val [b * D + b', a * D + a']) := by simp [ND.hc, hM.1]
    rw [this, hM.2 b hb b' hb' a ha a' ha', star_sum]
    refine sum_congr rfl fun s _ => ?_
    rw [hv3, hv3, star_mul']
  obtain ⟨v, z, e2, sv, hz, hvz⟩ := harn d D B.hc M.hc r.tr l.tr eta hD hM' hf' hs'
  obtain ⟨w, e3, sw, hw⟩ := IMPS.rotate_ok hD sv hf'.shape_r hf'.pos_r hz hvz
  refine ⟨((rotateToHermitian w).smul (npSign (v.val [0, 0]))⁻¹).conj, ‖z‖, ?_, sw, norm_pos_iff.2 fun e => hz (by rw [e]; rfl), ?_⟩
  · unfold lEigenmatrix
    simp only [e1, ok_bind, e2, e3]
  · have hh : (toM D D l)ᴴ = toM D D l := hf.pos_l.isHermitian
    have h1 : ∀ W : ND ℂ, toM D D W.conj = (toM D D W).map star := fun _ => rfl
    rw [h1, hw, hlT.2]
    ext i j
    rw [Matrix.map_apply, Matrix.smul_apply, Matrix.smul_apply, smul_eq_mul, smul_eq_mul, star_mul', Complex.star_def, Complex.conj_ofReal]
    congr 1
    have := congrFun (congrFun hh i) j
    rw [← this]
    rfl

/-- the calls of `canonicalise` -/
theorem canonicalise_ok (harn : ArnLaw arn) (hchol : CholLaw chol) (hsvd : SVDLaw svd) (hinv : InvLaw inv) (hD : 0 < D) {x : IvMPS}
    {A l r : ND ℂ} {lam : List ℝ} {eta : ℝ} (hG : x.G.shape = [d, D, D]) (hL : DiagReal x.L lam) (hlen : lam.length = D) (hpos : ∀ y ∈ lam, 0 < y)
    (hA : x.toIMPS = .ok ⟨A, none, none, none⟩) (hf : FixedPoints d D A l r eta) (hsl : SimpleLeft d D A eta) :
    ∃ x' lam', ∃ c c' ll : ℝ, ∃ g gi k ki : Matrix (Fin D) (Fin D) ℂ, canonicalise arn chol svd inv x = .ok x' ∧ IMPS.VidalForm d D x'.G x'.L lam' ∧
      0 < c ∧ 0 < c' ∧ 0 < ll ∧ (((c : ℂ) • toM D D l)ᵀ * ((c' : ℂ) • toM D D r)).trace = ll ∧ g * gi = 1 ∧
      (∀ s, toM3 D D x'.G s * toM D D x'.L = (((Real.sqrt eta)⁻¹ : ℝ) : ℂ) • (g * toM3 D D A s * gi)) ∧
      k * ki = 1 ∧ (∀ s, toM D D x'.L * toM3 D D x'.G s = (((Real.sqrt eta)⁻¹ : ℝ) : ℂ) • (k * toM3 D D A s * ki)) ∧
      gi * giᴴ = (c' : ℂ) • toM D D r ∧ gᴴ * (toM D D x'.L * toM D D x'.L) * g = (ll⁻¹ : ℂ) • ((c : ℂ) • toM D D l)ᵀ := by
  have hsr := simpleRight_of_left hD hf hsl
  have hLs : x.L.shape = [D, D] := by rw [hL.1, hlen]
  -- the diagonal matrix and its inverse
  set Λ := toM D D x.L with hΛ
  have hΛd : Λ = dS fun i : Fin D => lam.getD i 0 := by
    ext i j
    rw [hΛ, toM_apply, hL.2 i (by rw [hlen]; exact i.2) j (by rw [hlen]; exact j.2), dS, diagonal_apply]
    simp only [Fin.ext_iff]
  have hgp : ∀ i : Fin D, 0 < lam.getD i 0 := by
    intro i
    rw [List.getD_eq_getElem _ _ (by rw [hlen]; exact i.2)]
    exact hpos _ (List.getElem_mem _)
  obtain ⟨Λi, hΛi⟩ : ∃ Λi, Λi = dS fun i : Fin D => (lam.getD i 0)⁻¹ := ⟨_, rfl⟩
  have h1 : Λ * Λi = 1 := by
    rw [hΛd, hΛi, dS, dS, diagonal_mul_diagonal, ← diagonal_one]
    congr 1
    funext i
    rw [← Complex.ofReal_mul, mul_inv_cancel₀ (hgp i).ne', Complex.ofReal_one]
  have h1' : Λi * Λ = 1 := mul_eq_one_comm.1 h1
  have hΛh : Λᴴ = Λ := by rw [hΛd, dS_herm]
  have hΛt : Λᵀ = Λ := by rw [hΛd, dS, diagonal_transpose]
  have hΛs : Λ.map star = Λ := by
    rw [show Λ.map star = (Λᴴ)ᵀ from rfl, hΛh, hΛt]
  have hΛit : Λiᵀ = Λi := by rw [hΛi, dS, diagonal_transpose]
  have hΛih : Λiᴴ = Λi := by rw [hΛi, dS_herm]
  have hΛu : IsUnit Λ := ⟨⟨Λ, Λi, h1, h1'⟩, rfl⟩
  have hΛiu : IsUnit Λi := ⟨⟨Λi, Λ, h1', h1⟩, rfl⟩
  -- the tensors
  obtain ⟨GA, g1, g2, g3⟩ := IMPS.dot3 hG hLs
  have hGA : GA = A := by
    unfold toIMPS at hA
    rw [g1, ok_bind] at hA
    injection hA with hA
    exact congrArg IMPS.A hA
  subst hGA
  have hGLm : ∀ s, toM3 D D GA s = toM3 D D x.G s * Λ := by
    intro s
    ext a b
    rw [toM3_apply, g3, Matrix.mul_apply, Finset.sum_range]
    rfl
  obtain ⟨P, LG, p1, p2, p3, p4, -, p6⟩ := dotLG hLs hG
  rw [← hΛ] at p6
  obtain ⟨TL, tl1, tl2, tl3⟩ := transfer4_ok p4
  obtain ⟨TR, tr1, tr2, tr3⟩ := transfer4_ok g2
  -- fixed points of the other tensor
  have hmapmul : ∀ X Y : Matrix (Fin D) (Fin D) ℂ, (X * Y).map star = X.map star * Y.map star := by
    intro X Y
    ext i j
    simp [Matrix.mul_apply]
  have hfL : FixedPoints d D LG (ofM (Λi * toM D D l * Λi)) (ofM (Λ * toM D D r * Λ)) eta := by
    refine ⟨p4, rfl, rfl, hf.eta_pos, ?_, ?_, ?_, ?_⟩
    · rw [toM_ofM]
      have h2 := hf.right
      have h3 : ∑ s ∈ range d, toM3 D D LG s * (Λ * toM D D r * Λ) * (toM3 D D LG s)ᴴ =
          Λ * (∑ s ∈ range d, toM3 D D GA s * toM D D r * (toM3 D D GA s)ᴴ) * Λ := by
        rw [Finset.mul_sum, Finset.sum_mul]
        refine sum_congr rfl fun s _ => ?_
        rw [p6, hGLm, conjTranspose_mul, conjTranspose_mul, hΛh]
        simp only [Matrix.mul_assoc]
      rw [h3, h2, Matrix.mul_smul, Matrix.smul_mul]
    · rw [toM_ofM]
      have h2 := hf.left
      have h3 : ∑ s ∈ range d, (toM3 D D LG s)ᵀ * (Λi * toM D D l * Λi) * (toM3 D D LG s).map star =
          Λi * (∑ s ∈ range d, (toM3 D D GA s)ᵀ * toM D D l * (toM3 D D GA s).map star) * Λi := by
        rw [Finset.mul_sum, Finset.sum_mul]
        refine sum_congr rfl fun s _ => ?_
        have e1 : (toM3 D D x.G s)ᵀ * (Λ * (Λi * toM D D l * Λi) * Λ) * (toM3 D D x.G s).map star =
            (toM3 D D x.G s)ᵀ * toM D D l * (toM3 D D x.G s).map star := by
          rw [show Λ * (Λi * toM D D l * Λi) * Λ = (Λ * Λi) * toM D D l * (Λi * Λ) by simp only [Matrix.mul_assoc], h1, h1', Matrix.one_mul, Matrix.mul_one]
        have e2 : Λi * ((toM3 D D x.G s * Λ)ᵀ * toM D D l * (toM3 D D x.G s * Λ).map star) * Λi =
            (Λi * Λ) * ((toM3 D D x.G s)ᵀ * toM D D l * (toM3 D D x.G s).map star) * (Λ * Λi) := by
          rw [transpose_mul, hmapmul, hΛt, hΛs]
          simp only [Matrix.mul_assoc]
        rw [p6, hGLm, e2, h1, h1', Matrix.one_mul, Matrix.mul_one, ← e1, transpose_mul, hmapmul, hΛt, hΛs]
        simp only [Matrix.mul_assoc]
      rw [h3, h2, Matrix.mul_smul, Matrix.smul_mul]
    · rw [toM_ofM]
      have := hf.pos_l.conjTranspose_mul_mul_same (Matrix.mulVec_injective_iff_isUnit.2 hΛiu)
      rwa [hΛih] at this
    · rw [toM_ofM]
      have := hf.pos_r.conjTranspose_mul_mul_same (Matrix.mulVec_injective_iff_isUnit.2 hΛu)
      rwa [hΛh] at this
  have hsL : SimpleLeft d D LG eta := by
    have tr : ∀ M : Matrix (Fin D) (Fin D) ℂ, ∑ s ∈ range d, (toM3 D D LG s)ᴴ * M * toM3 D D LG s = (eta : ℂ) • M →
        ∑ s ∈ range d, (toM3 D D GA s)ᴴ * (Λ * M * Λ) * toM3 D D GA s = (eta : ℂ) • (Λ * M * Λ) := by
      intro M hM
      have : ∑ s ∈ range d, (toM3 D D GA s)ᴴ * (Λ * M * Λ) * toM3 D D GA s =
          Λ * (∑ s ∈ range d, (toM3 D D LG s)ᴴ * M * toM3 D D LG s) * Λ := by
        rw [Finset.mul_sum, Finset.sum_mul]
        refine sum_congr rfl fun s _ => ?_
        rw [p6, hGLm, conjTranspose_mul, conjTranspose_mul, hΛh]
        simp only [Matrix.mul_assoc]
      rw [this, hM, Matrix.mul_smul, Matrix.smul_mul]
    have back : ∀ M : Matrix (Fin D) (Fin D) ℂ, Λi * (Λ * M * Λ) * Λi = M := by
      intro M
      rw [show Λi * (Λ * M * Λ) * Λi = (Λi * Λ) * M * (Λ * Λi) by simp only [Matrix.mul_assoc], h1, h1', Matrix.one_mul, Matrix.mul_one]
    intro M N hM hN h0
    obtain ⟨c, hc⟩ := hsl _ _ (tr M hM) (tr N hN) (by
      intro h2
      apply h0
      rw [← back N, h2, Matrix.mul_zero, Matrix.zero_mul])
    refine ⟨c, ?_⟩
    rw [← back M, hc, Matrix.mul_smul, Matrix.smul_mul, back]
  obtain ⟨vl, c, el, svl, hc, hvl⟩ := lEig_ok harn hD hfL hsL tl2 tl3
  obtain ⟨vr, c', er, svr, hc', hvr⟩ := rEig_ok harn hD hf hsr tr2 tr3
  rw [toM_ofM] at hvl
  have pvl : (toM D D vl).PosDef := by
    rw [hvl]
    have := hfL.pos_l
    rw [toM_ofM] at this
    exact this.smul (by exact_mod_cast hc)
  have pvr : (toM D D vr).PosDef := by
    rw [hvr]
    exact hf.pos_r.smul (by exact_mod_cast hc')
  obtain ⟨vlh, hvlh⟩ : ∃ v, v = vl.hc := ⟨_, rfl⟩
  have svlh : vlh.shape = [D, D] := by rw [hvlh]; simp [ND.hc, svl]
  have evlh : toM D D vlh = toM D D vl := by
    have h2 : toM D D vlh = (toM D D vl)ᴴ := by
      rw [hvlh]
      ext i j
      simp [ND.hc, svl]
    rw [h2]
    exact pvl.isHermitian
  obtain ⟨X, x1, x2, x3⟩ := hchol vr D svr pvr
  obtain ⟨Y, y1, y2, y3⟩ := hchol vlh D svlh (by rw [evlh]; exact pvl)
  obtain ⟨t1, t2⟩ := toM_tr y2
  obtain ⟨YL, m1, m2, m3⟩ := matmul22M t1 hLs
  obtain ⟨YLX, n1, n2, n3⟩ := matmul22M m2 x2
  obtain ⟨U, S, V, s1, s2, s3, s4, s5, s6, s7, s8, s9⟩ := svd_toM hsvd hD n2
  have hXu : IsUnit (toM D D X) := by
    have := pvr.isUnit
    rw [← x3] at this
    exact isUnit_of_mul_isUnit_left this
  have hYu : IsUnit (toM D D Y.tr) := by
    rw [t2]
    have := pvl.isUnit
    rw [← evlh, ← y3] at this
    exact (Matrix.isUnit_transpose _).2 (isUnit_of_mul_isUnit_left this)
  obtain ⟨Xi, i1, i2, i3⟩ := inv_toM hinv x2 hXu
  obtain ⟨Wi, w1, w2, w3⟩ := inv_toM hinv t1 hYu
  obtain ⟨VX, v1, v2, v3⟩ := matmul22M s4 i2
  obtain ⟨q1, -, k1, k2, -, -, k3, -⟩ := dotLG v2 hG
  obtain ⟨q2, k4, k5, k6⟩ := dotT k2 w2
  obtain ⟨q3, k7, k8, k9⟩ := dotT k5 s2
  obtain ⟨G', k10, k11, k12⟩ := swap01 k8
  have hG'm : ∀ s, toM3 D D G' s = toM D D V * toM D D Xi * toM3 D D x.G s * (toM D D Wi * toM D D U) := by
    intro s
    have e1 : ∀ a b, q1.val [a, s, b] = ∑ c ∈ range D, VX.val [a, c] * x.G.val [s, c, b] := fun a b => k3 a s b
    ext a b
    rw [← v3, ← Matrix.mul_assoc]
    simp only [toM3_apply, k12, k9, k6, e1, Matrix.mul_apply, toM_apply, Finset.sum_range]
  have hG0 : ∀ s, toM3 D D G' s = G0 (toM3 D D GA) (toM D D U) (toM D D V) (toM D D Xi) (Λi * toM D D Wi) s := by
    intro s
    rw [hG'm, G0, hGLm]
    have : toM D D V * toM D D Xi * (toM3 D D x.G s * Λ) * (Λi * toM D D Wi * toM D D U) =
        toM D D V * toM D D Xi * toM3 D D x.G s * ((Λ * Λi) * (toM D D Wi * toM D D U)) := by simp only [Matrix.mul_assoc]
    rw [this, h1, Matrix.one_mul]
  have hdat : Data d (toM3 D D GA) eta ((c : ℂ) • toM D D l) ((c' : ℂ) • toM D D r) (toM D D X) (Λ * toM D D Y) (toM D D U) (toM D D V) (toM D D Xi)
      (Λi * toM D D Wi) (fun i : Fin D => S.getD i 0) := by
    refine ⟨hf.eta_pos, ?_, ?_, ?_, ?_, s5, s6, ?_, ?_, i3, ?_⟩
    · simp only [Matrix.mul_smul, Matrix.smul_mul]
      rw [← Finset.smul_sum, hf.right, smul_comm]
    · have := congrArg transpose hf.left
      rw [transpose_sum, transpose_smul] at this
      rw [transpose_smul, smul_comm, ← this, Finset.smul_sum]
      refine sum_congr rfl fun s _ => ?_
      rw [transpose_mul, transpose_mul, transpose_transpose, IMPS.map_star_transpose, Matrix.mul_smul, Matrix.smul_mul, Matrix.mul_assoc]
    · rw [x3, hvr]
    · rw [conjTranspose_mul, hΛh, show Λ * toM D D Y * ((toM D D Y)ᴴ * Λ) = Λ * (toM D D Y * (toM D D Y)ᴴ) * Λ by simp only [Matrix.mul_assoc], y3, evlh, hvl,
        Matrix.mul_smul, Matrix.smul_mul, show Λ * (Λi * toM D D l * Λi) * Λ = (Λ * Λi) * toM D D l * (Λi * Λ) by simp only [Matrix.mul_assoc], h1, h1',
        Matrix.one_mul, Matrix.mul_one]
    · intro i
      refine s7 _ ?_
      rw [List.getD_eq_getElem _ _ (by rw [s3]; exact i.2)]
      exact List.getElem_mem _
    · rw [transpose_mul, hΛt, ← t2, ← m3, ← n3]
      exact s9
    · rw [transpose_mul, hΛt, ← t2, show Λi * toM D D Wi * (toM D D Y.tr * Λ) = Λi * (toM D D Wi * toM D D Y.tr) * Λ by simp only [Matrix.mul_assoc], w3,
        Matrix.mul_one, h1']
  -- the second eigenvalue
  obtain ⟨Ld, hLd⟩ : ∃ Ld, Ld = diagND (S.map fun s : ℝ => (s : ℂ)) := ⟨_, rfl⟩
  have hLds : Ld.shape = [D, D] := by rw [hLd]; exact (toM_diag _ (by simpa using s3)).1
  have hLdm : toM D D Ld = dS (fun i : Fin D => S.getD i 0) := by
    rw [hLd, (toM_diag (n := D) _ (by simpa using s3)).2, dS]
    congr 1
    funext i
    rw [List.getD_eq_getElem _ _ (by rw [List.length_map, s3]; exact i.2), List.getElem_map, List.getD_eq_getElem _ _ (by rw [s3]; exact i.2)]
  obtain ⟨B', b1, b2, b3⟩ := IMPS.dot3 k11 hLds
  have hB'm : ∀ s, toM3 D D B' s = G0 (toM3 D D GA) (toM D D U) (toM D D V) (toM D D Xi) (Λi * toM D D Wi) s * dS (fun i : Fin D => S.getD i 0) := by
    intro s
    rw [← hG0, ← hLdm]
    ext a b
    rw [toM3_apply, b3, Matrix.mul_apply, Finset.sum_range]
    rfl
  obtain ⟨T2, u1, u2, u3⟩ := transfer4_ok b2
  have hfB : FixedPoints d D B' (ofM (dS (fun i : Fin D => S.getD i 0) * dS (fun i : Fin D => S.getD i 0))) (ofM (1 : Matrix (Fin D) (Fin D) ℂ)) eta := by
    refine ⟨b2, rfl, rfl, hf.eta_pos, ?_, ?_, ?_, ?_⟩
    · rw [toM_ofM, ← hdat.right_canonical]
      refine sum_congr rfl fun s _ => ?_
      rw [hB'm, Matrix.mul_one]
    · rw [toM_ofM]
      have hl2 := hdat.left_canonical
      set Sd := dS (fun i : Fin D => S.getD i 0) with hSd
      have hSt : Sdᵀ = Sd := by rw [hSd, dS, diagonal_transpose]
      have h2 : ∑ s ∈ range d, (toM3 D D B' s)ᴴ * (Sd * Sd) * toM3 D D B' s = (eta : ℂ) • (Sd * Sd) := by
        have : ∑ s ∈ range d, (toM3 D D B' s)ᴴ * (Sd * Sd) * toM3 D D B' s = Sd * (∑ s ∈ range d,
            (Sd * G0 (toM3 D D GA) (toM D D U) (toM D D V) (toM D D Xi) (Λi * toM D D Wi) s)ᴴ *
              (Sd * G0 (toM3 D D GA) (toM D D U) (toM D D V) (toM D D Xi) (Λi * toM D D Wi) s)) * Sd := by
          rw [Finset.mul_sum, Finset.sum_mul]
          refine sum_congr rfl fun s _ => ?_
          rw [hB'm, conjTranspose_mul, conjTranspose_mul, hSd, dS_herm]
          simp only [Matrix.mul_assoc]
        rw [this, hl2, Matrix.mul_smul, Matrix.smul_mul, Matrix.mul_one]
      have h3 := congrArg transpose h2
      rw [transpose_sum, transpose_smul, transpose_mul, hSt] at h3
      rw [← h3]
      refine sum_congr rfl fun s _ => ?_
      rw [transpose_mul, transpose_mul, transpose_mul, hSt, Matrix.mul_assoc]
      congr 2
    · rw [toM_ofM, dS, diagonal_mul_diagonal]
      refine PosDef.diagonal fun i => ?_
      have := hdat.S_pos i
      exact_mod_cast mul_pos this this
    · rw [toM_ofM]
      exact PosDef.one
  have hsB : SimpleRight d D B' eta := by
    obtain ⟨g, hg⟩ : ∃ g, g = toM D D V * toM D D Xi := ⟨_, rfl⟩
    obtain ⟨gi, hgi⟩ : ∃ gi, gi = toM D D X * (toM D D V)ᴴ := ⟨_, rfl⟩
    have hB2 : ∀ s, toM3 D D B' s = g * toM3 D D GA s * gi := by
      intro s
      rw [hB'm, hdat.G0_right, hg, hgi]
    have hgg : g * gi = 1 := by rw [hg, hgi]; exact hdat.gauge_right
    have hgg' : gi * g = 1 := mul_eq_one_comm.1 hgg
    have tr : ∀ M : Matrix (Fin D) (Fin D) ℂ, ∑ s ∈ range d, toM3 D D B' s * M * (toM3 D D B' s)ᴴ = (eta : ℂ) • M →
        ∑ s ∈ range d, toM3 D D GA s * (gi * M * giᴴ) * (toM3 D D GA s)ᴴ = (eta : ℂ) • (gi * M * giᴴ) := by
      intro M hM
      have : ∑ s ∈ range d, toM3 D D GA s * (gi * M * giᴴ) * (toM3 D D GA s)ᴴ =
          gi * (∑ s ∈ range d, toM3 D D B' s * M * (toM3 D D B' s)ᴴ) * giᴴ := by
        rw [Finset.mul_sum, Finset.sum_mul]
        refine sum_congr rfl fun s _ => ?_
        rw [hB2, conjTranspose_mul, conjTranspose_mul]
        have : gi * (g * toM3 D D GA s * gi * M * (giᴴ * ((toM3 D D GA s)ᴴ * gᴴ))) * giᴴ =
            (gi * g) * (toM3 D D GA s * (gi * M * giᴴ) * (toM3 D D GA s)ᴴ) * (gi * g)ᴴ := by
          rw [conjTranspose_mul]
          simp only [Matrix.mul_assoc]
        rw [this, hgg', conjTranspose_one, Matrix.one_mul, Matrix.mul_one]
      rw [this, hM, Matrix.mul_smul, Matrix.smul_mul]
    have back : ∀ M : Matrix (Fin D) (Fin D) ℂ, g * (gi * M * giᴴ) * gᴴ = M := by
      intro M
      rw [show g * (gi * M * giᴴ) * gᴴ = (g * gi) * M * (g * gi)ᴴ by rw [conjTranspose_mul]; simp only [Matrix.mul_assoc], hgg, conjTranspose_one,
        Matrix.one_mul, Matrix.mul_one]
    intro M N hM hN h0
    obtain ⟨c, hc⟩ := hsr _ _ (tr M hM) (tr N hN) (by
      intro h2
      apply h0
      rw [← back N, h2, Matrix.mul_zero, Matrix.zero_mul])
    refine ⟨c, ?_⟩
    rw [← back M, hc, Matrix.mul_smul, Matrix.smul_mul, back]
  obtain ⟨r2, c2, er2, -, -, -⟩ := rEig_ok harn hD hfB hsB u2 u3
  have hsum : (S.map fun x => x * x).sum = ∑ i : Fin D, S.getD i 0 * S.getD i 0 := by
    subst s3
    rw [← List.sum_ofFn]
    congr 1
    refine List.ext_getElem (by simp) fun k h1 h2 => ?_
    simp at h1
    simp [h1]
  obtain ⟨lam', ll, g, gi, k, ki, z1, z2, z3, z4, z5, z6, z7, z8, z9, z10, z11, z12⟩ := IMPS.vidal_of_data
    (G := G'.smul ((Real.sqrt (eta / (S.map fun x => x * x).sum) : ℝ) : ℂ)⁻¹) (L := Ld.smul ((Real.sqrt ((S.map fun x => x * x).sum) : ℝ) : ℂ)⁻¹)
    hD k11 hLds s3 s8 hdat (by intro s; rw [toM3_smul, hG0, hsum]) (by rw [toM_smul, hLdm, hsum])
  refine ⟨⟨G'.smul ((Real.sqrt (eta / (S.map fun x => x * x).sum) : ℝ) : ℂ)⁻¹, Ld.smul ((Real.sqrt ((S.map fun x => x * x).sum) : ℝ) : ℂ)⁻¹⟩, lam', c, c', ll, g, gi, k, ki, ?_, z1, hc, hc', z2, z3, z5, z6, z7, z8, z9, z10⟩
  unfold canonicalise
  simp only [p1, ok_bind, p3, g1, tl1, tr1, el, er, ← hvlh, x1, y1, m1, n1, s1, i1, v1, k1, w1, k4, k7, k10, ← hLd, b1, u1, er2]

/-- **C82**: `canonicalise` brings the pair `(G, L)` to canonical form and does not change the state: the tensor `G L` becomes a gauge transform of
the one before, divided by the square root of the leading eigenvalue. -/
theorem canonicalise_spec (harn : ArnLaw arn) (hchol : CholLaw chol) (hsvd : SVDLaw svd) (hinv : InvLaw inv) (hD : 0 < D) {x : IvMPS}
    {A l r : ND ℂ} {lam : List ℝ} {eta : ℝ} (hG : x.G.shape = [d, D, D]) (hL : DiagReal x.L lam) (hlen : lam.length = D) (hpos : ∀ y ∈ lam, 0 < y)
    (hA : x.toIMPS = .ok ⟨A, none, none, none⟩) (hf : FixedPoints d D A l r eta) (hsl : SimpleLeft d D A eta) :
    ∃ x' lam' A', canonicalise arn chol svd inv x = .ok x' ∧ IMPS.VidalForm d D x'.G x'.L lam' ∧ x'.toIMPS = .ok ⟨A', none, none, none⟩ ∧
      GaugeEquiv d D A A' (Real.sqrt eta)⁻¹ := by
  obtain ⟨x', lam', c, c', ll, g, gi, k, ki, e1, h1, -, -, -, -, h2, h3, -⟩ := canonicalise_ok harn hchol hsvd hinv hD hG hL hlen hpos hA hf hsl
  obtain ⟨A', a1, a2, a3⟩ := IMPS.dot3 h1.shape h1.shapeL
  refine ⟨x', lam', A', e1, h1, ?_, g, gi, h2, ?_⟩
  · unfold toIMPS
    rw [a1, ok_bind]
  · intro s _
    rw [← h3]
    ext a b
    rw [toM3_apply, a3, Matrix.mul_apply, Finset.sum_range]
    rfl

/-- the value of `E` as a sum -/
theorem E_val {x : IvMPS} {op : ND ℂ} (hG : x.G.shape = [d, D, D]) (hL : x.L.shape = [D, D]) (hh : (toM D D x.L)ᴴ = toM D D x.L) (ho : op.shape = [d, d]) :
    E x op = .ok (∑ s ∈ range d, ∑ t ∈ range d, op.val [s, t] *
      (toM D D x.L * toM D D x.L * (toM3 D D x.G s * toM D D x.L) * (toM3 D D x.G t * toM D D x.L)ᴴ).trace) := by
  obtain ⟨H, hH⟩ : ∃ H, H = x.G.hc := ⟨_, rfl⟩
  have hHs : H.shape = [d, D, D] := by rw [hH, ND.hc, hG]
  have hHv : ∀ s a b, H.val [s, a, b] = star (x.G.val [s, b, a]) := by
    intro s a b
    rw [hH, ND.hc, hG]
  obtain ⟨P, t1, s1, v1⟩ := IMPS.dot3 hG hL
  obtain ⟨Q, t2, s2, v2⟩ := IMPS.dot3 s1 hL
  obtain ⟨R, t3, s3, v3⟩ := IMPS.dot33 s2 hHs
  obtain ⟨V, t4, s4, v4⟩ := IMPS.dot4 s3 hL
  obtain ⟨W, t5, s5, v5⟩ := IMPS.dot4 s4 hL
  obtain ⟨Z, t6, s6, v6⟩ := IMPS.trace13 s5
  obtain ⟨p, m1, m2⟩ : ∃ p, Z.tensordot op [0, 1] [0, 1] = .ok p ∧ p.val [] = ∑ s ∈ range d, ∑ t ∈ range d, Z.val [s, t] * op.val [s, t] := by
    refine ⟨Z.tensordotR op [0, 1] [0, 1], by simp [ND.tensordot, ND.rank, ND.dim, s6, ho], ?_⟩
    simp [ND.tensordotR, ND.transposeR, ND.rank, ND.others, ND.dim, s6, ho, List.range_succ]
  unfold E
  simp only [t1, t2, ← hH, t3, t4, t5, t6, m1, ok_bind, m2]
  congr 1
  have key : ∀ s t, Z.val [s, t] =
      (toM D D x.L * toM D D x.L * (toM3 D D x.G s * toM D D x.L) * (toM3 D D x.G t * toM D D x.L)ᴴ).trace := by
    intro s t
    have : toM D D x.L * toM D D x.L * (toM3 D D x.G s * toM D D x.L) * (toM3 D D x.G t * toM D D x.L)ᴴ =
        (toM D D x.L * toM D D x.L) * (toM3 D D x.G s * toM D D x.L * toM D D x.L * toM3 D D H t) := by
      have hHt : toM3 D D H t = (toM3 D D x.G t)ᴴ := by
        ext i j
        simp only [toM3_apply, conjTranspose_apply, hHv]
      rw [hHt, conjTranspose_mul, hh]
      simp only [Matrix.mul_assoc]
    rw [this, Matrix.trace_mul_comm, ← Matrix.mul_assoc, v6]
    simp only [v5, v4, v3, v2, v1, Matrix.trace, Matrix.diag, Matrix.mul_apply, toM_apply, toM3_apply, Finset.sum_range]
  refine sum_congr rfl fun s _ => sum_congr rfl fun t _ => ?_
  rw [key, mul_comm]

/-- **C83**: after `canonicalise`, `E(op)` is the expectation value of the transpose of `op` in the state before. -/
theorem E_transpose (harn : ArnLaw arn) (hchol : CholLaw chol) (hsvd : SVDLaw svd) (hinv : InvLaw inv) (hD : 0 < D) {x : IvMPS}
    {A l r op : ND ℂ} {lam : List ℝ} {eta : ℝ} (hG : x.G.shape = [d, D, D]) (hL : DiagReal x.L lam) (hlen : lam.length = D) (hpos : ∀ y ∈ lam, 0 < y)
    (hA : x.toIMPS = .ok ⟨A, none, none, none⟩) (hf : FixedPoints d D A l r eta) (hsl : SimpleLeft d D A eta) (ho : op.shape = [d, d]) :
    ∃ x', canonicalise arn chol svd inv x = .ok x' ∧ E x' op = .ok (infExpect d D A l r eta fun t s => op.val [s, t]) := by
  obtain ⟨x', lam', c, c', ll, g, gi, k, ki, e1, h1, hc, hc', h2, h3, h4, h5, -, -, h6, h7⟩ :=
    canonicalise_ok harn hchol hsvd hinv hD hG hL hlen hpos hA hf hsl
  refine ⟨x', e1, ?_⟩
  rw [E_val h1.shape h1.shapeL h1.herm ho]
  have el : toM D D (l.smul (c : ℂ)) = (c : ℂ) • toM D D l := toM_smul _ _
  have er : toM D D (r.smul (c' : ℂ)) = (c' : ℂ) • toM D D r := toM_smul _ _
  rw [← IMPS.infExpect_scale hc hc' el er]
  exact congrArg _ (IMPS.pair_expect (l := l.smul (c : ℂ)) (r := r.smul (c' : ℂ)) hf.eta_pos (by rw [el, er]; exact h3) h5 (by rw [er]; exact h6) (by rw [el]; exact h7)
    (fun t s => op.val [s, t]))

/-- **C83** for symmetric operators: after `canonicalise`, `E(op)` is the expectation value of `op`. -/
theorem E_symmetric_partial (harn : ArnLaw arn) (hchol : CholLaw chol) (hsvd : SVDLaw svd) (hinv : InvLaw inv) (hD : 0 < D) {x : IvMPS}
    {A l r op : ND ℂ} {lam : List ℝ} {eta : ℝ} (hG : x.G.shape = [d, D, D]) (hL : DiagReal x.L lam) (hlen : lam.length = D) (hpos : ∀ y ∈ lam, 0 < y)
    (hA : x.toIMPS = .ok ⟨A, none, none, none⟩) (hf : FixedPoints d D A l r eta) (hsl : SimpleLeft d D A eta) (ho : op.shape = [d, d])
    (hsym : ∀ s t, op.val [s, t] = op.val [t, s]) :
    ∃ x', canonicalise arn chol svd inv x = .ok x' ∧ E x' op = .ok (infExpect d D A l r eta fun t s => op.val [t, s]) := by
  obtain ⟨x', e1, e2⟩ := E_transpose harn hchol hsvd hinv hD hG hL hlen hpos hA hf hsl ho
  refine ⟨x', e1, ?_⟩
  rw [e2]
  congr 2
  funext t s
  exact hsym s t

end IvMPS

end Xmps
