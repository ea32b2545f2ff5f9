import Verif.Model.Examples
import Verif.Spec.Examples
import Verif.Props.ImpsWitness

/-!
# C78: `AKLT()`
-/

namespace Xmps.Examples

open Finset Matrix Spec ComplexOrder IMPS

/-! ### the specification: total spin two -/

/-- the lowering operator of spin one, on the basis `m = 1, 0, -1` -/
noncomputable def lower : ℕ → ℕ → ℂ
  | 1, 0 => (Real.sqrt 2 : ℂ)
  | 2, 1 => (Real.sqrt 2 : ℂ)
  | _, _ => 0

/-- the five vectors have `m = 2, 1, 0, -1, -2` … -/
theorem quintet_m {k a b : ℕ} (hk : k < 5) (ha : a < 3) (hb : b < 3) :
    ((1 - a : ℂ) + (1 - b)) * quintet k a b = (2 - k : ℂ) * quintet k a b := by
  interval_cases k <;> interval_cases a <;> interval_cases b <;> simp [quintet] <;> norm_num

/-- … the first is annihilated by the raising operators … -/
theorem quintet_top {a b : ℕ} (ha : a < 3) (hb : b < 3) :
    ∑ c ∈ range 3, (star (lower c a) * quintet 0 c b + star (lower c b) * quintet 0 a c) = 0 := by
  interval_cases a <;> interval_cases b <;> simp [quintet, lower, Finset.sum_range_succ]

/-- … and the others follow from it by the lowering operators; so they span the states of total spin two. -/
theorem quintet_lower {k a b : ℕ} (hk : k < 4) (ha : a < 3) (hb : b < 3) :
    ∑ c ∈ range 3, (lower a c * quintet k c b + lower b c * quintet k a c) =
      ([1, 1, 3, 2].getD k 0 : ℂ) * (Real.sqrt 2 : ℂ) * quintet (k + 1) a b := by
  interval_cases k <;> interval_cases a <;> interval_cases b <;> simp [quintet, lower, Finset.sum_range_succ] <;> ring

/-! ### the tensor -/

/-- the tensor of `AKLT()` -/
noncomputable def akltT : ND ℂ := stack0 [2, 2] [Ham.ofMat ((Real.sqrt (2 / 3) : ℂ) • !![0, 0; 1, 0]),
  Ham.ofMat ((-Real.sqrt (1 / 2) : ℂ) • Spin.Sz 1), Ham.ofMat ((-Real.sqrt (2 / 3) : ℂ) • !![0, 1; 0, 0])]

theorem aklt_eq : aklt = .ok ⟨[akltT], 1, 3, 2⟩ := rfl

/-- a tensor `(a S_-, b σ_z, -a S_+)` -/
noncomputable def tri (a b : ℂ) : ND ℂ := ⟨[3, 2, 2], fun
  | [0, 1, 0] => a
  | [1, 0, 0] => b
  | [1, 1, 1] => -b
  | [2, 0, 1] => -a
  | _ => 0⟩

theorem toM3_tri0 (a b : ℂ) : toM3 2 2 (tri a b) 0 = !![0, 0; a, 0] := by
  ext i j
  match i, j with
  | 0, 0 => rfl
  | 0, 1 => rfl
  | 1, 0 => rfl
  | 1, 1 => rfl
theorem toM3_tri1 (a b : ℂ) : toM3 2 2 (tri a b) 1 = !![b, 0; 0, -b] := by
  ext i j
  match i, j with
  | 0, 0 => rfl
  | 0, 1 => rfl
  | 1, 0 => rfl
  | 1, 1 => rfl
theorem toM3_tri2 (a b : ℂ) : toM3 2 2 (tri a b) 2 = !![0, -a; 0, 0] := by
  ext i j
  match i, j with
  | 0, 0 => rfl
  | 0, 1 => rfl
  | 1, 0 => rfl
  | 1, 1 => rfl

theorem akltT_tri (s : ℕ) (hs : s < 3) : toM3 2 2 akltT s = toM3 2 2 (tri (Real.sqrt (2 / 3)) (-Real.sqrt (1 / 2) / 2)) s := by
  ext i j
  interval_cases s
  · rw [toM3_tri0]
    fin_cases i <;> fin_cases j <;> simp [toM3_apply, akltT, stack0, Ham.ofMat]
  · rw [toM3_tri1]
    fin_cases i <;> fin_cases j <;> simp [toM3_apply, akltT, stack0, Ham.ofMat, Spin.Sz] <;> ring
  · rw [toM3_tri2]
    fin_cases i <;> fin_cases j <;> simp [toM3_apply, akltT, stack0, Ham.ofMat]

/-- the identity of bond dimension two -/
noncomputable def one2 : ND ℂ := eyeND 2

theorem toM_one2 : toM 2 2 one2 = 1 := by
  ext i j
  fin_cases i <;> fin_cases j <;> simp [toM, one2, eyeND]

/-- for real `a`, `b` the identity is the fixed point of the transfer matrix, with the value `a² + b²` -/
theorem tri_fixed {a b : ℝ} (h : 0 < a ^ 2 + b ^ 2) : FixedPoints 3 2 (tri a b) one2 one2 (a ^ 2 + b ^ 2) := by
  refine ⟨rfl, rfl, rfl, h, ?_, ?_, by rw [toM_one2]; exact PosDef.one, by rw [toM_one2]; exact PosDef.one⟩
  · simp only [Finset.sum_range_succ, Finset.sum_range_zero, toM3_tri0, toM3_tri1, toM3_tri2, toM_one2, Matrix.mul_one, zero_add]
    simp only [ct2, Matrix.mul_fin_two]
    ext i j
    fin_cases i <;> fin_cases j <;> simp <;> ring
  · simp only [Finset.sum_range_succ, Finset.sum_range_zero, toM3_tri0, toM3_tri1, toM3_tri2, toM_one2, Matrix.mul_one, zero_add]
    simp only [tr2, map2, Matrix.mul_fin_two]
    ext i j
    fin_cases i <;> fin_cases j <;> simp <;> ring

/-- the projector by its components -/
theorem infExpect2_spinTwo (A l r : ND ℂ) (eta : ℝ) (D : ℕ) : infExpect2 3 D A l r eta spinTwo =
    (∑ k ∈ range 5, ((toM D D l)ᵀ * (∑ s ∈ range 3, ∑ t ∈ range 3, quintet k s t • (toM3 D D A s * toM3 D D A t)) * toM D D r *
      (∑ s ∈ range 3, ∑ t ∈ range 3, quintet k s t • (toM3 D D A s * toM3 D D A t))ᴴ).trace /
        ∑ a ∈ range 3, ∑ b ∈ range 3, quintet k a b ^ 2) / (eta ^ 2 * ((toM D D l)ᵀ * toM D D r).trace) := by
  have hq : ∀ k < 5, ∀ s < 3, ∀ t < 3, star (quintet k s t) = quintet k s t := by
    intro k hk s hs t ht
    interval_cases k <;> interval_cases s <;> interval_cases t <;> simp [quintet]
  unfold infExpect2 spinTwo
  congr 1
  simp only [Finset.sum_mul]
  rw [show (∑ s1 ∈ range 3, ∑ s2 ∈ range 3, ∑ t1 ∈ range 3, ∑ t2 ∈ range 3, ∑ k ∈ range 5, quintet k s1 s2 * quintet k t1 t2 /
      (∑ a ∈ range 3, ∑ b ∈ range 3, quintet k a b ^ 2) * ((toM D D l)ᵀ * (toM3 D D A t1 * toM3 D D A t2) * toM D D r *
        (toM3 D D A s1 * toM3 D D A s2)ᴴ).trace) = ∑ k ∈ range 5, ∑ s1 ∈ range 3, ∑ s2 ∈ range 3, ∑ t1 ∈ range 3, ∑ t2 ∈ range 3,
      quintet k s1 s2 * quintet k t1 t2 / (∑ a ∈ range 3, ∑ b ∈ range 3, quintet k a b ^ 2) * ((toM D D l)ᵀ * (toM3 D D A t1 *
        toM3 D D A t2) * toM D D r * (toM3 D D A s1 * toM3 D D A s2)ᴴ).trace from by
    symm
    refine Finset.sum_comm.trans (Finset.sum_congr rfl fun _ _ => ?_)
    refine Finset.sum_comm.trans (Finset.sum_congr rfl fun _ _ => ?_)
    refine Finset.sum_comm.trans (Finset.sum_congr rfl fun _ _ => ?_)
    exact Finset.sum_comm]
  refine Finset.sum_congr rfl fun k hk => ?_
  simp only [conjTranspose_sum, conjTranspose_smul, Finset.mul_sum, Finset.sum_mul, Matrix.mul_smul, Matrix.smul_mul, trace_sum,
    trace_smul, Finset.sum_div]
  refine Finset.sum_congr rfl fun s1 h1 => Finset.sum_congr rfl fun s2 h2 => Finset.sum_congr rfl fun t1 _ =>
    Finset.sum_congr rfl fun t2 _ => ?_
  rw [hq k (Finset.mem_range.1 hk) s1 (Finset.mem_range.1 h1) s2 (Finset.mem_range.1 h2), smul_eq_mul, smul_eq_mul]
  ring

/-- the energy per bond of the AKLT Hamiltonian in the state with the tensor `(a S_-, b σ_z, -a S_+)` -/
theorem tri_energy (a b : ℝ) (h : 0 < a ^ 2 + b ^ 2) : infExpect2 3 2 (tri a b) one2 one2 (a ^ 2 + b ^ 2) spinTwo =
    ((2 * b ^ 2 - a ^ 2) ^ 2 / (6 * (a ^ 2 + b ^ 2) ^ 2) : ℝ) := by
  rw [infExpect2_spinTwo]
  simp only [Finset.sum_range_succ, Finset.sum_range_zero, toM3_tri0, toM3_tri1, toM3_tri2, toM_one2, quintet, zero_add, zero_smul,
    add_zero, one_smul, transpose_one, Matrix.one_mul, Matrix.mul_one, Matrix.mul_fin_two]
  simp only [Matrix.of_add_of, Matrix.smul_of, Matrix.smul_cons, Matrix.smul_empty, Matrix.add_cons, Matrix.head_cons, Matrix.tail_cons,
    Matrix.empty_add_empty, ct2, Matrix.mul_fin_two, Matrix.trace_fin_two_of, one_fin_two, smul_eq_mul]
  have h' : ((a : ℂ) ^ 2 + (b : ℂ) ^ 2) ≠ 0 := by exact_mod_cast h.ne'
  simp
  field_simp
  ring

theorem infExpect2_congr {d D : ℕ} {A B : ND ℂ} (h : ∀ s < d, toM3 D D A s = toM3 D D B s) (l r : ND ℂ) (eta : ℝ)
    (op : ℕ → ℕ → ℕ → ℕ → ℂ) : infExpect2 d D A l r eta op = infExpect2 d D B l r eta op := by
  refine congrArg (· / (eta ^ 2 * ((toM D D l)ᵀ * toM D D r).trace)) ?_
  refine Finset.sum_congr rfl fun s1 h1 => Finset.sum_congr rfl fun s2 h2 => Finset.sum_congr rfl fun t1 h3 =>
    Finset.sum_congr rfl fun t2 h4 => ?_
  rw [h _ (Finset.mem_range.1 h1), h _ (Finset.mem_range.1 h2), h _ (Finset.mem_range.1 h3), h _ (Finset.mem_range.1 h4)]

theorem fixedPoints_congr {d D : ℕ} {A B l r : ND ℂ} {eta : ℝ} (hs : A.shape = [d, D, D]) (h : ∀ s < d, toM3 D D A s = toM3 D D B s)
    (hf : FixedPoints d D B l r eta) : FixedPoints d D A l r eta := by
  refine ⟨hs, hf.shape_l, hf.shape_r, hf.eta_pos, ?_, ?_, hf.pos_l, hf.pos_r⟩
  · rw [← hf.right]
    exact Finset.sum_congr rfl fun s hs => by rw [h s (Finset.mem_range.1 hs)]
  · rw [← hf.left]
    exact Finset.sum_congr rfl fun s hs => by rw [h s (Finset.mem_range.1 hs)]

/-- **C78 fails**: the matrices `AKLT()` returns are those of the AKLT state but for the factor of the middle one.  The transfer matrix
has the identity as fixed point, and two neighbouring spins are with probability 50/1083 in a state of total spin two. -/
theorem aklt_wrong : ∃ x : Cell, ∃ A, aklt = .ok x ∧ x.data = [A] ∧ x.d = 3 ∧ x.D = 2 ∧ FixedPoints 3 2 A one2 one2 (19 / 24) ∧
    infExpect2 3 2 A one2 one2 (19 / 24) spinTwo = 50 / 1083 := by
  have ha : (Real.sqrt (2 / 3)) ^ 2 + (-Real.sqrt (1 / 2) / 2) ^ 2 = 19 / 24 := by
    rw [div_pow, neg_sq, Real.sq_sqrt (by norm_num), Real.sq_sqrt (by norm_num)]
    norm_num
  have ha' : Real.sqrt (2 / 3) ^ 2 = 2 / 3 := Real.sq_sqrt (by norm_num)
  have hb' : (-Real.sqrt (1 / 2) / 2) ^ 2 = 1 / 8 := by
    rw [div_pow, neg_sq, Real.sq_sqrt (by norm_num)]
    norm_num
  have hf := tri_fixed (a := Real.sqrt (2 / 3)) (b := -Real.sqrt (1 / 2) / 2) (by rw [ha]; norm_num)
  have he := tri_energy (Real.sqrt (2 / 3)) (-Real.sqrt (1 / 2) / 2) (by rw [ha]; norm_num)
  rw [ha] at hf
  have hb : ((-Real.sqrt (1 / 2) / 2 : ℝ) : ℂ) = -Real.sqrt (1 / 2) / 2 := by push_cast; rfl
  rw [hb] at hf he
  refine ⟨_, akltT, aklt_eq, rfl, rfl, rfl, fixedPoints_congr rfl akltT_tri hf, ?_⟩
  rw [infExpect2_congr akltT_tri, ← ha, he, ha', hb']
  push_cast
  norm_num

/-- with `-sqrt(1/3) * 2 * sz` in the middle the energy would be zero: among these tensors exactly the AKLT state has `2 b² = a²` -/
theorem tri_ground {a b : ℝ} (h : 0 < a ^ 2 + b ^ 2) :
    infExpect2 3 2 (tri a b) one2 one2 (a ^ 2 + b ^ 2) spinTwo = 0 ↔ a ^ 2 = 2 * b ^ 2 := by
  rw [tri_energy a b h, Complex.ofReal_eq_zero, div_eq_zero_iff, or_iff_left (by positivity), sq_eq_zero_iff, sub_eq_zero, eq_comm]

example : infExpect2 3 2 (tri (2 : ℝ) (Real.sqrt 2 : ℝ)) one2 one2 ((2 : ℝ) ^ 2 + (Real.sqrt 2) ^ 2) spinTwo = 0 :=
  (tri_ground (by positivity)).2 (by rw [Real.sq_sqrt (by norm_num)]; norm_num)

/-! ### `i_comp_z` -/

/-- `i_comp_z(1)` and `i_comp_z(2)` are the infinite product states of `0` and of `1` (C77). -/
theorem iCompZ_spec {i : ℤ} (hi : i = 1 ∨ i = 2) : ∃ A, iCompZ i = .ok ⟨[A], 1, 2, 1⟩ ∧ FixedPoints 2 1 A IMPS.exOne IMPS.exOne 1 ∧
    ∀ op, infExpect 2 1 A IMPS.exOne IMPS.exOne 1 op = op (i.toNat - 1) (i.toNat - 1) := by
  have h1 : toM 1 1 IMPS.exOne = 1 := by
    ext a b
    rw [Subsingleton.elim a 0, Subsingleton.elim b 0]
    rfl
  have e2 : ∀ s (M : ND ℂ), toM3 1 1 M s = M.val [s, 0, 0] • 1 := fun s M => by
    ext a b
    rw [Subsingleton.elim a 0, Subsingleton.elim b 0]
    simp [toM3_apply]
  obtain rfl | rfl := hi
  · refine ⟨setBoth (zerosND [2, 1, 1]) 1 0, rfl, ⟨rfl, rfl, rfl, one_pos, ?_, ?_, by rw [h1]; exact PosDef.one, by rw [h1]; exact PosDef.one⟩, fun op => ?_⟩
    · simp [Finset.sum_range_succ, h1, e2, setBoth, setPage, const]
    · simp [Finset.sum_range_succ, h1, e2, setBoth, setPage, const, Matrix.transpose_smul]
    · simp [infExpect, Finset.sum_range_succ, h1, e2, setBoth, setPage, const]
  · refine ⟨setBoth (zerosND [2, 1, 1]) 0 1, rfl, ⟨rfl, rfl, rfl, one_pos, ?_, ?_, by rw [h1]; exact PosDef.one, by rw [h1]; exact PosDef.one⟩, fun op => ?_⟩
    · simp [Finset.sum_range_succ, h1, e2, setBoth, setPage, const]
    · simp [Finset.sum_range_succ, h1, e2, setBoth, setPage, const, Matrix.transpose_smul]
    · simp [infExpect, Finset.sum_range_succ, h1, e2, setBoth, setPage, const]

end Xmps.Examples
