import Verif.Model.TransferMatrix
import Verif.Props.Envs
import Verif.Lemmas.TwoSite

/-!
# Transfer matrices

`mv` and `mvr` against the matrix returned by `asmatrix`.
-/

namespace Xmps

open Finset

namespace Spec

/-- entry of the transfer matrix of two tensors, row `(a, a')` and column `(b, b')` -/
noncomputable def transferEntry (A B : ND ℂ) (a a' b b' : ℕ) : ℂ :=
  ∑ s ∈ range (A.dim 0), A.val [s, a, b] * star (B.val [s, a', b'])

end Spec

open Spec

theorem flat_pair {D a b : ℕ} (ha : a < D) (hb : b < D) : a * D + b < D ^ 2 := by
  calc a * D + b < a * D + D := by omega
    _ = (a + 1) * D := by ring
    _ ≤ D * D := Nat.mul_le_mul_right _ ha
    _ = D ^ 2 := by ring

theorem flat_split {D x : ℕ} (hx : x < D ^ 2) : ∃ a b, a < D ∧ b < D ∧ x = a * D + b := by
  have hD : 0 < D := Nat.pos_of_ne_zero (by rintro rfl; simp at hx)
  exact ⟨x / D, x % D, (Nat.div_lt_iff_lt_mul hD).2 (by rwa [pow_two] at hx), Nat.mod_lt _ hD, by rw [mul_comm]; exact (Nat.div_add_mod x D).symm⟩

theorem sum_flat (D : ℕ) (f : ℕ → ℂ) : ∑ x ∈ range (D ^ 2), f x = ∑ a ∈ range D, ∑ b ∈ range D, f (a * D + b) := by
  rw [pow_two, sum_range_mul]

theorem reshape_square {r : ND ℂ} {D : ℕ} (h : r.shape = [D ^ 2]) : ∃ R, r.reshape [D, D] = .ok R ∧ R.shape = [D, D] ∧
    ∀ a < D, ∀ b < D, R.val [a, b] = r.val [a * D + b] := by
  refine ⟨r.reshapeR [D, D], ND.reshape_ok (by simp [h, pow_two]), rfl, fun a ha b hb => ?_⟩
  exact ND.reshapeR_val (by rw [h]; exact ⟨flat_pair ha hb, trivial⟩) (by rw [h]; simp [ravel])

theorem reshape_vec {R : ND ℂ} {D : ℕ} (h : R.shape = [D, D]) : ∃ w, R.reshape [D ^ 2] = .ok w ∧ w.shape = [D ^ 2] ∧
    ∀ a < D, ∀ b < D, w.val [a * D + b] = R.val [a, b] := by
  refine ⟨R.reshapeR [D ^ 2], ND.reshape_ok (by simp [h, pow_two]), rfl, fun a ha b hb => ?_⟩
  exact ND.reshapeR_val (by rw [h]; exact ⟨ha, hb, trivial⟩) (by rw [h]; simp [ravel])

theorem sum0_ok {t : ND ℂ} {d m n : ℕ} (h : t.shape = [d, m, n]) : ∃ R, t.sum0 = .ok R ∧ R.shape = [m, n] ∧
    ∀ i j, R.val [i, j] = ∑ s ∈ range d, t.val [s, i, j] :=
  ⟨⟨[m, n], fun idx => ∑ i ∈ range d, t.val (i :: idx)⟩, by simp [ND.sum0, h], rfl, fun _ _ => rfl⟩

theorem tr3 {A : ND ℂ} {d m n : ℕ} (h : A.shape = [d, m, n]) : A.tr.shape = [d, n, m] ∧ ∀ s i j, A.tr.val [s, i, j] = A.val [s, j, i] := by
  simp [ND.tr, h]

/-- `sum(X @ r @ Z, axis=0).reshape(D**2)` -/
theorem sandwich_ok {X Z r : ND ℂ} {d D : ℕ} (hX : X.shape = [d, D, D]) (hZ : Z.shape = [d, D, D]) (hr : r.shape = [D ^ 2]) :
    ∃ w, (do
      let r ← r.reshape [D, D]
      let t ← X.matmul r
      let t ← t.matmul Z
      let t ← t.sum0
      t.reshape [D ^ 2] : Py (ND ℂ)) = .ok w ∧ w.shape = [D ^ 2] ∧ ∀ a < D, ∀ a' < D,
        w.val [a * D + a'] = ∑ y ∈ range D, ∑ y' ∈ range D, (∑ s ∈ range d, X.val [s, a, y] * Z.val [s, y', a']) * r.val [y * D + y'] := by
  obtain ⟨R, e1, h1, v1⟩ := reshape_square hr
  obtain ⟨t, e2, h2, v2⟩ := ND.matmul32 hX h1
  obtain ⟨u, e3, h3, v3⟩ := ND.matmul33 h2 hZ
  obtain ⟨q, e4, h4, v4⟩ := sum0_ok h3
  obtain ⟨w, e5, h5, v5⟩ := reshape_vec h4
  refine ⟨w, by simp only [e1, e2, e3, e4, e5, ok_bind], h5, ?_⟩
  intro a ha a' ha'
  rw [v5 a ha a' ha', v4, Finset.sum_congr rfl fun s hs => by rw [v3 s (mem_range.1 hs)]]
  simp only [v2, Finset.sum_mul]
  rw [Finset.sum_congr rfl fun s _ => Finset.sum_comm, Finset.sum_comm]
  refine Finset.sum_congr rfl fun y hy => ?_
  rw [Finset.sum_comm]
  refine Finset.sum_congr rfl fun y' hy' => Finset.sum_congr rfl fun s _ => ?_
  rw [v1 y (mem_range.1 hy) y' (mem_range.1 hy')]
  ring

namespace TMap

variable {E : TMap} {d D : ℕ}

/-- **C33** the entries of `Map(A, B).asmatrix()` -/
theorem asmatrix_ok (hA : E.A.shape = [d, D, D]) (hB : E.B.shape = [d, D, D]) :
    ∃ M, E.asmatrix = .ok M ∧ M.shape = [D ^ 2, D ^ 2] ∧ ∀ a < D, ∀ a' < D, ∀ b < D, ∀ b' < D,
      M.val [a * D + a', b * D + b'] = transferEntry E.A E.B a a' b b' := by
  obtain ⟨h1, h2⟩ := hc3 hB
  set t := E.A.tensordotR E.B.hc [0] [0] with ht
  have hts : t.shape = [D, D, D, D] := by simp [ht, ND.tensordotR, ND.others, ND.rank, ND.dim, hA, h1, List.range_succ]
  set u := t.transposeR [0, 3, 1, 2] with hu
  have hus : u.shape = [D, D, D, D] := by simp [hu, ND.dim, hts]
  refine ⟨u.reshapeR [D ^ 2, D ^ 2], ?_, rfl, ?_⟩
  · unfold asmatrix
    have e1 : E.A.tensordot E.B.hc [0] [0] = .ok t := by simp [ND.tensordot, ND.rank, ND.dim, hA, h1, ht]
    have e2 : t.transpose [0, 3, 1, 2] = .ok u := by simp [ND.transpose, ND.rank, hts, ND.isPerm, List.range_succ, hu]
    have e3 : E.shape = [D ^ 2, D ^ 2] := by simp [shape, ND.dim, hA]
    simp only [e1, e2, ok_bind, e3]
    exact ND.reshape_ok (by simp [hus, pow_two, mul_assoc])
  · intro a ha a' ha' b hb b' hb'
    rw [ND.reshapeR_val (idx := [a, a', b, b']) (by rw [hus]; exact ⟨ha, ha', hb, hb', trivial⟩) (by
      rw [hus]; simp only [ravel_cons, ravel_nil, List.prod_cons, List.prod_nil]; ring)]
    have e1 : u.val [a, a', b, b'] = t.val [a, b, b', a'] := by
      simp [hu, ND.transposeR, ND.rank, hts, List.range_succ]
    rw [e1]
    simp [ht, ND.tensordotR, ND.transposeR, ND.others, ND.rank, ND.dim, hA, h1, List.range_succ, transferEntry, h2]

/-- **C33** `Map(A, B).mv(r)` is `asmatrix() @ r`. -/
theorem mv_spec (hA : E.A.shape = [d, D, D]) (hB : E.B.shape = [d, D, D]) {r : ND ℂ} (hr : r.shape = [D ^ 2]) :
    ∃ M w, E.asmatrix = .ok M ∧ E.mv r = .ok w ∧ M.shape = [D ^ 2, D ^ 2] ∧ w.shape = [D ^ 2] ∧
      ∀ x < D ^ 2, w.val [x] = ∑ y ∈ range (D ^ 2), M.val [x, y] * r.val [y] := by
  obtain ⟨M, eM, hM, vM⟩ := asmatrix_ok hA hB
  obtain ⟨h1, h2⟩ := hc3 hB
  obtain ⟨w, ew, hw, vw⟩ := sandwich_ok hA h1 hr
  refine ⟨M, w, eM, ?_, hM, hw, ?_⟩
  · unfold mv
    rw [show E.A.dim 1 = D by simp [ND.dim, hA]]
    exact ew
  · intro x hx
    obtain ⟨a, a', ha, ha', rfl⟩ := flat_split hx
    rw [vw a ha a' ha', sum_flat]
    refine Finset.sum_congr rfl fun y hy => Finset.sum_congr rfl fun y' hy' => ?_
    rw [vM a ha a' ha' y (mem_range.1 hy) y' (mem_range.1 hy'), transferEntry, show E.A.dim 0 = d by simp [ND.dim, hA]]
    simp only [h2]

/-- **C33** `Map(A, B).mvr(l)` is the adjoint of `asmatrix()` applied to `l`. -/
theorem mvr_spec (hA : E.A.shape = [d, D, D]) (hB : E.B.shape = [d, D, D]) {l : ND ℂ} (hl : l.shape = [D ^ 2]) :
    ∃ M w, E.asmatrix = .ok M ∧ E.mvr l = .ok w ∧ M.shape = [D ^ 2, D ^ 2] ∧ w.shape = [D ^ 2] ∧
      ∀ x < D ^ 2, w.val [x] = ∑ y ∈ range (D ^ 2), star (M.val [y, x]) * l.val [y] := by
  obtain ⟨M, eM, hM, vM⟩ := asmatrix_ok hA hB
  obtain ⟨h1, h2⟩ := hc3 hA
  obtain ⟨w, ew, hw, vw⟩ := sandwich_ok h1 hB hl
  refine ⟨M, w, eM, ?_, hM, hw, ?_⟩
  · unfold mvr
    rw [show E.A.dim 1 = D by simp [ND.dim, hA]]
    exact ew
  · intro x hx
    obtain ⟨a, a', ha, ha', rfl⟩ := flat_split hx
    rw [vw a ha a' ha', sum_flat]
    refine Finset.sum_congr rfl fun y hy => Finset.sum_congr rfl fun y' hy' => ?_
    rw [vM y (mem_range.1 hy) y' (mem_range.1 hy') a ha a' ha', transferEntry, show E.A.dim 0 = d by simp [ND.dim, hA], star_sum]
    simp only [h2, star_mul', star_star]

end TMap

namespace TransferMatrix

variable {A : ND ℂ} {d D : ℕ}

/-- **C33** the entries of `TransferMatrix(A).asmatrix()` -/
theorem asmatrix_ok (hA : A.shape = [d, D, D]) :
    ∃ M, asmatrix A = .ok M ∧ M.shape = [D ^ 2, D ^ 2] ∧ ∀ a < D, ∀ a' < D, ∀ b < D, ∀ b' < D,
      M.val [a * D + a', b * D + b'] = transferEntry A A a a' b b' := by
  have h1 : A.conj.shape = [d, D, D] := hA
  set t := A.tensordotR A.conj [0] [0] with ht
  have hts : t.shape = [D, D, D, D] := by simp [ht, ND.tensordotR, ND.others, ND.rank, ND.dim, hA, List.range_succ]
  set u := t.transposeR [0, 2, 1, 3] with hu
  have hus : u.shape = [D, D, D, D] := by simp [hu, ND.dim, hts]
  refine ⟨u.reshapeR [D ^ 2, D ^ 2], ?_, rfl, ?_⟩
  · unfold asmatrix
    have e1 : A.tensordot A.conj [0] [0] = .ok t := by simp [ND.tensordot, ND.rank, ND.dim, hA, ht]
    have e2 : t.transpose [0, 2, 1, 3] = .ok u := by simp [ND.transpose, ND.rank, hts, ND.isPerm, List.range_succ, hu]
    have e3 : [A.dim 1 ^ 2, A.dim 2 ^ 2] = [D ^ 2, D ^ 2] := by simp [ND.dim, hA]
    simp only [e1, e2, ok_bind, e3]
    exact ND.reshape_ok (by simp [hus, pow_two, mul_assoc])
  · intro a ha a' ha' b hb b' hb'
    rw [ND.reshapeR_val (idx := [a, a', b, b']) (by rw [hus]; exact ⟨ha, ha', hb, hb', trivial⟩) (by
      rw [hus]; simp only [ravel_cons, ravel_nil, List.prod_cons, List.prod_nil]; ring)]
    have e1 : u.val [a, a', b, b'] = t.val [a, b, a', b'] := by
      simp [hu, ND.transposeR, ND.rank, hts, List.range_succ]
    rw [e1]
    simp [ht, ND.tensordotR, ND.transposeR, ND.others, ND.rank, ND.dim, hA, List.range_succ, transferEntry]

/-- **C33** `TransferMatrix(A).mv(r)` is `asmatrix() @ r`. -/
theorem mv_spec (hA : A.shape = [d, D, D]) {r : ND ℂ} (hr : r.shape = [D ^ 2]) :
    ∃ M w, asmatrix A = .ok M ∧ mv A r = .ok w ∧ M.shape = [D ^ 2, D ^ 2] ∧ w.shape = [D ^ 2] ∧
      ∀ x < D ^ 2, w.val [x] = ∑ y ∈ range (D ^ 2), M.val [x, y] * r.val [y] := by
  obtain ⟨M, eM, hM, vM⟩ := asmatrix_ok hA
  obtain ⟨h1, h2⟩ := hc3 hA
  obtain ⟨w, ew, hw, vw⟩ := sandwich_ok hA h1 hr
  refine ⟨M, w, eM, ?_, hM, hw, ?_⟩
  · unfold mv
    rw [show A.dim 1 = D by simp [ND.dim, hA], show A.dim 2 = D by simp [ND.dim, hA], ← pow_two]
    exact ew
  · intro x hx
    obtain ⟨a, a', ha, ha', rfl⟩ := flat_split hx
    rw [vw a ha a' ha', sum_flat]
    refine Finset.sum_congr rfl fun y hy => Finset.sum_congr rfl fun y' hy' => ?_
    rw [vM a ha a' ha' y (mem_range.1 hy) y' (mem_range.1 hy'), transferEntry, show A.dim 0 = d by simp [ND.dim, hA]]
    simp only [h2]

/-- **C33, partial** `TransferMatrix(A).mvr(l)` is the *transpose* of `asmatrix()` applied to `l`; the docstring and the use as `rmatvec`
of a `LinearOperator` call for the adjoint, see `mvr_not_adjoint`. -/
theorem mvr_partial (hA : A.shape = [d, D, D]) {l : ND ℂ} (hl : l.shape = [D ^ 2]) :
    ∃ M w, asmatrix A = .ok M ∧ mvr A l = .ok w ∧ M.shape = [D ^ 2, D ^ 2] ∧ w.shape = [D ^ 2] ∧
      ∀ x < D ^ 2, w.val [x] = ∑ y ∈ range (D ^ 2), M.val [y, x] * l.val [y] := by
  obtain ⟨M, eM, hM, vM⟩ := asmatrix_ok hA
  obtain ⟨h1, h2⟩ := tr3 hA
  obtain ⟨w, ew, hw, vw⟩ := sandwich_ok (Z := A.conj) h1 hA hl
  refine ⟨M, w, eM, ?_, hM, hw, ?_⟩
  · unfold mvr
    rw [show A.dim 1 = D by simp [ND.dim, hA], show A.dim 2 = D by simp [ND.dim, hA], ← pow_two]
    exact ew
  · intro x hx
    obtain ⟨a, a', ha, ha', rfl⟩ := flat_split hx
    rw [vw a ha a' ha', sum_flat]
    refine Finset.sum_congr rfl fun y hy => Finset.sum_congr rfl fun y' hy' => ?_
    rw [vM y (mem_range.1 hy) y' (mem_range.1 hy') a ha a' ha', transferEntry, show A.dim 0 = d by simp [ND.dim, hA]]
    simp only [h2, ND.val_conj]

/-- **C33** `TransferMatrix(A).mvr(l)`, as a matrix, is the transpose of the adjoint of `asmatrix()` applied to the transpose of `l`. -/
theorem mvr_transposed (hA : A.shape = [d, D, D]) {l l' : ND ℂ} (hl : l.shape = [D ^ 2])
    (hl' : ∀ a < D, ∀ b < D, l'.val [b * D + a] = l.val [a * D + b]) :
    ∃ M w, asmatrix A = .ok M ∧ mvr A l = .ok w ∧ ∀ a < D, ∀ b < D,
      w.val [a * D + b] = ∑ y ∈ range (D ^ 2), star (M.val [y, b * D + a]) * l'.val [y] := by
  obtain ⟨M, w, eM, ew, hM, hw, v⟩ := mvr_partial hA hl
  obtain ⟨M', eM', -, vM⟩ := asmatrix_ok hA
  rw [eM] at eM'
  obtain rfl : M = M' := by injection eM'
  refine ⟨M, w, eM, ew, fun a ha b hb => ?_⟩
  rw [v _ (flat_pair ha hb), sum_flat, sum_flat, Finset.sum_comm]
  refine Finset.sum_congr rfl fun y hy => Finset.sum_congr rfl fun y' hy' => ?_
  have hy := mem_range.1 hy
  have hy' := mem_range.1 hy'
  rw [vM y' hy' y hy a ha b hb, vM y hy y' hy' b hb a ha, hl' y' hy' y hy, transferEntry, transferEntry, star_sum]
  refine congrArg₂ (· * ·) (Finset.sum_congr rfl fun s _ => ?_) rfl
  rw [star_mul', star_star, mul_comm]

/-- **C33, negation** for `A = diag(1, i)` and `l` with a single entry in row 0, column 1, `mvr(l)` is not the adjoint applied to `l`. -/
theorem mvr_not_adjoint : ∃ A l M w : ND ℂ, A.shape = [1, 2, 2] ∧ l.shape = [2 ^ 2] ∧ asmatrix A = .ok M ∧ mvr A l = .ok w ∧
    ∃ x < 2 ^ 2, w.val [x] ≠ ∑ y ∈ range (2 ^ 2), star (M.val [y, x]) * l.val [y] := by
  let A : ND ℂ := ⟨[1, 2, 2], fun | [_, 0, 0] => 1 | [_, 1, 1] => Complex.I | _ => 0⟩
  let l : ND ℂ := ⟨[2 ^ 2], fun | [1] => 1 | _ => 0⟩
  obtain ⟨M, w, eM, ew, hM, hw, v⟩ := mvr_partial (A := A) (d := 1) (D := 2) rfl (l := l) rfl
  obtain ⟨M', eM', -, vM⟩ := asmatrix_ok (A := A) (d := 1) (D := 2) rfl
  rw [eM] at eM'
  obtain rfl : M = M' := by injection eM'
  refine ⟨A, l, M, w, rfl, rfl, eM, ew, 1, by norm_num, ?_⟩
  rw [v 1 (by norm_num)]
  have h11 : M.val [1, 1] = -Complex.I := by
    have := vM 0 (by omega) 1 (by omega) 0 (by omega) 1 (by omega)
    simpa [transferEntry, A, ND.dim] using this
  simp only [show (2 : ℕ) ^ 2 = 4 by norm_num, Finset.sum_range_succ, Finset.range_zero, Finset.sum_empty, l]
  simp only [h11, mul_zero, mul_one, zero_add, add_zero, star_neg, Complex.star_def, Complex.conj_I, neg_neg]
  intro h
  have := congrArg Complex.im h
  norm_num at this

end TransferMatrix

/-! ### the hypotheses can be met -/

example := TMap.mv_spec (E := ⟨⟨[2, 3, 3], fun _ => Complex.I⟩, onesND [2, 3, 3]⟩) rfl rfl (r := onesND [9]) rfl
example := TMap.mvr_spec (E := ⟨⟨[2, 3, 3], fun _ => Complex.I⟩, onesND [2, 3, 3]⟩) rfl rfl (l := onesND [9]) rfl
example := TransferMatrix.mv_spec (A := ⟨[2, 3, 3], fun _ => Complex.I⟩) rfl (r := onesND [9]) rfl
example := TransferMatrix.mvr_transposed (A := ⟨[2, 3, 3], fun _ => Complex.I⟩) rfl (l := onesND [9]) (l' := onesND [9]) rfl (fun _ _ _ _ => rfl)

end Xmps
