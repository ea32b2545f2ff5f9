import Verif.Model.Jac
import Verif.Lemmas.F2Ctx

/-!
# Assembling the blocks of `jac`
-/

namespace Xmps

open Finset Spec Xmps.Ncon

theorem chDiag_roots : DiagRoots chDiag invDiag := by
  intro l p lam hl hv hpos
  refine ⟨_, _, by unfold chDiag; rw [hl], by unfold invDiag; rfl, by simp, by simp, ?_, ?_⟩
  · intro i hi j hj
    simp only
    split_ifs with h
    · rw [hv i hi i hi, if_pos rfl, Complex.ofReal_re]
    · rfl
  · intro i hi j hj
    simp only [if_true]
    split_ifs with h
    · rw [hv i hi i hi, if_pos rfl, Complex.ofReal_re, one_div, Complex.ofReal_inv]
    · rfl

/-- the first position of the block `j` -/
def jacOff (sz : ℕ → ℕ) (j : ℕ) : ℕ := ∑ t ∈ range j, sz t

theorem jacOff_succ (sz : ℕ → ℕ) (j : ℕ) : jacOff sz (j + 1) = jacOff sz j + sz j := Finset.sum_range_succ _ _

theorem jacOff_mono (sz : ℕ → ℕ) {i j : ℕ} (h : i ≤ j) : jacOff sz i ≤ jacOff sz j := by
  induction h with
  | refl => exact le_rfl
  | step _ ih => rw [jacOff_succ]; omega

/-- the blocks are disjoint -/
theorem jacOff_inj {sz : ℕ → ℕ} {i j a b : ℕ} (ha : a < sz i) (hb : jacOff sz j ≤ jacOff sz i + a) (hb' : jacOff sz i + a < jacOff sz (j + 1)) : i = j := by
  rcases Nat.lt_trichotomy i j with h | h | h
  · have := jacOff_mono sz (show i + 1 ≤ j from h)
    rw [jacOff_succ] at this
    omega
  · exact h
  · have := jacOff_mono sz (show j + 1 ≤ i from h)
    omega

theorem cumsum_range (sz : ℕ → ℕ) : ∀ (N s : ℕ), cumsum s ((List.range N).map sz) = (List.range N).map fun j => s + jacOff sz (j + 1)
  | 0, _ => rfl
  | N + 1, s => by
    have h := cumsum_range (fun t => sz (t + 1)) N (s + sz 0)
    rw [List.range_succ_eq_map, List.map_cons, List.map_map, List.map_cons, List.map_map]
    unfold cumsum
    rw [show (sz ∘ Nat.succ) = fun t => sz (t + 1) from rfl, h]
    refine congrArg₂ List.cons (by simp [jacOff]) ?_
    · refine List.map_congr_left fun j _ => ?_
      show s + sz 0 + jacOff (fun t => sz (t + 1)) (j + 1) = s + jacOff sz (j + 1 + 1)
      unfold jacOff
      rw [Finset.sum_range_succ' sz (j + 1)]
      beta_reduce
      omega

section
variable {m N : ℕ} {k q : ℕ → ℕ}

theorem jacNulls_eq (hz : ∀ i < m + N, k i = 0 ∨ q i = 0 ↔ i < m) : jacNulls ((List.range (m + N)).map fun i => (k i, q i)) = m := by
  unfold jacNulls
  rw [List.range_add, List.map_append, List.filter_append, List.filter_eq_self.2, List.filter_eq_nil_iff.2]
  · simp
  · intro a ha
    simp only [List.map_map, List.mem_map, List.mem_range, Function.comp_def] at ha
    obtain ⟨j, hj, rfl⟩ := ha
    have := (hz (m + j) (by omega)).not.2 (by omega)
    simpa using this
  · intro a ha
    simp only [List.mem_map, List.mem_range] at ha
    obtain ⟨j, hj, rfl⟩ := ha
    simpa using (hz j (by omega)).2 hj

theorem jacShapes_eq (hz : ∀ i < m + N, k i = 0 ↔ i < m) : jacShapes ((List.range (m + N)).map fun i => (k i, q i)) =
    (List.range N).map fun j => jacOff (fun t => k (m + t) * q (m + t)) (j + 1) := by
  unfold jacShapes
  rw [List.range_add, List.map_append, List.filter_append, List.filter_eq_nil_iff.2, List.filter_eq_self.2]
  · rw [List.nil_append, List.map_map, List.map_map]
    have := cumsum_range (fun t => k (m + t) * q (m + t)) N 0
    simpa [Function.comp_def] using this
  · intro a ha
    simp only [List.map_map, List.mem_map, List.mem_range, Function.comp_def] at ha
    obtain ⟨j, hj, rfl⟩ := ha
    have := (hz (m + j) (by omega)).not.2 (by omega)
    simpa using this
  · intro a ha
    simp only [List.mem_map, List.mem_range] at ha
    obtain ⟨j, hj, rfl⟩ := ha
    simpa using (hz j (by omega)).2 hj

end

theorem jacInd_ok {sz : ℕ → ℕ} {N i : ℕ} (hi : i < N) :
    jacInd ((List.range N).map fun j => jacOff sz (j + 1)) i = .ok (jacOff sz i, jacOff sz (i + 1)) := by
  unfold jacInd
  rw [pyGet_ok (by simp; omega), ok_bind, pyGet_ok (by simpa using hi), ok_bind]
  congr 2
  · cases i with
    | zero => simp [jacOff]
    | succ i => simp
  · simp

/-- the entry `(i, j)` of `B.reshape(prod(B.shape[:2]), -1)` -/
def blkVal (B : ND ℂ) (b e i j : ℕ) : ℂ := B.val [i / b, i % b, j / e, j % e]

theorem rows2_ok {B : ND ℂ} {a b c e : ℕ} (hB : B.shape = [a, b, c, e]) (hab : a * b ≠ 0) :
    ∃ R, B.rows2 = .ok R ∧ R.shape = [a * b, c * e] ∧ ∀ i < a * b, ∀ j < c * e, R.val [i, j] = blkVal B b e i j := by
  have hs : B.size = a * b * (c * e) := by simp [ND.size, hB]; ring
  unfold ND.rows2
  rw [hB]
  simp only [List.take_succ_cons, List.take_zero, List.prod_cons, List.prod_nil, mul_one]
  unfold FMPS.otherExtent
  rw [if_neg hab, ok_bind, hs, Nat.mul_div_cancel_left _ (Nat.pos_of_ne_zero hab)]
  rw [ND.reshape_ok (by rw [hB]; simp; ring)]
  refine ⟨_, rfl, rfl, ?_⟩
  intro i hi j hj
  have hb : 0 < b := Nat.pos_of_ne_zero fun h => hab (by rw [h, mul_zero])
  have he : 0 < e := Nat.pos_of_ne_zero fun h => by rw [h, mul_zero] at hj; omega
  refine ND.reshapeR_val ?_ ?_
  · rw [hB]
    exact ⟨Nat.div_lt_of_lt_mul (by rw [mul_comm]; exact hi), Nat.mod_lt _ hb, Nat.div_lt_of_lt_mul (by rw [mul_comm]; exact hj), Nat.mod_lt _ he, trivial⟩
  · rw [hB]
    simp only [ravel_cons, ravel_nil, List.prod_cons, List.prod_nil]
    have h1 := Nat.div_add_mod i b
    have h2 := Nat.div_add_mod j e
    nlinarith

section
variable {m N : ℕ} {k q sz : ℕ → ℕ} (hsz : ∀ t < N, sz t = k t * q t) (hpos : ∀ t < N, sz t ≠ 0)
include hsz hpos

/-- one block is written -/
theorem setBlock_ok {J B : ND ℂ} {i j : ℕ} (hi : i < N) (hj : j < N) (hB : B.shape = [k i, q i, k j, q j]) :
    ∃ R J', B.rows2 = .ok R ∧ J.setBlock R (jacOff sz i, jacOff sz (i + 1)) (jacOff sz j, jacOff sz (j + 1)) = .ok J' ∧ J'.shape = J.shape ∧
      ∀ i' < N, ∀ j' < N, ∀ a < sz i', ∀ b < sz j', J'.val [jacOff sz i' + a, jacOff sz j' + b] =
        if (i', j') = (i, j) then blkVal B (q i') (q j') a b else J.val [jacOff sz i' + a, jacOff sz j' + b] := by
  obtain ⟨R, e1, hR, hRv⟩ := rows2_ok hB (by rw [← hsz i hi]; exact hpos i hi)
  rw [← hsz i hi, ← hsz j hj] at hR hRv
  have r1 : sz i = jacOff sz (i + 1) - jacOff sz i := by rw [jacOff_succ]; omega
  have r2 : sz j = jacOff sz (j + 1) - jacOff sz j := by rw [jacOff_succ]; omega
  obtain ⟨J', e2, hJ, hJv⟩ : ∃ J', J.setBlock R (jacOff sz i, jacOff sz (i + 1)) (jacOff sz j, jacOff sz (j + 1)) = .ok J' ∧ J'.shape = J.shape ∧
      ∀ a b, J'.val [a, b] = if jacOff sz i ≤ a ∧ a < jacOff sz (i + 1) ∧ jacOff sz j ≤ b ∧ b < jacOff sz (j + 1) then
        R.val [if sz i = 1 then 0 else a - jacOff sz i, if sz j = 1 then 0 else b - jacOff sz j] else J.val [a, b] := by
    unfold ND.setBlock
    rw [hR]
    simp only
    rw [if_pos ⟨Or.inl r1, Or.inl r2⟩]
    exact ⟨_, rfl, rfl, fun _ _ => rfl⟩
  refine ⟨R, J', e1, e2, hJ, ?_⟩
  intro i' hi' j' hj' a ha b hb
  rw [hJv]
  by_cases h : (i', j') = (i, j)
  · obtain ⟨rfl, rfl⟩ := Prod.mk.inj h
    rw [if_pos ⟨by omega, by rw [jacOff_succ]; omega, by omega, by rw [jacOff_succ]; omega⟩, if_pos rfl, Nat.add_sub_cancel_left, Nat.add_sub_cancel_left,
      ← hRv a ha b hb]
    congr 2
    · split_ifs <;> omega
    · split_ifs <;> simp; omega
  · rw [if_neg h, if_neg]
    rintro ⟨h1, h2, h3, h4⟩
    exact h (Prod.ext (jacOff_inj (b := 0) ha h1 h2) (jacOff_inj (b := 0) hb h3 h4))

/-- the loops -/
theorem jacFold_ok {F1 F2 G2 : ℕ → ℕ → Py (ND ℂ)} {A1 A2 A3 : ℕ → ℕ → ND ℂ} (hF : ∀ i < N, ∀ j < N,
      F1 (i + m) (j + m) = .ok (A1 i j) ∧ F2 (i + m) (j + m) = .ok (A2 i j) ∧ G2 (i + m) (j + m) = .ok (A3 i j) ∧ (A1 i j).shape = [k i, q i, k j, q j] ∧
      (A2 i j).shape = [k i, q i, k j, q j] ∧ (A3 i j).shape = [k i, q i, k j, q j]) :
    ∀ (ps : List (ℕ × ℕ)) (J : ND ℂ × ND ℂ × ND ℂ), (∀ p ∈ ps, p.1 < N ∧ p.2 < N) →
      ∃ J1 J2 J3, ps.foldlM (jacStep F1 F2 G2 m ((List.range N).map fun j => jacOff sz (j + 1))) J = .ok (J1, J2, J3) ∧
        J1.shape = J.1.shape ∧ J2.shape = J.2.1.shape ∧ J3.shape = J.2.2.shape ∧
        ∀ i < N, ∀ j < N, ∀ a < sz i, ∀ b < sz j,
          J1.val [jacOff sz i + a, jacOff sz j + b] = (if (i, j) ∈ ps then blkVal (A1 i j) (q i) (q j) a b else J.1.val [jacOff sz i + a, jacOff sz j + b]) ∧
          J2.val [jacOff sz i + a, jacOff sz j + b] = (if (i, j) ∈ ps then blkVal (A2 i j) (q i) (q j) a b else J.2.1.val [jacOff sz i + a, jacOff sz j + b]) ∧
          J3.val [jacOff sz i + a, jacOff sz j + b] = (if (i, j) ∈ ps then blkVal (A3 i j) (q i) (q j) a b else J.2.2.val [jacOff sz i + a, jacOff sz j + b])
  | [], J, _ => ⟨J.1, J.2.1, J.2.2, rfl, rfl, rfl, rfl, by intros; simp⟩
  | ij :: ps, J, hp => by
    obtain ⟨h1, h2⟩ := hp ij (by simp)
    obtain ⟨f1, f2, f3, s1, s2, s3⟩ := hF _ h1 _ h2
    obtain ⟨R1, J1, a1, b1, c1, v1⟩ := setBlock_ok hsz hpos (J := J.1) h1 h2 s1
    obtain ⟨R2, J2, a2, b2, c2, v2⟩ := setBlock_ok hsz hpos (J := J.2.1) h1 h2 s2
    obtain ⟨R3, J3, a3, b3, c3, v3⟩ := setBlock_ok hsz hpos (J := J.2.2) h1 h2 s3
    obtain ⟨K1, K2, K3, e, d1, d2, d3, hv⟩ := jacFold_ok hF ps (J1, J2, J3) fun p hq => hp p (by simp [hq])
    refine ⟨K1, K2, K3, ?_, d1.trans c1, d2.trans c2, d3.trans c3, ?_⟩
    · rw [List.foldlM_cons]
      have : jacStep F1 F2 G2 m ((List.range N).map fun j => jacOff sz (j + 1)) J ij = .ok (J1, J2, J3) := by
        unfold jacStep
        rw [f1, ok_bind, f2, ok_bind, f3, ok_bind, jacInd_ok h1, ok_bind, jacInd_ok h2, ok_bind, a1, ok_bind, b1, ok_bind, a2, ok_bind, b2, ok_bind, a3, ok_bind,
          b3, ok_bind]
      rw [this, ok_bind, e]
    · intro i hi j hj a ha b hb
      obtain ⟨w1, w2, w3⟩ := hv i hi j hj a ha b hb
      have key : ∀ (u w z : ℂ), (if (i, j) ∈ ps then u else if (i, j) = (ij.1, ij.2) then u else z) = if (i, j) ∈ ij :: ps then u else z := by
        intro u w z
        by_cases g1 : (i, j) ∈ ps
        · simp [g1]
        · by_cases g2 : (i, j) = ij <;> simp [g1, g2]
      have key' : ∀ (A : ℕ → ℕ → ND ℂ) (z : ℂ), (if (i, j) = (ij.1, ij.2) then blkVal (A ij.1 ij.2) (q i) (q j) a b else z) =
          if (i, j) = (ij.1, ij.2) then blkVal (A i j) (q i) (q j) a b else z := by
        intro A z
        split_ifs with g
        · obtain ⟨rfl, rfl⟩ := Prod.mk.inj g
          rfl
        · rfl
      rw [w1, w2, w3, v1 i hi j hj a ha b hb, v2 i hi j hj a ha b hb, v3 i hi j hj a ha b hb, key', key', key', key _ 0, key _ 0, key _ 0]
      exact ⟨rfl, rfl, rfl⟩

omit hsz hpos in
theorem jacPairs_mem {n : ℕ} {p : ℕ × ℕ} : p ∈ jacPairs n ↔ p.1 < n ∧ p.2 < n := by
  unfold jacPairs
  simp only [List.mem_flatMap, List.mem_map, List.mem_range]
  constructor
  · rintro ⟨i, hi, j, hj, rfl⟩
    exact ⟨hi, hj⟩
  · rintro ⟨h1, h2⟩
    exact ⟨p.1, h1, p.2, h2, rfl⟩

end

/-- the three matrices hold the blocks of the sites after the first `m` -/
theorem jacFill_ok {m N : ℕ} {k q : ℕ → ℕ} (hN : 0 < N) (hq : ∀ i < m + N, 0 < q i) (hz : ∀ i < m + N, k i = 0 ↔ i < m) {F1 F2 G2 : ℕ → ℕ → Py (ND ℂ)}
    {A1 A2 A3 : ℕ → ℕ → ND ℂ} (hF : ∀ i < N, ∀ j < N,
      F1 (i + m) (j + m) = .ok (A1 i j) ∧ F2 (i + m) (j + m) = .ok (A2 i j) ∧ G2 (i + m) (j + m) = .ok (A3 i j) ∧
      (A1 i j).shape = [k (m + i), q (m + i), k (m + j), q (m + j)] ∧ (A2 i j).shape = [k (m + i), q (m + i), k (m + j), q (m + j)] ∧
      (A3 i j).shape = [k (m + i), q (m + i), k (m + j), q (m + j)]) :
    ∃ J1 J2 J3, jacFill F1 F2 G2 ((List.range (m + N)).map fun i => (k i, q i)) = .ok (J1, J2, J3) ∧
      let sz := fun t => k (m + t) * q (m + t)
      let D := jacOff sz N
      J1.shape = [D, D] ∧ J2.shape = [D, D] ∧ J3.shape = [D, D] ∧
        ∀ i < N, ∀ j < N, ∀ a < sz i, ∀ b < sz j,
          J1.val [jacOff sz i + a, jacOff sz j + b] = blkVal (A1 i j) (q (m + i)) (q (m + j)) a b ∧
          J2.val [jacOff sz i + a, jacOff sz j + b] = blkVal (A2 i j) (q (m + i)) (q (m + j)) a b ∧
          J3.val [jacOff sz i + a, jacOff sz j + b] = blkVal (A3 i j) (q (m + i)) (q (m + j)) a b := by
  have hpos : ∀ t < N, k (m + t) * q (m + t) ≠ 0 := fun t ht => by
    have h1 := (hz (m + t) (by omega)).not.2 (by omega)
    have h2 := hq (m + t) (by omega)
    exact Nat.mul_ne_zero h1 (by omega)
  set sz := fun t => k (m + t) * q (m + t) with hsz
  unfold jacFill
  rw [jacShapes_eq hz, jacNulls_eq (fun i hi => by rw [← hz i hi]; have := hq i hi; omega)]
  have hlast : FMPS.pyLast ((List.range N).map fun j => jacOff sz (j + 1)) = .ok (jacOff sz N) := by
    unfold FMPS.pyLast pyGetI
    rw [if_neg (by omega), if_pos (by simp; omega), pyGet_ok (by simp; omega)]
    simp only [List.getElem_map, List.getElem_range, List.length_map, List.length_range]
    congr 2
    omega
  rw [hlast, ok_bind]
  simp only [List.length_map, List.length_range]
  obtain ⟨J1, J2, J3, e, s1, s2, s3, hv⟩ := jacFold_ok (m := m) (N := N) (k := fun t => k (m + t)) (q := fun t => q (m + t)) (sz := sz) (fun _ _ => rfl) hpos hF
    (jacPairs N) ((zerosND [jacOff sz N, jacOff sz N]).smul (-Complex.I), (zerosND [jacOff sz N, jacOff sz N]).smul (-Complex.I),
      (zerosND [jacOff sz N, jacOff sz N]).smul (-Complex.I)) (fun p hp => by rwa [jacPairs_mem] at hp)
  refine ⟨J1, J2, J3, e, s1, s2, s3, ?_⟩
  intro i hi j hj a ha b hb
  have hmem : (i, j) ∈ jacPairs N := by
    rw [jacPairs_mem]
    exact ⟨hi, hj⟩
  have := hv i hi j hj a ha b hb
  simpa only [if_pos hmem] using this

/-! ### sums over the coordinates -/

theorem sum_blocks (sz : ℕ → ℕ) (f : ℕ → ℂ) : ∀ N, ∑ μ ∈ range (jacOff sz N), f μ = ∑ j ∈ range N, ∑ a ∈ range (sz j), f (jacOff sz j + a)
  | 0 => rfl
  | N + 1 => by rw [jacOff_succ, Finset.sum_range_add, sum_blocks sz f N, Finset.sum_range_succ]

theorem flatten_length {sz : ℕ → ℕ} {F : ℕ → List ℂ} : ∀ N, (∀ t < N, (F t).length = sz t) → ((List.range N).map F).flatten.length = jacOff sz N
  | 0, _ => rfl
  | N + 1, h => by
    rw [List.range_succ, List.map_append, List.flatten_append, List.length_append, flatten_length N fun t ht => h t (by omega), jacOff_succ]
    simp [h N (by omega)]

theorem flatten_getD {sz : ℕ → ℕ} {F : ℕ → List ℂ} : ∀ N, (∀ t < N, (F t).length = sz t) → ∀ j < N, ∀ a < sz j,
    ((List.range N).map F).flatten.getD (jacOff sz j + a) 0 = (F j).getD a 0
  | 0, _, j, hj, _, _ => absurd hj (by omega)
  | N + 1, h, j, hj, a, ha => by
    have hl := flatten_length N fun t ht => h t (by omega)
    rw [List.range_succ, List.map_append, List.flatten_append]
    rcases Nat.lt_or_ge j N with hjN | hjN
    · have : jacOff sz j + a < jacOff sz N := by
        have := jacOff_mono sz (show j + 1 ≤ N from hjN)
        rw [jacOff_succ] at this
        omega
      rw [List.getD_append _ _ _ _ (by rw [hl]; exact this), flatten_getD N (fun t ht => h t (by omega)) j hjN a ha]
    · obtain rfl : j = N := by omega
      rw [List.getD_append_right _ _ _ _ (by rw [hl]; omega), hl]
      simp

theorem flat_getD {w : ND ℂ} {k q a b : ℕ} (hw : w.shape = [k, q]) (ha : a < k) (hb : b < q) : w.flat.getD (a * q + b) 0 = w.val [a, b] := by
  have hlt : a * q + b < k * q := by nlinarith
  have hl : w.flat.length = k * q := by simp [ND.flat, ND.size, hw]
  rw [List.getD_eq_getElem _ _ (by rw [hl]; exact hlt)]
  unfold ND.flat
  rw [List.getElem_map, List.getElem_range, hw]
  congr 1
  have : ravel [k, q] [a, b] = a * q + b := by simp
  rw [← this, unravel_ravel (show InB [k, q] [a, b] from ⟨ha, hb, trivial⟩)]

/-- a bilinear form given by blocks, evaluated on coordinate lists -/
theorem blocks_form {m N : ℕ} {k q : ℕ → ℕ} {J : ND ℂ} {A : ℕ → ℕ → ND ℂ} (f g : ℂ → ℂ) {W Z : ℕ → ND ℂ}
    (hJ : ∀ i < N, ∀ j < N, ∀ a < k (m + i) * q (m + i), ∀ b < k (m + j) * q (m + j),
      J.val [jacOff (fun t => k (m + t) * q (m + t)) i + a, jacOff (fun t => k (m + t) * q (m + t)) j + b] = blkVal (A i j) (q (m + i)) (q (m + j)) a b)
    (hW : ∀ i < m + N, (W i).shape = [k i, q i]) (hZ : ∀ i < m + N, (Z i).shape = [k i, q i]) :
    ∑ μ ∈ range (jacOff (fun t => k (m + t) * q (m + t)) N), ∑ ν ∈ range (jacOff (fun t => k (m + t) * q (m + t)) N),
        f (((List.range N).map fun j => (W (m + j)).flat).flatten.getD μ 0) * g (((List.range N).map fun j => (Z (m + j)).flat).flatten.getD ν 0) * J.val [μ, ν] =
      ∑ i ∈ range N, ∑ j ∈ range N, ∑ a ∈ range (k (m + i)), ∑ b ∈ range (q (m + i)), ∑ c ∈ range (k (m + j)), ∑ e ∈ range (q (m + j)),
        f ((W (m + i)).val [a, b]) * g ((Z (m + j)).val [c, e]) * (A i j).val [a, b, c, e] := by
  rw [sum_blocks]
  refine Finset.sum_congr rfl fun i hi => ?_
  have hi := Finset.mem_range.1 hi
  have hl : ∀ {V : ℕ → ND ℂ}, (∀ i < m + N, (V i).shape = [k i, q i]) → ∀ t < N, ((V (m + t)).flat).length = k (m + t) * q (m + t) := by
    intro V hV t ht
    simp [ND.flat, ND.size, hV (m + t) (by omega)]
  calc _ = ∑ a ∈ range (k (m + i) * q (m + i)), ∑ j ∈ range N, ∑ c ∈ range (k (m + j) * q (m + j)),
        f (((W (m + i)).flat).getD a 0) * g (((Z (m + j)).flat).getD c 0) * blkVal (A i j) (q (m + i)) (q (m + j)) a c := by
        refine Finset.sum_congr rfl fun a ha => ?_
        rw [sum_blocks]
        refine Finset.sum_congr rfl fun j hj => Finset.sum_congr rfl fun c hc => ?_
        have hj := Finset.mem_range.1 hj
        have ha := Finset.mem_range.1 ha
        have hc := Finset.mem_range.1 hc
        rw [flatten_getD (sz := fun t => k (m + t) * q (m + t)) N (hl hW) i hi a ha, flatten_getD (sz := fun t => k (m + t) * q (m + t)) N (hl hZ) j hj c hc,
          hJ i hi j hj a ha c hc]
    _ = ∑ j ∈ range N, ∑ a ∈ range (k (m + i) * q (m + i)), ∑ c ∈ range (k (m + j) * q (m + j)),
        f (((W (m + i)).flat).getD a 0) * g (((Z (m + j)).flat).getD c 0) * blkVal (A i j) (q (m + i)) (q (m + j)) a c := Finset.sum_comm
    _ = _ := by
        refine Finset.sum_congr rfl fun j hj => ?_
        have hj := Finset.mem_range.1 hj
        rw [sum_range_mul]
        refine Finset.sum_congr rfl fun a ha => Finset.sum_congr rfl fun b hb => ?_
        rw [sum_range_mul]
        refine Finset.sum_congr rfl fun c hc => Finset.sum_congr rfl fun e he => ?_
        simp only [Finset.mem_range] at ha hb hc he
        rw [flat_getD (hW (m + i) (by omega)) ha hb, flat_getD (hZ (m + j) (by omega)) hc he]
        unfold blkVal
        have d1 : (a * q (m + i) + b) / q (m + i) = a := by
          rw [mul_comm, Nat.mul_add_div (by omega), Nat.div_eq_of_lt hb, add_zero]
        have d2 : (a * q (m + i) + b) % q (m + i) = b := by
          rw [mul_comm, Nat.mul_add_mod, Nat.mod_eq_of_lt hb]
        have d3 : (c * q (m + j) + e) / q (m + j) = c := by
          rw [mul_comm, Nat.mul_add_div (by omega), Nat.div_eq_of_lt he, add_zero]
        have d4 : (c * q (m + j) + e) % q (m + j) = e := by
          rw [mul_comm, Nat.mul_add_mod, Nat.mod_eq_of_lt he]
        rw [d1, d2, d3, d4]

/-! ### sites without coordinates elsewhere -/

theorem rows2_value (B : ND ℂ) : (∃ R, B.rows2 = .ok R) ∨ B.rows2 = .error .valueError := by
  unfold ND.rows2 FMPS.otherExtent
  simp only
  split_ifs with h
  · rw [err_bind]
    exact Or.inr rfl
  · rw [ok_bind]
    unfold ND.reshape
    split_ifs
    · exact Or.inl ⟨_, rfl⟩
    · exact Or.inr rfl

theorem setBlock_value (J B : ND ℂ) (r c : ℕ × ℕ) : (∃ R, J.setBlock B r c = .ok R) ∨ J.setBlock B r c = .error .valueError := by
  unfold ND.setBlock
  split
  · rename_i m n _
    by_cases h : (m = r.2 - r.1 ∨ m = 1) ∧ (n = c.2 - c.1 ∨ n = 1)
    · rw [if_pos h]
      exact Or.inl ⟨_, rfl⟩
    · rw [if_neg h]
      exact Or.inr rfl
  · exact Or.inr rfl

theorem cumsum_length : ∀ (s : ℕ) (l : List ℕ), (cumsum s l).length = l.length
  | _, [] => rfl
  | s, a :: l => by simp [cumsum, cumsum_length]

theorem jacInd_some {shapes : List ℕ} {i : ℕ} (hi : i < shapes.length) : ∃ r, jacInd shapes i = .ok r := by
  unfold jacInd
  rw [pyGet_ok (by simp; omega), ok_bind, pyGet_ok (by simpa using hi), ok_bind]
  exact ⟨_, rfl⟩

/-- a site without coordinates after as many sites as there are such sites: the block is not reshaped -/
theorem jacFill_gap {L : ℕ} {k q : ℕ → ℕ} (hq : ∀ i < L, 0 < q i) {F1 F2 G2 : ℕ → ℕ → Py (ND ℂ)} {A1 A2 A3 : ℕ → ℕ → ND ℂ}
    (hF : ∀ i < L, ∀ j < L, F1 i j = .ok (A1 i j) ∧ F2 i j = .ok (A2 i j) ∧ G2 i j = .ok (A3 i j) ∧ (A1 i j).shape = [k i, q i, k j, q j]) {e : ℕ}
    (he : e < L) (hk : k e = 0) (hn : jacNulls ((List.range L).map fun i => (k i, q i)) ≤ e) :
    jacFill F1 F2 G2 ((List.range L).map fun i => (k i, q i)) = .error .valueError := by
  set sh := (List.range L).map fun i => (k i, q i) with hsh
  have hlen : (jacShapes sh).length + jacNulls sh = L := by
    unfold jacShapes jacNulls
    rw [cumsum_length, List.length_map]
    have h1 : sh.filter (fun s => decide (s.1 = 0 ∨ s.2 = 0)) = sh.filter fun s => !decide (s.1 ≠ 0) := by
      refine List.filter_congr fun s hs => ?_
      simp only [hsh, List.mem_map, List.mem_range] at hs
      obtain ⟨i, hi, rfl⟩ := hs
      have := hq i hi
      have h0 : ¬ q i = 0 := by omega
      simp [h0]
    rw [h1, ← List.length_eq_length_filter_add, hsh]
    simp
  have hpos : 0 < (jacShapes sh).length := by omega
  unfold jacFill
  have hlast : ∃ D, FMPS.pyLast (jacShapes sh) = .ok D := by
    unfold FMPS.pyLast pyGetI
    rw [if_neg (by omega), if_pos (by omega), pyGet_ok (by omega)]
    exact ⟨_, rfl⟩
  obtain ⟨D, hD⟩ := hlast
  rw [hD, ok_bind]
  -- restrict to the pairs that occur
  have key : ∀ (ps : List (ℕ × ℕ)), (∀ p ∈ ps, p.1 < (jacShapes sh).length ∧ p.2 < (jacShapes sh).length) → (e - jacNulls sh, 0) ∈ ps →
      ∀ J, ps.foldlM (jacStep F1 F2 G2 (jacNulls sh) (jacShapes sh)) J = .error .valueError := by
    intro ps
    induction ps with
    | nil => intro _ h; simp at h
    | cons a ps ih =>
      intro hps hmem J
      obtain ⟨h1, h2⟩ := hps a (by simp)
      obtain ⟨f1, f2, f3, s1⟩ := hF (a.1 + jacNulls sh) (by omega) (a.2 + jacNulls sh) (by omega)
      obtain ⟨r, hr⟩ := jacInd_some h1
      obtain ⟨c, hc⟩ := jacInd_some h2
      rw [List.foldlM_cons]
      have hstep : jacStep F1 F2 G2 (jacNulls sh) (jacShapes sh) J a = .error .valueError ∨
          a ≠ (e - jacNulls sh, 0) ∧ ∃ J', jacStep F1 F2 G2 (jacNulls sh) (jacShapes sh) J a = .ok J' := by
        unfold jacStep
        rw [f1, ok_bind, f2, ok_bind, f3, ok_bind, hr, ok_bind, hc, ok_bind]
        by_cases ha : a = (e - jacNulls sh, 0)
        · left
          have hae : a.1 + jacNulls sh = e := by rw [ha]; simp only; omega
          have : (A1 (a.1 + jacNulls sh) (a.2 + jacNulls sh)).rows2 = .error .valueError := by
            unfold ND.rows2 FMPS.otherExtent
            rw [s1, hae, hk]
            simp [err_bind]
          rw [this, err_bind]
        · rcases rows2_value (A1 (a.1 + jacNulls sh) (a.2 + jacNulls sh)) with ⟨R1, e1⟩ | e1
          swap
          · rw [e1, err_bind]
            exact Or.inl rfl
          rw [e1, ok_bind]
          rcases setBlock_value J.1 R1 r c with ⟨S1, d1⟩ | d1
          swap
          · rw [d1, err_bind]
            exact Or.inl rfl
          rw [d1, ok_bind]
          rcases rows2_value (A2 (a.1 + jacNulls sh) (a.2 + jacNulls sh)) with ⟨R2, e2⟩ | e2
          swap
          · rw [e2, err_bind]
            exact Or.inl rfl
          rw [e2, ok_bind]
          rcases setBlock_value J.2.1 R2 r c with ⟨S2, d2⟩ | d2
          swap
          · rw [d2, err_bind]
            exact Or.inl rfl
          rw [d2, ok_bind]
          rcases rows2_value (A3 (a.1 + jacNulls sh) (a.2 + jacNulls sh)) with ⟨R3, e3⟩ | e3
          swap
          · rw [e3, err_bind]
            exact Or.inl rfl
          rw [e3, ok_bind]
          rcases setBlock_value J.2.2 R3 r c with ⟨S3, d3⟩ | d3
          swap
          · rw [d3, err_bind]
            exact Or.inl rfl
          rw [d3, ok_bind]
          exact Or.inr ⟨ha, _, rfl⟩
      rcases hstep with h | ⟨hne, J', h⟩
      · rw [h, err_bind]
      · rw [h, ok_bind]
        refine ih (fun p hp => hps p (by simp [hp])) ?_ J'
        rcases List.mem_cons.1 hmem with h' | h'
        · exact absurd h'.symm hne
        · exact h'
  refine key _ (fun p hp => by rwa [jacPairs_mem] at hp) ?_ _
  rw [jacPairs_mem]
  simp only
  omega

/-- if the sites without coordinates do not come first, one of them is after as many sites as there are of them -/
theorem jacNulls_gap {L : ℕ} {k q : ℕ → ℕ} (hq : ∀ i < L, 0 < q i) (hgap : ¬ ∃ m, ∀ i < L, k i = 0 ↔ i < m) :
    ∃ e < L, k e = 0 ∧ jacNulls ((List.range L).map fun i => (k i, q i)) ≤ e := by
  by_contra hcon
  push Not at hcon
  set n := jacNulls ((List.range L).map fun i => (k i, q i)) with hn
  have hcard : ((range L).filter fun i => k i = 0).card = n := by
    rw [hn]
    unfold jacNulls
    rw [List.filter_map, List.length_map]
    have : (List.range L).filter ((fun s : ℕ × ℕ => decide (s.1 = 0 ∨ s.2 = 0)) ∘ fun i => (k i, q i)) = (List.range L).filter fun i => decide (k i = 0) := by
      refine List.filter_congr fun i hi => ?_
      have := hq i (List.mem_range.1 hi)
      have h0 : ¬ q i = 0 := by omega
      simp [h0]
    rw [this]
    rfl
  have hsub : (range L).filter (fun i => k i = 0) ⊆ range n := by
    intro i hi
    simp only [Finset.mem_filter, Finset.mem_range] at hi ⊢
    exact hcon i hi.1 hi.2
  have heq := Finset.eq_of_subset_of_card_le hsub (by rw [hcard, Finset.card_range])
  refine hgap ⟨n, fun i hi => ?_⟩
  have := Finset.ext_iff.1 heq i
  simp only [Finset.mem_filter, Finset.mem_range] at this
  tauto

end Xmps
