import Verif.Model.Imps
import Verif.Spec.Imps
import Verif.Lemmas.ImpsCore
import Verif.Props.Vidal
import Verif.Props.LapackSvd

/-!
# C46: the canonical form of an infinite MPS
-/

namespace Xmps

open Finset Matrix Spec ImpsCore ComplexOrder

/-! ## Operations as matrix operations -/

theorem matmul22M {A B : ND ℂ} {m k n : ℕ} (hA : A.shape = [m, k]) (hB : B.shape = [k, n]) :
    ∃ R, A.matmul B = .ok R ∧ R.shape = [m, n] ∧ toM m n R = toM m k A * toM k n B := by
  obtain ⟨R, h1, h2, h3⟩ := ND.matmul22 hA hB
  exact ⟨R, h1, h2, (toM_mul_iff.2 fun i _ j _ => (h3 i j).symm).symm⟩

theorem matmul32M {A B : ND ℂ} {d m k n : ℕ} (hA : A.shape = [d, m, k]) (hB : B.shape = [k, n]) :
    ∃ R, A.matmul B = .ok R ∧ R.shape = [d, m, n] ∧ ∀ s, toM3 m n R s = toM3 m k A s * toM k n B := by
  obtain ⟨R, h1, h2, h3⟩ := ND.matmul32 hA hB
  refine ⟨R, h1, h2, fun s => ?_⟩
  ext i j
  simp [h3, Matrix.mul_apply, Finset.sum_range]

theorem matmul23M {A B : ND ℂ} {d m k n : ℕ} (hA : A.shape = [m, k]) (hB : B.shape = [d, k, n]) :
    ∃ R, A.matmul B = .ok R ∧ R.shape = [d, m, n] ∧ ∀ s, toM3 m n R s = toM m k A * toM3 k n B s := by
  obtain ⟨R, h1, h2, h3⟩ := ND.matmul23 hA hB
  refine ⟨R, h1, h2, fun s => ?_⟩
  ext i j
  simp [h3, Matrix.mul_apply, Finset.sum_range]

theorem toM_smul {m n : ℕ} (c : ℂ) (A : ND ℂ) : toM m n (A.smul c) = c • toM m n A := by
  ext i j
  simp [ND.smul]

theorem toM3_smul {m n : ℕ} (c : ℂ) (A : ND ℂ) (s : ℕ) : toM3 m n (A.smul c) s = c • toM3 m n A s := by
  ext i j
  simp [ND.smul]

theorem toM_tr {m n : ℕ} {A : ND ℂ} (h : A.shape = [m, n]) : A.tr.shape = [n, m] ∧ toM n m A.tr = (toM m n A)ᵀ := by
  constructor
  · simp [ND.tr, h]
  · ext i j
    simp [ND.tr, h]

theorem toM_diag {n : ℕ} (v : List ℂ) (h : v.length = n) : (diagND v).shape = [n, n] ∧ toM n n (diagND v) = diagonal fun i : Fin n => v.getD i 0 := by
  constructor
  · simp [diagND, h]
  · ext i j
    simp [diagND, diagonal_apply, Fin.ext_iff]

theorem colsOrtho_toM {Q : ND ℂ} {m n : ℕ} (h : Q.shape = [m, n]) (hQ : ColsOrtho Q) : (toM m n Q)ᴴ * toM m n Q = 1 := by
  ext i j
  have := hQ i (by simp [ND.dim, h]) j (by simp [ND.dim, h])
  rw [show Q.dim 0 = m by simp [ND.dim, h]] at this
  simp only [Matrix.mul_apply, conjTranspose_apply, toM_apply, Matrix.one_apply, Fin.ext_iff]
  rw [← this, Finset.sum_range]

theorem rowsOrtho_toM {Q : ND ℂ} {m n : ℕ} (h : Q.shape = [m, n]) (hQ : RowsOrtho Q) : toM m n Q * (toM m n Q)ᴴ = 1 := by
  ext i j
  have := hQ i (by simp [ND.dim, h]) j (by simp [ND.dim, h])
  rw [show Q.dim 1 = n by simp [ND.dim, h]] at this
  simp only [Matrix.mul_apply, conjTranspose_apply, toM_apply, Matrix.one_apply, Fin.ext_iff]
  rw [← this, Finset.sum_range]

theorem inv_toM {inv : ND ℂ → Py (ND ℂ)} (hinv : InvLaw inv) {M : ND ℂ} {n : ℕ} (hM : M.shape = [n, n]) (hu : IsUnit (toM n n M)) :
    ∃ R, inv M = .ok R ∧ R.shape = [n, n] ∧ toM n n R * toM n n M = 1 := by
  obtain ⟨u, hu⟩ := hu
  have h1 : toM n n M * (u⁻¹ : (Matrix (Fin n) (Fin n) ℂ)ˣ) = 1 := by rw [← hu]; exact u.mul_inv
  obtain ⟨R, k1, k2, k3⟩ := hinv M (ofM (u⁻¹ : (Matrix (Fin n) (Fin n) ℂ)ˣ)) n hM rfl (by
    rw [← toM_ofM (u⁻¹ : (Matrix (Fin n) (Fin n) ℂ)ˣ).1] at h1
    exact toM_mul_one_iff.1 h1)
  refine ⟨R, k1, k2, ?_⟩
  have : toM n n R = (u⁻¹ : (Matrix (Fin n) (Fin n) ℂ)ˣ) := by
    rw [toM_eq_iff.2 k3, toM_ofM]
  rw [this]
  exact mul_eq_one_comm.1 h1

theorem svd_toM {svd : ND ℂ → Py (ND ℂ × List ℝ × ND ℂ)} (hsvd : SVDLaw svd) {M : ND ℂ} {n : ℕ} (hn : 0 < n) (hM : M.shape = [n, n]) :
    ∃ U S V, svd M = .ok (U, S, V) ∧ U.shape = [n, n] ∧ S.length = n ∧ V.shape = [n, n] ∧ (toM n n U)ᴴ * toM n n U = 1 ∧
      toM n n V * (toM n n V)ᴴ = 1 ∧ (∀ x ∈ S, 0 ≤ x) ∧ S.Pairwise (· ≥ ·) ∧
      toM n n U * dS (fun i : Fin n => S.getD i 0) * toM n n V = toM n n M := by
  obtain ⟨U, S, V, h1, h2, h3, h4, h5, h6, h7, h8, h9⟩ := hsvd M n n hM hn hn
  rw [min_self] at h2 h3 h4 h9
  refine ⟨U, S, V, h1, h2, h3, h4, colsOrtho_toM h2 h5, rowsOrtho_toM h4 h6, h7, h8, ?_⟩
  ext i j
  rw [dS, Matrix.mul_apply]
  simp only [mul_diagonal, toM_apply]
  rw [h9 i i.2 j j.2, Finset.sum_range]

namespace IMPS

section

variable {eigs : ND ℂ → Py (ℝ × ND ℂ × ND ℂ)} {chol : ND ℂ → Py (ND ℂ)} {svd : ND ℂ → Py (ND ℂ × List ℝ × ND ℂ)}
  {inv : ND ℂ → Py (ND ℂ)} {d D : ℕ} {A l r : ND ℂ} {eta : ℝ}

/-- what `vidalPair` computes -/
theorem vidalPair_ok (hchol : CholLaw chol) (hsvd : SVDLaw svd) (hinv : InvLaw inv) (hD : 0 < D) (he : eigs A = .ok (eta, l, r))
    (hf : FixedPoints d D A l r eta) :
    ∃ G L S X Y U V Xi Wi, vidalPair eigs chol svd inv A = .ok (G, L, S, l, r) ∧ G.shape = [d, D, D] ∧ L.shape = [D, D] ∧
      S.length = D ∧ S.Pairwise (· ≥ ·) ∧
      Data d (toM3 D D A) eta (toM D D l) (toM D D r) X Y U V Xi Wi (fun i : Fin D => S.getD i 0) ∧
      (∀ s, toM3 D D G s = ((Real.sqrt (eta / ∑ i : Fin D, S.getD i 0 * S.getD i 0) : ℝ) : ℂ)⁻¹ • G0 (toM3 D D A) U V Xi Wi s) ∧
      toM D D L = ((Real.sqrt (∑ i : Fin D, S.getD i 0 * S.getD i 0) : ℝ) : ℂ)⁻¹ • dS (fun i : Fin D => S.getD i 0) := by
  obtain ⟨X, x1, x2, x3⟩ := hchol r D hf.shape_r hf.pos_r
  obtain ⟨Y, y1, y2, y3⟩ := hchol l D hf.shape_l hf.pos_l
  obtain ⟨t1, t2⟩ := toM_tr y2
  obtain ⟨YX, m1, m2, m3⟩ := matmul22M t1 x2
  obtain ⟨U, S, V, s1, s2, s3, s4, s5, s6, s7, s8, s9⟩ := svd_toM hsvd hD m2
  have hXu : IsUnit (toM D D X) := by
    have := hf.pos_r.isUnit
    rw [← x3] at this
    exact isUnit_of_mul_isUnit_left this
  have hYu : IsUnit (toM D D Y.tr) := by
    rw [t2]
    have := hf.pos_l.isUnit
    rw [← y3] at this
    exact (Matrix.isUnit_transpose _).2 (isUnit_of_mul_isUnit_left this)
  obtain ⟨Xi, i1, i2, i3⟩ := inv_toM hinv x2 hXu
  obtain ⟨Wi, w1, w2, w3⟩ := inv_toM hinv t1 hYu
  obtain ⟨VX, v1, v2, v3⟩ := matmul22M s4 i2
  obtain ⟨YU, u1, u2, u3⟩ := matmul22M w2 s2
  obtain ⟨G1, g1, g2, g3⟩ := matmul23M v2 hf.shape
  obtain ⟨G2, k1, k2, k3⟩ := matmul32M g2 u2
  have hsum : (S.map fun x => x * x).sum = ∑ i : Fin D, S.getD i 0 * S.getD i 0 := by
    subst s3
    rw [← List.sum_ofFn]
    congr 1
    refine List.ext_getElem (by simp) fun k h1 h2 => ?_
    simp at h1
    simp [h1]
  refine ⟨G2.smul ((Real.sqrt (eta / (S.map fun x => x * x).sum) : ℝ) : ℂ)⁻¹, (diagND (S.map fun x : ℝ => (x : ℂ))).smul
    ((Real.sqrt ((S.map fun x => x * x).sum) : ℝ) : ℂ)⁻¹, S, toM D D X, toM D D Y, toM D D U, toM D D V, toM D D Xi, toM D D Wi, ?_, k2, (toM_diag _ (by simpa using s3)).1, s3, s8,
    ⟨hf.eta_pos, hf.right, ?_, x3, y3, s5, s6, ?_, ?_, i3, ?_⟩, ?_, ?_⟩
  · unfold vidalPair
    simp only [he, ok_bind, x1, y1, m1, s1, i1, v1, w1, u1, g1, k1]
  · have := congrArg transpose hf.left
    rw [transpose_sum, transpose_smul] at this
    rw [← this]
    refine sum_congr rfl fun s _ => ?_
    rw [transpose_mul, transpose_mul, transpose_transpose, Matrix.mul_assoc]
    rfl
  · intro i
    refine s7 _ ?_
    rw [List.getD_eq_getElem _ _ (by rw [s3]; exact i.2)]
    exact List.getElem_mem _
  · rw [← t2, ← m3]
    exact s9
  · rw [← t2]
    exact w3
  · intro s
    rw [toM3_smul, k3, g3, v3, u3, hsum, G0]
  · rw [toM_smul, (toM_diag (n := D) _ (by simpa using s3)).2, hsum]
    congr 1
    rw [dS]
    congr 1
    funext i
    rw [List.getD_eq_getElem _ _ (by rw [List.length_map, s3]; exact i.2), List.getElem_map, List.getD_eq_getElem _ _ (by rw [s3]; exact i.2)]

/-- The pair `(G, L)` is in canonical form: `L` is diagonal with positive decreasing entries `lam`, `Σ lam² = 1`, `G L` is a
right and `L G` a left isometry. -/
structure VidalForm (d D : ℕ) (G L : ND ℂ) (lam : List ℝ) : Prop where
  shape : G.shape = [d, D, D]
  diag : DiagReal L lam
  len : lam.length = D
  pos : ∀ x ∈ lam, 0 < x
  dec : lam.Pairwise (· ≥ ·)
  unit : (lam.map fun x => x ^ 2).sum = 1
  right : ∑ s ∈ range d, toM3 D D G s * toM D D L * (toM3 D D G s * toM D D L)ᴴ = 1
  left : ∑ s ∈ range d, (toM D D L * toM3 D D G s)ᴴ * (toM D D L * toM3 D D G s) = 1

/-- the canonical form from the data of the calls -/
theorem vidal_of_data {a : ℕ → Matrix (Fin D) (Fin D) ℂ} {lM rM X Y U V Xi Wi : Matrix (Fin D) (Fin D) ℂ} {G L : ND ℂ} {S : List ℝ} (hD : 0 < D)
    (h2 : G.shape = [d, D, D]) (h3 : L.shape = [D, D]) (h4 : S.length = D) (h5 : S.Pairwise (· ≥ ·))
    (h6 : Data d a eta lM rM X Y U V Xi Wi (fun i : Fin D => S.getD i 0))
    (h7 : ∀ s, toM3 D D G s = ((Real.sqrt (eta / ∑ i : Fin D, S.getD i 0 * S.getD i 0) : ℝ) : ℂ)⁻¹ • G0 a U V Xi Wi s)
    (h8 : toM D D L = ((Real.sqrt (∑ i : Fin D, S.getD i 0 * S.getD i 0) : ℝ) : ℂ)⁻¹ • dS (fun i : Fin D => S.getD i 0)) :
    ∃ lam, ∃ ll : ℝ, ∃ g gi k ki : Matrix (Fin D) (Fin D) ℂ, VidalForm d D G L lam ∧
      0 < ll ∧ (lMᵀ * rM).trace = ll ∧ S = lam.map (fun x => Real.sqrt ll * x) ∧
      g * gi = 1 ∧ (∀ s, toM3 D D G s * toM D D L = (((Real.sqrt eta)⁻¹ : ℝ) : ℂ) • (g * a s * gi)) ∧
      k * ki = 1 ∧ (∀ s, toM D D L * toM3 D D G s = (((Real.sqrt eta)⁻¹ : ℝ) : ℂ) • (k * a s * ki)) ∧
      gi * giᴴ = rM ∧ gᴴ * (toM D D L * toM D D L) * g = (ll⁻¹ : ℂ) • lMᵀ ∧
      kᴴ * k = lMᵀ ∧ ki * (toM D D L * toM D D L) * kiᴴ = (ll⁻¹ : ℂ) • rM := by
  set ll := ∑ i : Fin D, S.getD i 0 * S.getD i 0 with hll
  have hpos : 0 < ll := h6.sum_pos hD
  have hsq : 0 < Real.sqrt ll := Real.sqrt_pos.2 hpos
  have he0 := h6.eta_pos
  have hc : (((Real.sqrt (eta / ll) : ℝ) : ℂ)⁻¹) * (((Real.sqrt ll : ℝ) : ℂ)⁻¹) = (((Real.sqrt eta)⁻¹ : ℝ) : ℂ) := by
    rw [Real.sqrt_div he0.le]
    have : (Real.sqrt eta) ≠ 0 := (Real.sqrt_pos.2 he0).ne'
    have : (Real.sqrt ll) ≠ 0 := hsq.ne'
    push_cast
    field_simp
  have hR : ∀ s, toM3 D D G s * toM D D L = (((Real.sqrt eta)⁻¹ : ℝ) : ℂ) • (V * Xi * a s * (X * Vᴴ)) := by
    intro s
    rw [h7, h8, Matrix.smul_mul, Matrix.mul_smul, smul_smul, hc, h6.G0_right]
  have hL : ∀ s, toM D D L * toM3 D D G s = (((Real.sqrt eta)⁻¹ : ℝ) : ℂ) • (Uᴴ * Yᵀ * a s * (Wi * U)) := by
    intro s
    rw [h7, h8, Matrix.smul_mul, Matrix.mul_smul, smul_smul, mul_comm, hc, h6.G0_left]
  have hLd : toM D D L = dS fun i : Fin D => (Real.sqrt ll)⁻¹ * S.getD i 0 := by
    rw [h8]
    ext i j
    simp only [dS, Matrix.smul_apply, diagonal_apply, smul_eq_mul]
    split_ifs
    · push_cast
      rfl
    · simp
  have hLh : (toM D D L)ᴴ = toM D D L := by rw [hLd, dS_herm]
  have hLL : toM D D L * toM D D L = (ll⁻¹ : ℂ) • (dS (fun i : Fin D => S.getD i 0) * dS (fun i : Fin D => S.getD i 0)) := by
    rw [h8, Matrix.smul_mul, Matrix.mul_smul, smul_smul]
    congr 1
    rw [← mul_inv, ← Complex.ofReal_mul, Real.mul_self_sqrt hpos.le]
  have he2 : (((Real.sqrt eta)⁻¹ : ℝ) : ℂ) * star (((Real.sqrt eta)⁻¹ : ℝ) : ℂ) * eta = 1 := by
    rw [Complex.star_def, Complex.conj_ofReal, ← Complex.ofReal_mul, ← Complex.ofReal_mul, ← mul_inv, Real.mul_self_sqrt he0.le,
      inv_mul_cancel₀ he0.ne', Complex.ofReal_one]
  have hScale : ∀ x ∈ S.map (fun x => (Real.sqrt ll)⁻¹ * x), 0 < x := by
    intro x hx
    obtain ⟨y, hy, rfl⟩ := List.mem_map.1 hx
    obtain ⟨i, hi, rfl⟩ := List.getElem_of_mem hy
    have := h6.S_pos ⟨i, by rwa [h4] at hi⟩
    rw [List.getD_eq_getElem _ _ hi] at this
    exact mul_pos (inv_pos.2 hsq) this
  refine ⟨S.map fun x => (Real.sqrt ll)⁻¹ * x, ll, V * Xi, X * Vᴴ, Uᴴ * Yᵀ, Wi * U,
    ⟨h2, ⟨by rw [List.length_map, h4, h3], ?_⟩, by rw [List.length_map, h4], hScale, ?_, ?_, ?_, ?_⟩, hpos, h6.sum_sq.symm, ?_,
    h6.gauge_right, hR, h6.gauge_left, hL, ?_, ?_, ?_, ?_⟩
  · intro i hi j hj
    rw [List.length_map, h4] at hi hj
    have := congrFun (congrFun hLd ⟨i, hi⟩) ⟨j, hj⟩
    rw [toM_apply] at this
    rw [this, dS, diagonal_apply]
    simp only [Fin.mk.injEq]
    congr 2
    rw [List.getD_eq_getElem _ _ (by rw [h4]; exact hi), List.getD_eq_getElem _ _ (by rw [List.length_map, h4]; exact hi), List.getElem_map]
  · rw [List.pairwise_map]
    exact h5.imp fun h => mul_le_mul_of_nonneg_left h (inv_pos.2 hsq).le
  · rw [List.map_map]
    have e : ll = (S.map fun x => x * x).sum := by
      rw [hll]
      subst h4
      rw [← List.sum_ofFn]
      congr 1
      refine List.ext_getElem (by simp) fun k h1 h2 => ?_
      simp at h1
      simp [h1]
    have e2 : ((fun x : ℝ => x ^ 2) ∘ fun x => (Real.sqrt ll)⁻¹ * x) = fun x => ll⁻¹ * (x * x) := by
      funext x
      simp only [Function.comp, mul_pow, inv_pow, Real.sq_sqrt hpos.le, pow_two x]
    rw [e2, List.sum_map_mul_left, ← e, inv_mul_cancel₀ hpos.ne']
  · have := h6.right_canonical
    have e : ∀ s, toM3 D D G s * toM D D L = (((Real.sqrt eta)⁻¹ : ℝ) : ℂ) • (G0 a U V Xi Wi s * dS fun i : Fin D => S.getD i 0) := by
      intro s
      rw [hR, h6.G0_right]
    simp only [e, conjTranspose_smul, Matrix.smul_mul, Matrix.mul_smul, smul_smul]
    rw [← Finset.smul_sum, this, smul_smul, mul_comm (star _), he2, one_smul]
  · have := h6.left_canonical
    have e : ∀ s, toM D D L * toM3 D D G s = (((Real.sqrt eta)⁻¹ : ℝ) : ℂ) • (dS (fun i : Fin D => S.getD i 0) * G0 a U V Xi Wi s) := by
      intro s
      rw [hL, h6.G0_left]
    simp only [e, conjTranspose_smul, Matrix.smul_mul, Matrix.mul_smul, smul_smul]
    rw [← Finset.smul_sum, this, smul_smul, he2, one_smul]
  · rw [List.map_map]
    have : ((fun x => Real.sqrt ll * x) ∘ fun x => (Real.sqrt ll)⁻¹ * x) = id := by
      funext x
      simp only [Function.comp, id]
      rw [← mul_assoc, mul_inv_cancel₀ hsq.ne', one_mul]
    rw [this, List.map_id]
  · rw [conjTranspose_mul, conjTranspose_conjTranspose, Matrix.mul_assoc, ← Matrix.mul_assoc Vᴴ, h6.VV, Matrix.one_mul, h6.hX]
  · rw [hLL, Matrix.mul_smul, Matrix.smul_mul]
    congr 1
    have : (V * Xi)ᴴ * (dS (fun i : Fin D => S.getD i 0) * dS fun i : Fin D => S.getD i 0) * (V * Xi) =
        (dS (fun i : Fin D => S.getD i 0) * (V * Xi))ᴴ * (dS (fun i : Fin D => S.getD i 0) * (V * Xi)) := by
      rw [conjTranspose_mul (dS _), dS_herm]
      simp only [Matrix.mul_assoc]
    rw [this, h6.leftSide, conjTranspose_mul, conjTranspose_conjTranspose, Matrix.mul_assoc, ← Matrix.mul_assoc U, h6.UU, Matrix.one_mul, h6.WW]
  · rw [conjTranspose_mul, conjTranspose_conjTranspose, Matrix.mul_assoc, ← Matrix.mul_assoc U, h6.UU, Matrix.one_mul, h6.WW]
  · rw [hLL, Matrix.mul_smul, Matrix.smul_mul]
    congr 1
    have : (Wi * U) * (dS (fun i : Fin D => S.getD i 0) * dS fun i : Fin D => S.getD i 0) * (Wi * U)ᴴ =
        (Wi * U * dS (fun i : Fin D => S.getD i 0)) * (Wi * U * dS (fun i : Fin D => S.getD i 0))ᴴ := by
      rw [conjTranspose_mul (Wi * U), dS_herm]
      simp only [Matrix.mul_assoc]
    rw [this, h6.rightSide, conjTranspose_mul, conjTranspose_conjTranspose, Matrix.mul_assoc, ← Matrix.mul_assoc Vᴴ, h6.VV, Matrix.one_mul, h6.hX]

theorem vidalPair_spec (hchol : CholLaw chol) (hsvd : SVDLaw svd) (hinv : InvLaw inv) (hD : 0 < D) (he : eigs A = .ok (eta, l, r))
    (hf : FixedPoints d D A l r eta) :
    ∃ G L S lam, ∃ ll : ℝ, ∃ g gi k ki : Matrix (Fin D) (Fin D) ℂ, vidalPair eigs chol svd inv A = .ok (G, L, S, l, r) ∧ VidalForm d D G L lam ∧
      0 < ll ∧ ((toM D D l)ᵀ * toM D D r).trace = ll ∧ S = lam.map (fun x => Real.sqrt ll * x) ∧
      g * gi = 1 ∧ (∀ s, toM3 D D G s * toM D D L = (((Real.sqrt eta)⁻¹ : ℝ) : ℂ) • (g * toM3 D D A s * gi)) ∧
      k * ki = 1 ∧ (∀ s, toM D D L * toM3 D D G s = (((Real.sqrt eta)⁻¹ : ℝ) : ℂ) • (k * toM3 D D A s * ki)) ∧
      gi * giᴴ = toM D D r ∧ gᴴ * (toM D D L * toM D D L) * g = (ll⁻¹ : ℂ) • (toM D D l)ᵀ ∧
      kᴴ * k = (toM D D l)ᵀ ∧ ki * (toM D D L * toM D D L) * kiᴴ = (ll⁻¹ : ℂ) • toM D D r := by
  obtain ⟨G, L, S, X, Y, U, V, Xi, Wi, h1, h2, h3, h4, h5, h6, h7, h8⟩ := vidalPair_ok hchol hsvd hinv hD he hf
  obtain ⟨lam, ll, g, gi, k, ki, h⟩ := vidal_of_data hD h2 h3 h4 h5 h6 h7 h8
  exact ⟨G, L, S, lam, ll, g, gi, k, ki, h1, h⟩

theorem rightIso_iff {B : ND ℂ} (hB : B.shape = [d, D, D]) : RightIso B ↔ ∑ s ∈ range d, toM3 D D B s * (toM3 D D B s)ᴴ = 1 := by
  have e : B.dim 0 = d ∧ B.dim 1 = D ∧ B.dim 2 = D := by simp [ND.dim, hB]
  unfold RightIso
  rw [e.1, e.2.1, e.2.2]
  constructor
  · intro h
    ext i j
    rw [Matrix.sum_apply]
    simp only [Matrix.mul_apply, conjTranspose_apply, toM3_apply, Matrix.one_apply, Fin.ext_iff]
    rw [← h i i.2 j j.2]
    exact sum_congr rfl fun s _ => by rw [Finset.sum_range]
  · intro h i hi j hj
    have := congrFun (congrFun h ⟨i, hi⟩) ⟨j, hj⟩
    rw [Matrix.sum_apply] at this
    simp only [Matrix.mul_apply, conjTranspose_apply, toM3_apply, Matrix.one_apply, Fin.mk.injEq] at this
    rw [← this]
    exact sum_congr rfl fun s _ => Finset.sum_range _

theorem leftIso_iff {B : ND ℂ} (hB : B.shape = [d, D, D]) : LeftIso B ↔ ∑ s ∈ range d, (toM3 D D B s)ᴴ * toM3 D D B s = 1 := by
  have e : B.dim 0 = d ∧ B.dim 1 = D ∧ B.dim 2 = D := by simp [ND.dim, hB]
  unfold LeftIso
  rw [e.1, e.2.1, e.2.2]
  constructor
  · intro h
    ext i j
    rw [Matrix.sum_apply]
    simp only [Matrix.mul_apply, conjTranspose_apply, toM3_apply, Matrix.one_apply, Fin.ext_iff]
    rw [← h i i.2 j j.2]
    exact sum_congr rfl fun s _ => by rw [Finset.sum_range]
  · intro h i hi j hj
    have := congrFun (congrFun h ⟨i, hi⟩) ⟨j, hj⟩
    rw [Matrix.sum_apply] at this
    simp only [Matrix.mul_apply, conjTranspose_apply, toM3_apply, Matrix.one_apply, Fin.mk.injEq] at this
    rw [← this]
    exact sum_congr rfl fun s _ => Finset.sum_range _

theorem VidalForm.herm {G L : ND ℂ} {lam : List ℝ} (h : VidalForm d D G L lam) : (toM D D L)ᴴ = toM D D L := by
  ext i j
  rw [conjTranspose_apply, toM_apply, toM_apply, h.diag.2 i (by rw [h.len]; exact i.2) j (by rw [h.len]; exact j.2),
    h.diag.2 j (by rw [h.len]; exact j.2) i (by rw [h.len]; exact i.2)]
  by_cases e : (i : ℕ) = j
  · rw [if_pos e, if_pos e.symm, e, Complex.star_def, Complex.conj_ofReal]
  · rw [if_neg e, if_neg (Ne.symm e), star_zero]

theorem VidalForm.shapeL {G L : ND ℂ} {lam : List ℝ} (h : VidalForm d D G L lam) : L.shape = [D, D] := by
  rw [h.diag.1, h.len]

/-- **C46**: `canonicalise('r')` gives a right isometry that is a gauge transform of the tensor divided by the root of the leading
eigenvalue; the stored `L` is diagonal, positive, decreasing, `Σ L² = 1`, and `L²` is its left fixed point. -/
theorem canonicalise_right (hchol : CholLaw chol) (hsvd : SVDLaw svd) (hinv : InvLaw inv) (hD : 0 < D) {x : IMPS}
    (he : eigs x.A = .ok (eta, l, r)) (hf : FixedPoints d D x.A l r eta) :
    ∃ y L lam, canonicalise eigs chol svd inv x .r = .ok y ∧ y.A.shape = [d, D, D] ∧ RightIso y.A ∧
      GaugeEquiv d D x.A y.A (Real.sqrt eta)⁻¹ ∧ y.L = some L ∧ DiagReal L lam ∧ lam.length = D ∧ (∀ v ∈ lam, 0 < v) ∧
      lam.Pairwise (· ≥ ·) ∧ (lam.map fun v => v ^ 2).sum = 1 ∧
      ∑ s ∈ range d, (toM3 D D y.A s)ᴴ * (toM D D L * toM D D L) * toM3 D D y.A s = toM D D L * toM D D L := by
  obtain ⟨G, L, S, lam, ll, g, gi, k, ki, h1, h2, _, _, _, h6, h7, _⟩ := vidalPair_spec hchol hsvd hinv hD he hf
  obtain ⟨B, b1, b2, b3⟩ := matmul32M h2.shape h2.shapeL
  refine ⟨⟨B, some L, some l, some r⟩, L, lam, ?_, b2, ?_, ⟨g, gi, h6, fun s _ => ?_⟩, rfl, h2.diag, h2.len, h2.pos, h2.dec, h2.unit, ?_⟩
  · unfold canonicalise
    rw [h1, ok_bind]
    simp only [b1, ok_bind]
  · rw [rightIso_iff b2]
    simp only [b3]
    exact h2.right
  · change toM3 D D B s = _
    rw [b3, h7]
  · change ∑ s ∈ range d, (toM3 D D B s)ᴴ * (toM D D L * toM D D L) * toM3 D D B s = _
    have : ∀ s, (toM3 D D B s)ᴴ * (toM D D L * toM D D L) * toM3 D D B s =
        toM D D L * ((toM D D L * toM3 D D G s)ᴴ * (toM D D L * toM3 D D G s)) * toM D D L := by
      intro s
      rw [b3, conjTranspose_mul, conjTranspose_mul, h2.herm]
      simp only [Matrix.mul_assoc]
    rw [sum_congr rfl fun s _ => this s, ← Finset.sum_mul, ← Finset.mul_sum, h2.left, Matrix.mul_one]

/-- **C46**: `canonicalise('l')` gives a left isometry, and `L²` is its right fixed point. -/
theorem canonicalise_left (hchol : CholLaw chol) (hsvd : SVDLaw svd) (hinv : InvLaw inv) (hD : 0 < D) {x : IMPS}
    (he : eigs x.A = .ok (eta, l, r)) (hf : FixedPoints d D x.A l r eta) :
    ∃ y L lam, canonicalise eigs chol svd inv x .l = .ok y ∧ y.A.shape = [d, D, D] ∧ LeftIso y.A ∧
      GaugeEquiv d D x.A y.A (Real.sqrt eta)⁻¹ ∧ y.L = some L ∧ DiagReal L lam ∧ lam.length = D ∧ (∀ v ∈ lam, 0 < v) ∧
      lam.Pairwise (· ≥ ·) ∧ (lam.map fun v => v ^ 2).sum = 1 ∧
      ∑ s ∈ range d, toM3 D D y.A s * (toM D D L * toM D D L) * (toM3 D D y.A s)ᴴ = toM D D L * toM D D L := by
  obtain ⟨G, L, S, lam, ll, g, gi, k, ki, h1, h2, _, _, _, _, _, h8, h9, _⟩ := vidalPair_spec hchol hsvd hinv hD he hf
  obtain ⟨B, b1, b2, b3⟩ := matmul23M h2.shapeL h2.shape
  refine ⟨⟨B, some L, some l, some r⟩, L, lam, ?_, b2, ?_, ⟨k, ki, h8, fun s _ => ?_⟩, rfl, h2.diag, h2.len, h2.pos, h2.dec, h2.unit, ?_⟩
  · unfold canonicalise
    rw [h1, ok_bind]
    simp only [b1, ok_bind]
  · rw [leftIso_iff b2]
    simp only [b3]
    exact h2.left
  · change toM3 D D B s = _
    rw [b3, h9]
  · change ∑ s ∈ range d, toM3 D D B s * (toM D D L * toM D D L) * (toM3 D D B s)ᴴ = _
    have : ∀ s, toM3 D D B s * (toM D D L * toM D D L) * (toM3 D D B s)ᴴ =
        toM D D L * ((toM3 D D G s * toM D D L) * (toM3 D D G s * toM D D L)ᴴ) * toM D D L := by
      intro s
      rw [b3, conjTranspose_mul, conjTranspose_mul, h2.herm]
      simp only [Matrix.mul_assoc]
    rw [sum_congr rfl fun s _ => this s, ← Finset.sum_mul, ← Finset.mul_sum, h2.right, Matrix.mul_one]

/-- the tensor `canonicalise('m')` stores, in terms of the pair `(G, L)` -/
theorem mixed_ok {x : IMPS} {G L : ND ℂ} {S lam : List ℝ} {ll : ℝ} (h1 : vidalPair eigs chol svd inv x.A = .ok (G, L, S, l, r))
    (h2 : VidalForm d D G L lam) (h3 : 0 < ll) (h5 : S = lam.map (fun x => Real.sqrt ll * x)) :
    ∃ E, ∃ q : Fin D → ℝ, canonicalise eigs chol svd inv x .m = .ok ⟨E, some L, some l, some r⟩ ∧ E.shape = [d, D, D] ∧ (∀ i, 0 < q i) ∧
      toM D D L = dS q * dS q ∧ ∀ s, toM3 D D E s = ((Real.sqrt ll : ℝ) : ℂ) • (dS q * toM3 D D G s * dS q) := by
  set q : Fin D → ℝ := fun i => Real.sqrt (lam.getD i 0) with hq
  have hlam : ∀ i : Fin D, 0 < lam.getD i 0 := by
    intro i
    rw [List.getD_eq_getElem _ _ (by rw [h2.len]; exact i.2)]
    exact h2.pos _ (List.getElem_mem _)
  have hLq : toM D D L = dS q * dS q := by
    ext i j
    rw [toM_apply, h2.diag.2 i (by rw [h2.len]; exact i.2) j (by rw [h2.len]; exact j.2), dS, diagonal_mul_diagonal, diagonal_apply]
    simp only [Fin.ext_iff]
    split_ifs
    · rw [← Complex.ofReal_mul, hq, Real.mul_self_sqrt (hlam i).le]
    · rfl
  have hqp : ∀ i, 0 < q i := fun i => Real.sqrt_pos.2 (hlam i)
  have hr : ∀ x, 0 ≤ x → Real.sqrt (Real.sqrt ll * x) = Real.sqrt (Real.sqrt ll) * Real.sqrt x := fun x _ => Real.sqrt_mul (Real.sqrt_nonneg _) _
  set sq := diagND (S.map fun x : ℝ => ((Real.sqrt x : ℝ) : ℂ)) with hsq
  have hlen : (S.map fun x : ℝ => ((Real.sqrt x : ℝ) : ℂ)).length = D := by rw [List.length_map, h5, List.length_map, h2.len]
  obtain ⟨q1, q2⟩ := toM_diag _ hlen
  have hqs : toM D D sq = (((Real.sqrt (Real.sqrt ll)) : ℝ) : ℂ) • dS q := by
    rw [hsq, q2]
    ext i j
    simp only [dS, Matrix.smul_apply, diagonal_apply, smul_eq_mul]
    split_ifs
    · rw [List.getD_eq_getElem _ _ (by rw [hlen]; exact i.2), List.getElem_map, ← Complex.ofReal_mul, hq]
      simp only [h5, List.getElem_map]
      rw [← hr _ (hlam i).le, List.getD_eq_getElem _ _ (by rw [h2.len]; exact i.2)]
    · simp
  obtain ⟨B, b1, b2, b3⟩ := matmul23M q1 h2.shape
  obtain ⟨E, e1, e2, e3⟩ := matmul32M b2 q1
  have hE : ∀ s, toM3 D D E s = ((Real.sqrt ll : ℝ) : ℂ) • (dS q * toM3 D D G s * dS q) := by
    intro s
    rw [e3, b3, ← hsq, hqs]
    simp only [Matrix.smul_mul, Matrix.mul_smul, smul_smul]
    congr 1
    rw [← Complex.ofReal_mul, Real.mul_self_sqrt (Real.sqrt_nonneg _)]
  refine ⟨E, q, ?_, e2, hqp, hLq, hE⟩
  unfold canonicalise
  rw [h1, ok_bind]
  simp only [b1, e1, ok_bind]

/-- `canonicalise('m')` gives a gauge transform of the tensor, for which `L` is both left and right fixed point, but with
eigenvalue `tr(lᵀ r)` in place of 1. -/
theorem canonicalise_mixed (hchol : CholLaw chol) (hsvd : SVDLaw svd) (hinv : InvLaw inv) (hD : 0 < D) {x : IMPS}
    (he : eigs x.A = .ok (eta, l, r)) (hf : FixedPoints d D x.A l r eta) :
    ∃ y L lam, ∃ ll : ℝ, canonicalise eigs chol svd inv x .m = .ok y ∧ y.A.shape = [d, D, D] ∧
      y.L = some L ∧ DiagReal L lam ∧ lam.length = D ∧ (∀ v ∈ lam, 0 < v) ∧ (lam.map fun v => v ^ 2).sum = 1 ∧
      ((toM D D l)ᵀ * toM D D r).trace = ll ∧ 0 < ll ∧ GaugeEquiv d D x.A y.A (Real.sqrt (ll / eta)) ∧
      ∑ s ∈ range d, toM3 D D y.A s * toM D D L * (toM3 D D y.A s)ᴴ = (ll : ℂ) • toM D D L ∧
      ∑ s ∈ range d, (toM3 D D y.A s)ᴴ * toM D D L * toM3 D D y.A s = (ll : ℂ) • toM D D L := by
  obtain ⟨G, L, S, lam, ll, g, gi, k, ki, h1, h2, h3, h4, h5, h6, h7, _⟩ := vidalPair_spec hchol hsvd hinv hD he hf
  obtain ⟨E, q, hcan, e2, hqp, hLq, hE⟩ := mixed_ok h1 h2 h3 h5
  have hqi : dS q * dS (fun i => (q i)⁻¹) = 1 := by
    rw [dS, dS, diagonal_mul_diagonal, ← diagonal_one]
    congr 1
    funext i
    rw [← Complex.ofReal_mul, mul_inv_cancel₀ (hqp i).ne', Complex.ofReal_one]
  have hss : ((Real.sqrt ll : ℝ) : ℂ) * star ((Real.sqrt ll : ℝ) : ℂ) = ll := by
    rw [Complex.star_def, Complex.conj_ofReal, ← Complex.ofReal_mul, Real.mul_self_sqrt h3.le]
  refine ⟨⟨E, some L, some l, some r⟩, L, lam, ll, hcan, e2, rfl, h2.diag, h2.len, h2.pos, h2.unit, h4, h3,
    ⟨dS q * g, gi * dS fun i => (q i)⁻¹, ?_, fun s _ => ?_⟩, ?_, ?_⟩
  · rw [Matrix.mul_assoc, ← Matrix.mul_assoc g, h6, Matrix.one_mul, hqi]
  · change toM3 D D E s = _
    have : dS q * toM3 D D G s * dS q = dS q * (toM3 D D G s * toM D D L) * dS fun i => (q i)⁻¹ := by
      rw [hLq]
      simp only [Matrix.mul_assoc]
      rw [hqi, Matrix.mul_one]
    rw [hE, this, h7, Real.sqrt_div h3.le]
    simp only [Matrix.smul_mul, Matrix.mul_smul, smul_smul, Matrix.mul_assoc]
    congr 1
    push_cast
    rw [div_eq_mul_inv]
  · change ∑ s ∈ range d, toM3 D D E s * toM D D L * (toM3 D D E s)ᴴ = _
    have : ∀ s, toM3 D D E s * toM D D L * (toM3 D D E s)ᴴ = (ll : ℂ) • (dS q * ((toM3 D D G s * toM D D L) * (toM3 D D G s * toM D D L)ᴴ) * dS q) := by
      intro s
      rw [hE]
      simp only [conjTranspose_smul, Matrix.smul_mul, Matrix.mul_smul, smul_smul, conjTranspose_mul, dS_herm, hLq, Matrix.mul_assoc]
      rw [mul_comm (star _), hss]
    rw [sum_congr rfl fun s _ => this s, ← Finset.smul_sum, ← Finset.sum_mul, ← Finset.mul_sum, h2.right, Matrix.mul_one, ← hLq]
  · change ∑ s ∈ range d, (toM3 D D E s)ᴴ * toM D D L * toM3 D D E s = _
    have : ∀ s, (toM3 D D E s)ᴴ * toM D D L * toM3 D D E s = (ll : ℂ) • (dS q * ((toM D D L * toM3 D D G s)ᴴ * (toM D D L * toM3 D D G s)) * dS q) := by
      intro s
      rw [hE]
      simp only [conjTranspose_smul, Matrix.smul_mul, Matrix.mul_smul, smul_smul, conjTranspose_mul, dS_herm, hLq, Matrix.mul_assoc]
      rw [hss]
    rw [sum_congr rfl fun s _ => this s, ← Finset.smul_sum, ← Finset.sum_mul, ← Finset.mul_sum, h2.left, Matrix.mul_one, ← hLq]

end

end IMPS

end Xmps
