import Verif.Model.FindGround
import Verif.Spec.IvMps
import Verif.Props.ImpsTdvpWitness
import Verif.Props.ImpsEnergy
import Verif.Props.LapackSvd

/-!
# C128: `find_ground_state` (`iOptimize.py`)

Specification: `infExpect2`, the energy per bond of an infinite chain; `GroundTrace`, the states a run goes through.
-/

namespace Xmps

open Finset Matrix Spec ImpsCore ComplexOrder Xmps.Ncon

/-- Contract of `TransferMatrix.eigs`, on the tensors for which it returns: positive definite fixed points for a simple eigenvalue, scaled so that the
trace of their product is one. -/
def Spec.FixLaw (eigs : ND ℂ → Py (ℝ × ND ℂ × ND ℂ)) : Prop :=
  ∀ (A : ND ℂ) (d D : ℕ) (eta : ℝ) (l r : ND ℂ), A.shape = [d, D, D] → eigs A = .ok (eta, l, r) →
    FixedPoints d D A l r eta ∧ (toM D D l * toM D D r).trace = 1 ∧ SimpleLeft d D A eta ∧ SimpleRight d D A eta

namespace IMPS

variable {chol inv null : ND ℂ → Py (ND ℂ)} {svd : ND ℂ → Py (ND ℂ × List ℝ × ND ℂ)} {O : SetOrder}
  {eigs : ND ℂ → Py (ℝ × ND ℂ × ND ℂ)} {root : (ND ℂ → Py (ND ℂ)) → ℕ → Py (ND ℂ)} {h : ND ℂ} {eps tol : ℝ} {d D : ℕ}

theorem frob_smul (c : ℂ) (X : ND ℂ) : frob (X.smul c) = ‖c‖ * frob X := by
  unfold frob
  have : (sumIdx (X.smul c).shape fun idx => ‖(X.smul c).val idx‖ ^ 2) = ‖c‖ ^ 2 * sumIdx X.shape fun idx => ‖X.val idx‖ ^ 2 := by
    rw [← sumIdx_mul_left]
    refine sumIdx_congr fun s _ => ?_
    rw [show (X.smul c).val s = c * X.val s from rfl, norm_mul, mul_pow]
  rw [this, Real.sqrt_mul (by positivity), Real.sqrt_sq (norm_nonneg c)]

theorem frob_step (g : ND ℂ) : frob (g.smul (Complex.I * eps)) = |eps| * frob g := by
  rw [frob_smul, norm_mul, Complex.norm_I, one_mul, Complex.norm_real, Real.norm_eq_abs]

/-- the tensor of the next state before it is made canonical: `A - i eps g` -/
def stepTensor (A g : ND ℂ) (eps : ℝ) : ND ℂ := ⟨A.shape, fun idx => A.val idx - Complex.I * eps * g.val idx⟩

/-- the states `f 0, f 1, …` of a run that takes `n` steps, the tangent vectors `g k` there, and the numbers recorded -/
structure Spec.GroundTrace (chol inv null : ND ℂ → Py (ND ℂ)) (svd : ND ℂ → Py (ND ℂ × List ℝ × ND ℂ)) (O : SetOrder)
    (eigs : ND ℂ → Py (ℝ × ND ℂ × ND ℂ)) (root : (ND ℂ → Py (ND ℂ)) → ℕ → Py (ND ℂ)) (h : ND ℂ) (eps tol : ℝ) (maxiters : ℕ)
    (f : ℕ → IMPS) (g : ℕ → ND ℂ) (es : List ℂ) : Prop where
  count : es.length ≤ maxiters
  tangent : ∀ k < es.length, dAdt chol inv null O eigs root (f k) h = .ok (g k)
  long : ∀ k < es.length, tol ≤ |eps| * frob (g k)
  record : ∀ k (hk : k < es.length), eAttr O eigs (f k) h = .ok es[k]
  shape : ∀ k < es.length, (g k).shape = (f k).A.shape
  next : ∀ k < es.length, canonicalise eigs chol svd inv ⟨stepTensor (f k).A (g k) eps, none, none, none⟩ .l = .ok (f (k + 1))
  stop : es.length < maxiters → dAdt chol inv null O eigs root (f es.length) h = .ok (g es.length) ∧ |eps| * frob (g es.length) < tol

theorem zip_step {A g B : ND ℂ} (e : A.zipNd (· - ·) (g.smul (Complex.I * eps)) = .ok B) : g.shape = A.shape ∧ B = stepTensor A g eps := by
  unfold ND.zipNd at e
  split_ifs at e with hs
  · simp only [Except.ok.injEq] at e
    exact ⟨hs.symm, e.symm⟩

theorem groundLoop_trace : ∀ (n : ℕ) (x y : IMPS) (es es' : List ℂ), groundLoop chol inv null svd O eigs root h eps tol n x es = .ok (y, es') →
    ∃ f g vs, f 0 = x ∧ es' = es ++ vs ∧ f vs.length = y ∧ Spec.GroundTrace chol inv null svd O eigs root h eps tol n f g vs
  | 0, x, y, es, es', e => by
    simp only [groundLoop, Except.ok.injEq, Prod.mk.injEq] at e
    obtain ⟨rfl, rfl⟩ := e
    exact ⟨fun _ => x, fun _ => x.A, [], rfl, by simp, rfl, by constructor <;> simp⟩
  | n + 1, x, y, es, es', e => by
    unfold groundLoop at e
    obtain ⟨g0, e1, e⟩ := bind_eq_ok e
    obtain ⟨v, e2, e⟩ := bind_eq_ok e
    dsimp only at e
    rw [frob_step] at e
    split_ifs at e with hlt
    · simp only [Except.ok.injEq, Prod.mk.injEq] at e
      obtain ⟨rfl, rfl⟩ := e
      exact ⟨fun _ => x, fun _ => g0, [], rfl, by simp, rfl, ⟨by simp, by simp, by simp, by simp, by simp, by simp, fun _ => ⟨e1, hlt⟩⟩⟩
    · obtain ⟨z, e3, e⟩ := bind_eq_ok e
      unfold groundStep at e3
      obtain ⟨B, e4, e3⟩ := bind_eq_ok e3
      obtain ⟨hs, rfl⟩ := zip_step e4
      obtain ⟨f, g, vs, hf, rfl, hy, ht⟩ := groundLoop_trace n z y _ es' e
      refine ⟨fun k => Nat.casesOn k x f, fun k => Nat.casesOn k g0 g, v :: vs, rfl, by simp, by simpa using hy, ?_⟩
      constructor
      · simpa using ht.count
      · rintro (_ | k) hk
        · exact e1
        · exact ht.tangent k (by simpa using hk)
      · rintro (_ | k) hk
        · exact not_lt.1 hlt
        · exact ht.long k (by simpa using hk)
      · rintro (_ | k) hk
        · exact e2
        · exact ht.record k (by simpa using hk)
      · rintro (_ | k) hk
        · exact hs
        · exact ht.shape k (by simpa using hk)
      · rintro (_ | k) hk
        · simpa [hf] using e3
        · exact ht.next k (by simpa using hk)
      · intro hlt
        exact ht.stop (by simpa using hlt)

/-- what is known of the state after `left_canonicalise` -/
theorem canon_fixed (hchol : CholLaw chol) (hsvd : SVDLaw svd) (hinv : InvLaw inv) (hfix : FixLaw eigs) (hD : 0 < D) {B : ND ℂ} {y : IMPS}
    (hB : B.shape = [d, D, D]) (e : canonicalise eigs chol svd inv ⟨B, none, none, none⟩ .l = .ok y) :
    y.A.shape = [d, D, D] ∧ LeftIso y.A ∧ ∃ lam : List ℝ, lam.length = D ∧ (∀ v ∈ lam, 0 < v) ∧ (lam.map fun v => v ^ 2).sum = 1 ∧
      ∑ s ∈ range d, toM3 D D y.A s * Matrix.diagonal (fun i : Fin D => ((lam.getD i 0 ^ 2 : ℝ) : ℂ)) * (toM3 D D y.A s)ᴴ =
        Matrix.diagonal (fun i : Fin D => ((lam.getD i 0 ^ 2 : ℝ) : ℂ)) := by
  have e' := e
  unfold canonicalise at e'
  obtain ⟨v, e1, -⟩ := bind_eq_ok e'
  unfold vidalPair at e1
  obtain ⟨⟨eta, l, r⟩, e2, -⟩ := bind_eq_ok e1
  obtain ⟨hf, -, -, -⟩ := hfix B d D eta l r hB e2
  obtain ⟨y', L, lam, e3, h1, h2, -, -, h3, h4, h5, -, h6, h7⟩ := canonicalise_left hchol hsvd hinv hD (x := ⟨B, none, none, none⟩) e2 hf
  rw [e] at e3
  cases e3
  have hL : toM D D L * toM D D L = Matrix.diagonal (fun i : Fin D => ((lam.getD i 0 ^ 2 : ℝ) : ℂ)) := by
    have : toM D D L = Matrix.diagonal (fun i : Fin D => ((lam.getD i 0 : ℝ) : ℂ)) := by
      ext i j
      rw [toM_apply, h3.2 i (by rw [h4]; exact i.2) j (by rw [h4]; exact j.2), Matrix.diagonal_apply]
      simp only [Fin.ext_iff]
    rw [this, Matrix.diagonal_mul_diagonal]
    congr 1
    funext i
    push_cast
    ring
  exact ⟨h1, h2, lam, h4, h5, h6, by rw [← hL]; exact h7⟩

/-- the fixed points of a left canonical tensor: the eigenvalue is one, the left one a multiple of the identity, the right one diagonal -/
theorem canon_eigs (hfix : FixLaw eigs) (hD : 0 < D) {A l r : ND ℂ} {eta : ℝ} (hA : A.shape = [d, D, D]) (hiso : LeftIso A) {lam : List ℝ}
    (hl : lam.length = D) (hp : ∀ v ∈ lam, 0 < v)
    (hr : ∑ s ∈ range d, toM3 D D A s * Matrix.diagonal (fun i : Fin D => ((lam.getD i 0 ^ 2 : ℝ) : ℂ)) * (toM3 D D A s)ᴴ =
        Matrix.diagonal (fun i : Fin D => ((lam.getD i 0 ^ 2 : ℝ) : ℂ))) (e : eigs A = .ok (eta, l, r)) :
    eta = 1 ∧ FixedPoints d D A l r 1 ∧ (toM D D l * toM D D r).trace = 1 ∧ (∃ a : ℝ, DiagND D l fun _ => a) ∧ ∃ rho, DiagND D r rho := by
  obtain ⟨hf, hn, sL, sR⟩ := hfix A d D eta l r hA e
  have hI : ∑ s ∈ range d, (toM3 D D A s)ᴴ * toM3 D D A s = 1 := (leftIso_iff hA).1 hiso
  have heta : eta = 1 := by
    have h1 := congrArg Matrix.trace hf.right
    rw [Matrix.trace_sum, trace_smul, smul_eq_mul] at h1
    have h2 : ∑ s ∈ range d, (toM3 D D A s * toM D D r * (toM3 D D A s)ᴴ).trace = (toM D D r).trace := by
      conv_rhs => rw [← Matrix.one_mul (toM D D r), ← hI, Finset.sum_mul, Matrix.trace_sum]
      refine sum_congr rfl fun s _ => ?_
      rw [Matrix.trace_mul_comm, ← Matrix.mul_assoc]
    have h3 : (toM D D r).trace ≠ 0 := by
      haveI : Nonempty (Fin D) := ⟨⟨0, hD⟩⟩
      exact hf.pos_r.trace_pos.ne'
    rw [h2] at h1
    have : (eta : ℂ) = 1 := by
      have := mul_right_cancel₀ h3 ((one_mul _).trans h1)
      exact this.symm
    exact_mod_cast this
  subst heta
  refine ⟨rfl, hf, hn, ?_, ?_⟩
  · obtain ⟨c, hc⟩ := sL (toM D D l)ᵀ 1 (by
      rw [← transpose_inj, transpose_sum, transpose_smul, transpose_transpose, ← hf.left]
      refine sum_congr rfl fun s _ => ?_
      rw [transpose_mul, transpose_mul, transpose_transpose, ← Matrix.mul_assoc]
      rfl) (by simpa using hI) (by
      intro h0
      have := congrFun (congrFun h0 ⟨0, hD⟩) ⟨0, hD⟩
      simp at this)
    have hc' : toM D D l = c • 1 := by
      rw [← transpose_inj, hc, transpose_smul, transpose_one]
    have hre : ((c.re : ℝ) : ℂ) = c := by
      have h0 := hf.pos_l.1
      rw [hc', Matrix.IsHermitian, conjTranspose_smul, conjTranspose_one] at h0
      have := congrFun (congrFun h0 ⟨0, hD⟩) ⟨0, hD⟩
      simp at this
      exact Complex.conj_eq_iff_re.1 this
    refine ⟨c.re, fun i hi j hj => ?_⟩
    have := congrFun (congrFun hc' ⟨i, hi⟩) ⟨j, hj⟩
    rw [toM_apply, Matrix.smul_apply, Matrix.one_apply] at this
    rw [this, hre]
    by_cases hij : i = j <;> simp [hij]
  · have hne : Matrix.diagonal (fun i : Fin D => ((lam.getD i 0 ^ 2 : ℝ) : ℂ)) ≠ 0 := by
      intro h0
      have := congrFun (congrFun h0 ⟨0, hD⟩) ⟨0, hD⟩
      rw [Matrix.diagonal_apply_eq, Matrix.zero_apply] at this
      have h1 : 0 < lam.getD 0 0 := by
        rw [List.getD_eq_getElem _ _ (by omega)]
        exact hp _ (List.getElem_mem _)
      have h2 : (lam.getD 0 0 ^ 2 : ℝ) = 0 := by exact_mod_cast this
      have := pow_pos h1 2
      linarith
    obtain ⟨c, hc⟩ := sR (toM D D r) _ hf.right (by simpa using hr) hne
    refine ⟨fun i => (r.val [i, i]).re, fun i hi j hj => ?_⟩
    have hij := congrFun (congrFun hc ⟨i, hi⟩) ⟨j, hj⟩
    rw [toM_apply, Matrix.smul_apply, Matrix.diagonal_apply] at hij
    by_cases he : i = j
    · subst he
      rw [if_pos rfl]
      have h0 := congrFun (congrFun hf.pos_r.1 ⟨i, hi⟩) ⟨i, hi⟩
      rw [conjTranspose_apply, toM_apply] at h0
      exact (Complex.conj_eq_iff_re.1 h0).symm
    · rw [if_neg he, hij, if_neg (by simpa using he)]
      simp

theorem trace_flip (X Y l r : Matrix (Fin D) (Fin D) ℂ) (hs : rᵀ = r) : (Xᵀ * l * Y.map star * r).trace = (lᵀ * X * r * Yᴴ).trace := by
  rw [← Matrix.trace_transpose, transpose_mul, transpose_mul, transpose_mul, transpose_transpose, hs, show (Y.map star)ᵀ = Yᴴ from rfl,
    Matrix.trace_mul_comm (lᵀ * X * r), Matrix.trace_mul_comm r]
  simp only [Matrix.mul_assoc]

/-- the attribute `e` is the energy when the right fixed point is symmetric; `h` need not be Hermitian -/
theorem eAttr_ok (O : SetOrder) (x : IMPS) {h l r : ND ℂ} (hf : FixedPoints d D x.A l r 1) (hs : (toM D D r)ᵀ = toM D D r)
    (hn : (toM D D l * toM D D r).trace = 1) (he : eigs x.A = .ok (1, l, r)) (hh : h.shape = [d * d, d * d]) :
    eAttr O eigs x h = .ok (infExpect2 d D x.A l r 1 fun s1 s2 t1 t2 => h.val [s1 * d + s2, t1 * d + t2]) := by
  have hdim0 : x.A.dim 0 = d := by simp [ND.dim, hf.shape]
  obtain ⟨s4, v4⟩ := four_reshape hh
  obtain ⟨C, K0, e1, e2, hC, hK0, hCv, hK⟩ := leftK_ok (A := x.A) (l := l) O hf.shape hf.shape_l s4 v4
  obtain ⟨M, m1, m2, m3⟩ := matmul22M hK0 hf.shape_r
  unfold eAttr
  simp only [hdim0]
  rw [ND.reshape_ok_any (by rw [hh]; simp [mul_assoc]), ok_bind, he, ok_bind]
  simp only [e1, e2, m1, ok_bind, tr2_ok m2]
  congr 1
  have hone : ((toM D D l)ᵀ * toM D D r).trace = 1 := by
    rw [← Matrix.trace_transpose, transpose_mul, transpose_transpose, hs, Matrix.trace_mul_comm, hn]
  unfold infExpect2
  rw [hone, m3, hK, hamLeft, Complex.ofReal_one, one_pow, mul_one, div_one]
  simp only [Finset.sum_mul, Matrix.trace_sum, Matrix.smul_mul, trace_smul, smul_eq_mul]
  refine sum_congr rfl fun s1 _ => sum_congr rfl fun s2 _ => sum_congr rfl fun t1 _ => sum_congr rfl fun t2 _ => ?_
  rw [trace_flip _ _ _ _ hs]

/-- when `dA_dt` returns, it has set `e`, and `Lh` has returned -/
theorem eAttr_of_dAdt {x : IMPS} {g : ND ℂ} (e : dAdt chol inv null O eigs root x h = .ok g) :
    (∃ v, eAttr O eigs x h = .ok v) ∧ (∃ K, Lh O eigs root x h = .ok K) ∧ ∃ p, eigs x.A = .ok p := by
  unfold dAdt at e
  obtain ⟨h4, e1, e⟩ := bind_eq_ok e
  obtain ⟨⟨eta, l, r⟩, e2, e⟩ := bind_eq_ok e
  dsimp only at e
  obtain ⟨C, e3, e⟩ := bind_eq_ok e
  obtain ⟨K, e4, e⟩ := bind_eq_ok e
  obtain ⟨Kr, e5, e⟩ := bind_eq_ok e
  obtain ⟨v, e6, e⟩ := bind_eq_ok e
  obtain ⟨⟨pr, vL⟩, e7, e⟩ := bind_eq_ok e
  dsimp only at e
  obtain ⟨R, e8, e⟩ := bind_eq_ok e
  obtain ⟨K', e9, e⟩ := bind_eq_ok e
  refine ⟨⟨v, ?_⟩, ⟨K', e9⟩, _, e2⟩
  unfold eAttr
  dsimp only
  rw [e1, ok_bind, e2, ok_bind]
  dsimp only
  rw [e3, ok_bind, e4, ok_bind, e5, ok_bind, e6]

theorem cholTri_chol (hchol : CholTriLaw chol) : CholLaw chol := by
  intro M n hM hp
  obtain ⟨X, e, hs, -, -, hX⟩ := hchol M n hM hp
  exact ⟨X, e, hs, hX⟩

/-- what a state of the run is: left canonical, with a diagonal right fixed point -/
structure Spec.LeftCanon (D : ℕ) (x : IMPS) : Prop where
  shape : x.A.shape = [2, D, D]
  iso : LeftIso x.A
  fixed : ∃ lam : List ℝ, lam.length = D ∧ (∀ v ∈ lam, 0 < v) ∧ (lam.map fun v => v ^ 2).sum = 1 ∧
      ∑ s ∈ range 2, toM3 D D x.A s * Matrix.diagonal (fun i : Fin D => ((lam.getD i 0 ^ 2 : ℝ) : ℂ)) * (toM3 D D x.A s)ᴴ =
        Matrix.diagonal (fun i : Fin D => ((lam.getD i 0 ^ 2 : ℝ) : ℂ))

/-- at a state of the run `dA_dt` returns; the tangent vector is orthogonal to the tensor, and `e` is the energy -/
theorem leftCanon_round (hchol : CholTriLaw chol) (hinv : InvLaw inv) (hnull : NullLaw null) (hfix : FixLaw eigs)
    (hroot : RootLaw root) (hD : 0 < D) (hh : h.shape = [4, 4]) {x : IMPS} (hx : Spec.LeftCanon D x) {p : ℝ × ND ℂ × ND ℂ} (he : eigs x.A = .ok p) :
    ∃ g, dAdt chol inv null O eigs root x h = .ok g ∧
      g.shape = [2, D, D] ∧ (∑ s ∈ range 2, (toM3 D D x.A s)ᴴ * toM3 D D g s = 0) ∧ ∃ l r, eigs x.A = .ok (1, l, r) ∧ FixedPoints 2 D x.A l r 1 ∧
      eAttr O eigs x h = .ok (infExpect2 2 D x.A l r 1 fun s1 s2 t1 t2 => h.val [s1 * 2 + s2, t1 * 2 + t2]) := by
  obtain ⟨eta, l, r⟩ := p
  obtain ⟨lam, l1, l2, -, l4⟩ := hx.fixed
  obtain ⟨rfl, hf, hn, ⟨a, hl⟩, rho, hr⟩ := canon_eigs hfix hD hx.shape hx.iso l1 l2 l4 he
  obtain ⟨K, eK, sK, -⟩ := Lh_ok O hroot x hD hf hn (hfix _ _ _ _ _ _ hx.shape he).2.2.1 he (by rw [hh])
  obtain ⟨g, eg, sB, gB, -⟩ := dAdt_pair hchol hinv hnull O (root := root) x (by norm_num) hD hf he (by rw [hh]) hl hr eK sK
  refine ⟨g, eg, sB, ?_, l, r, he, hf, eAttr_ok O x hf (diag_sym hr) hn he (by rw [hh])⟩
  have ha : (a : ℂ) ≠ 0 := by
    have := diag_pos hl hf.pos_l 0 hD
    exact_mod_cast this.ne'
  rw [gauge_diag hl] at gB
  ext c c'
  have h1 := gB c c.2 c' c'.2
  simp only [Matrix.sum_apply, Matrix.zero_apply, Matrix.mul_apply, conjTranspose_apply, toM3_apply]
  have h2 : ∑ s ∈ range 2, ∑ b ∈ range D, star (x.A.val [s, b, c]) * a * g.val [s, b, c'] =
      a * ∑ s ∈ range 2, ∑ b : Fin D, star (x.A.val [s, b, c]) * g.val [s, b, c'] := by
    simp only [Finset.mul_sum, Finset.sum_range]
    refine sum_congr rfl fun s _ => sum_congr rfl fun b _ => ?_
    ring
  rw [h2] at h1
  exact (mul_eq_zero.1 h1).resolve_left ha

/-- **C128**: whenever `find_ground_state` returns a state and a list of energies, they come from a run of as many steps as there are energies: every state
is left canonical, the `k`-th number is the energy per bond of the `k`-th state (the one before step `k`), every step goes along the result of `dA_dt`, which is
orthogonal to the tensor, and the run ends after `maxiters` steps or at the first state at which `ϵ` times the norm of the result of `dA_dt` is below
`tol`.  The energy of the state returned is not in the list. -/
theorem findGround_spec (hchol : CholTriLaw chol) (hsvd : SVDLaw svd) (hinv : InvLaw inv) (hnull : NullLaw null) (hfix : FixLaw eigs)
    (hroot : RootLaw root) (hD : 0 < D) (hh : h.shape = [4, 4]) {A0 : ND ℂ} (hA0 : A0.shape = [2, D, D])
    {maxiters : ℕ} {y : IMPS} {es : List ℂ} (e : findGround chol inv null svd O eigs root h eps tol maxiters A0 = .ok (y, es)) :
    ∃ f g, canonicalise eigs chol svd inv ⟨A0, none, none, none⟩ .l = .ok (f 0) ∧ f es.length = y ∧
      Spec.GroundTrace chol inv null svd O eigs root h eps tol maxiters f g es ∧ (∀ k ≤ es.length, Spec.LeftCanon D (f k)) ∧
      ∀ k (hk : k < es.length), (∑ s ∈ range 2, (toM3 D D (f k).A s)ᴴ * toM3 D D (g k) s = 0) ∧
        ∃ l r, eigs (f k).A = .ok (1, l, r) ∧ FixedPoints 2 D (f k).A l r 1 ∧
          es[k] = infExpect2 2 D (f k).A l r 1 fun s1 s2 t1 t2 => h.val [s1 * 2 + s2, t1 * 2 + t2] := by
  unfold findGround at e
  obtain ⟨x, e0, e⟩ := bind_eq_ok e
  obtain ⟨f, g, vs, hf, hvs, hy, ht⟩ := groundLoop_trace _ _ _ _ _ e
  rw [List.nil_append] at hvs
  subst hvs
  have hc : ∀ k ≤ es.length, Spec.LeftCanon D (f k) := by
    intro k
    induction k with
    | zero =>
      intro _
      obtain ⟨a1, a2, a3⟩ := canon_fixed (cholTri_chol hchol) hsvd hinv hfix hD hA0 e0
      rw [hf]
      exact ⟨a1, a2, a3⟩
    | succ k ih =>
      intro hk
      obtain ⟨a1, a2, a3⟩ := canon_fixed (cholTri_chol hchol) hsvd hinv hfix hD (B := stepTensor (f k).A (g k) eps) (ih (by omega)).shape (ht.next k (by omega))
      exact ⟨a1, a2, a3⟩
  refine ⟨f, g, by rw [hf]; exact e0, hy, ht, hc, fun k hk => ?_⟩
  obtain ⟨-, -, p, hp⟩ := eAttr_of_dAdt (ht.tangent k hk)
  obtain ⟨g', eg, -, h2, l, r, h3, h4, h5⟩ := leftCanon_round hchol hinv hnull hfix hroot hD hh (hc k hk.le) hp (O := O)
  rw [ht.tangent k hk] at eg
  cases eg
  refine ⟨h2, l, r, h3, h4, ?_⟩
  have := (ht.record k hk).symm.trans h5
  simpa using this

/-- `left_canonicalise` of a tensor: only the eigensolver can raise -/
theorem canon_progress (hchol : CholLaw chol) (hsvd : SVDLaw svd) (hinv : InvLaw inv) (hfix : FixLaw eigs) (hD : 0 < D) {B : ND ℂ}
    (hB : B.shape = [d, D, D]) : (∃ y, canonicalise eigs chol svd inv ⟨B, none, none, none⟩ .l = .ok y) ∨
      ∃ er, canonicalise eigs chol svd inv ⟨B, none, none, none⟩ .l = .error er ∧ eigs B = .error er := by
  cases he : eigs B with
  | error er =>
    refine Or.inr ⟨er, ?_, rfl⟩
    unfold canonicalise vidalPair
    dsimp only
    rw [he]
    rfl
  | ok p =>
    obtain ⟨eta, l, r⟩ := p
    obtain ⟨hf, -⟩ := hfix B d D eta l r hB he
    obtain ⟨y, _, _, e, -⟩ := canonicalise_left hchol hsvd hinv hD (x := ⟨B, none, none, none⟩) he hf
    exact Or.inl ⟨y, e⟩

theorem groundLoop_progress (hchol : CholTriLaw chol) (hsvd : SVDLaw svd) (hinv : InvLaw inv) (hnull : NullLaw null) (hfix : FixLaw eigs)
    (hroot : RootLaw root) (hD : 0 < D) (hh : h.shape = [4, 4]) {er : PyErr} : ∀ (n : ℕ) (x : IMPS) (es : List ℂ), Spec.LeftCanon D x →
    groundLoop chol inv null svd O eigs root h eps tol n x es = .error er → ∃ A : ND ℂ, A.shape = [2, D, D] ∧ eigs A = .error er
  | 0, x, es, hx, e => by cases e
  | n + 1, x, es, hx, e => by
    cases he : eigs x.A with
    | error er' =>
      refine ⟨x.A, hx.shape, ?_⟩
      have h1 : dAdt chol inv null O eigs root x h = .error er' := by
        unfold dAdt
        dsimp only
        rw [show x.A.dim 0 = 2 by simp [ND.dim, hx.shape], ND.reshape_ok_any (by rw [hh]; rfl), ok_bind, he, err_bind]
      unfold groundLoop at e
      rw [h1, err_bind] at e
      cases e
      exact he
    | ok p =>
      obtain ⟨g, eg, sg, -, l, r, -, -, ee⟩ := leftCanon_round hchol hinv hnull hfix hroot hD hh hx he (O := O)
      unfold groundLoop at e
      rw [eg, ok_bind, ee, ok_bind] at e
      dsimp only at e
      split_ifs at e with hlt
      unfold groundStep at e
      have hz : x.A.zipNd (· - ·) (g.smul (Complex.I * eps)) = .ok (stepTensor x.A g eps) := by
        unfold ND.zipNd
        rw [if_pos (by rw [hx.shape]; exact sg.symm)]
        rfl
      rw [hz, ok_bind] at e
      rcases canon_progress (cholTri_chol hchol) hsvd hinv hfix hD (B := stepTensor x.A g eps) hx.shape with ⟨y, ey⟩ | ⟨er', ey, hy⟩
      · rw [ey, ok_bind] at e
        obtain ⟨a1, a2, a3⟩ := canon_fixed (cholTri_chol hchol) hsvd hinv hfix hD (B := stepTensor x.A g eps) hx.shape ey
        exact groundLoop_progress hchol hsvd hinv hnull hfix hroot hD hh n y _ ⟨a1, a2, a3⟩ e
      · rw [ey, err_bind] at e
        cases e
        exact ⟨stepTensor x.A g eps, hx.shape, hy⟩

/-- **C128**: only the eigensolver can raise: whenever `find_ground_state` raises for a 4 × 4 matrix, `eigs` raised the same for some tensor. -/
theorem findGround_progress (hchol : CholTriLaw chol) (hsvd : SVDLaw svd) (hinv : InvLaw inv) (hnull : NullLaw null) (hfix : FixLaw eigs)
    (hroot : RootLaw root) (hD : 0 < D) (hh : h.shape = [4, 4]) {A0 : ND ℂ} (hA0 : A0.shape = [2, D, D]) {maxiters : ℕ} {er : PyErr}
    (e : findGround chol inv null svd O eigs root h eps tol maxiters A0 = .error er) : ∃ A : ND ℂ, A.shape = [2, D, D] ∧ eigs A = .error er := by
  unfold findGround at e
  rcases canon_progress (cholTri_chol hchol) hsvd hinv hfix hD hA0 with ⟨y, ey⟩ | ⟨er', ey, hy⟩
  · rw [ey, ok_bind] at e
    obtain ⟨a1, a2, a3⟩ := canon_fixed (cholTri_chol hchol) hsvd hinv hfix hD hA0 ey
    exact groundLoop_progress hchol hsvd hinv hnull hfix hroot hD hh maxiters y _ ⟨a1, a2, a3⟩ e
  · rw [ey, err_bind] at e
    cases e
    exact ⟨_, hA0, hy⟩

/-- the tensor before it is made canonical again: its squared norm grows in second order of the step only -/
theorem step_norm {A g : ND ℂ} (hA : A.shape = [2, D, D]) (hiso : LeftIso A) (hg : ∑ s ∈ range 2, (toM3 D D A s)ᴴ * toM3 D D g s = 0) :
    ∑ s ∈ range 2, (toM3 D D (stepTensor A g eps) s)ᴴ * toM3 D D (stepTensor A g eps) s =
      1 + ((eps ^ 2 : ℝ) : ℂ) • ∑ s ∈ range 2, (toM3 D D g s)ᴴ * toM3 D D g s := by
  have h1 : ∀ s, toM3 D D (stepTensor A g eps) s = toM3 D D A s - (Complex.I * eps) • toM3 D D g s := fun s => rfl
  have h2 : ∑ s ∈ range 2, (toM3 D D g s)ᴴ * toM3 D D A s = 0 := by
    have := congrArg conjTranspose hg
    simpa [conjTranspose_sum, conjTranspose_mul] using this
  have h3 : ∀ X Y : Matrix (Fin D) (Fin D) ℂ, (X - (Complex.I * eps) • Y)ᴴ * (X - (Complex.I * eps) • Y) =
      Xᴴ * X - (Complex.I * eps) • (Xᴴ * Y) + (Complex.I * eps) • (Yᴴ * X) + ((eps ^ 2 : ℝ) : ℂ) • (Yᴴ * Y) := by
    intro X Y
    have hs : star (Complex.I * eps) = -(Complex.I * eps) := by simp
    rw [conjTranspose_sub, conjTranspose_smul, hs, Matrix.sub_mul, Matrix.mul_sub, Matrix.mul_sub]
    simp only [neg_smul, Matrix.neg_mul, Matrix.smul_mul, Matrix.mul_smul, smul_neg, smul_smul]
    rw [show (Complex.I * eps) * (Complex.I * (eps : ℂ)) = -((eps ^ 2 : ℝ) : ℂ) by
      push_cast; linear_combination (eps : ℂ) ^ 2 * Complex.I_mul_I, neg_smul]
    abel
  simp only [h1, h3, Finset.sum_add_distrib, Finset.sum_sub_distrib, ← Finset.smul_sum, hg, h2, smul_zero, sub_zero, add_zero]
  rw [(leftIso_iff hA).1 hiso]

/-- **C128** (violated): `tol` does not bound the result of `dA_dt`.  Whatever it is at the first state, for every small enough `ϵ` that state is returned
with an empty list. -/
theorem findGround_small {A0 g : ND ℂ} {y : IMPS} (e0 : canonicalise eigs chol svd inv ⟨A0, none, none, none⟩ .l = .ok y)
    (e : dAdt chol inv null O eigs root y h = .ok g) (htol : 0 < tol) {maxiters : ℕ} (hm : 0 < maxiters) :
    ∃ e0 > 0, ∀ eps, |eps| < e0 → findGround chol inv null svd O eigs root h eps tol maxiters A0 = .ok (y, []) := by
  obtain ⟨⟨v, ev⟩, -⟩ := eAttr_of_dAdt e
  have hg : 0 ≤ frob g := Real.sqrt_nonneg _
  refine ⟨tol / (frob g + 1), by positivity, fun eps heps => ?_⟩
  obtain ⟨m, rfl⟩ : ∃ m, maxiters = m + 1 := ⟨maxiters - 1, by omega⟩
  unfold findGround
  rw [e0, ok_bind]
  unfold groundLoop
  rw [e, ok_bind, ev, ok_bind]
  dsimp only
  rw [frob_step, if_pos]
  rw [lt_div_iff₀ (by positivity)] at heps
  nlinarith [abs_nonneg eps]

/-- **C128**: the local dimension is always two; a matrix of any other size is a `ValueError` in the first round. -/
theorem findGround_size {A0 : ND ℂ} {y : IMPS} (e0 : canonicalise eigs chol svd inv ⟨A0, none, none, none⟩ .l = .ok y) (hy : y.A.shape = [2, D, D])
    (hh : h.shape.prod ≠ 16) {maxiters : ℕ} (hm : 0 < maxiters) :
    findGround chol inv null svd O eigs root h eps tol maxiters A0 = .error .valueError := by
  obtain ⟨m, rfl⟩ : ∃ m, maxiters = m + 1 := ⟨maxiters - 1, by omega⟩
  have h1 : dAdt chol inv null O eigs root y h = .error .valueError := by
    unfold dAdt
    dsimp only
    rw [show y.A.dim 0 = 2 by simp [ND.dim, hy]]
    unfold ND.reshape ND.size
    rw [if_neg (by simpa using hh), err_bind]
  unfold findGround
  rw [e0, ok_bind]
  unfold groundLoop
  rw [h1, err_bind]

/-- **C128**: without rounds the random state is returned, made canonical. -/
theorem findGround_zero {A0 : ND ℂ} {y : IMPS} (e0 : canonicalise eigs chol svd inv ⟨A0, none, none, none⟩ .l = .ok y) :
    findGround chol inv null svd O eigs root h eps tol 0 A0 = .ok (y, []) := by
  unfold findGround
  rw [e0, ok_bind]
  rfl

/-! ### the contract can be met, and a run of any number of steps -/

/-- what `FixLaw` says of a tensor and its fixed points -/
def Spec.GoodFix (d D : ℕ) (A l r : ND ℂ) (eta : ℝ) : Prop :=
  FixedPoints d D A l r eta ∧ (toM D D l * toM D D r).trace = 1 ∧ SimpleLeft d D A eta ∧ SimpleRight d D A eta

/-- `eigs` that returns whenever there is something to return -/
theorem fixLaw_exists : ∃ eigs, FixLaw eigs ∧ ∀ d D A l r eta, Spec.GoodFix d D A l r eta → ∃ p, eigs A = .ok p := by
  classical
  refine ⟨fun A => if H : ∃ q : ℕ × ℕ × ℝ × ND ℂ × ND ℂ, Spec.GoodFix q.1 q.2.1 A q.2.2.2.1 q.2.2.2.2 q.2.2.1 then .ok H.choose.2.2 else .error .exception,
    ?_, ?_⟩
  · intro A d D eta l r hA e
    dsimp only at e
    split_ifs at e with H
    have hq := H.choose_spec
    have hs := hq.1.shape
    rw [hA] at hs
    simp only [List.cons.injEq, and_true] at hs
    obtain ⟨h1, h2, -⟩ := hs
    simp only [Except.ok.injEq] at e
    rw [e, ← h1, ← h2] at hq
    exact hq
  · intro d D A l r eta hg
    dsimp only
    rw [dif_pos ⟨(d, D, eta, l, r), hg⟩]
    exact ⟨_, rfl⟩

theorem gauge_right {A B : ND ℂ} {c eta : ℝ} (hc : 0 < c) (hg : GaugeEquiv d D A B c) (hs : SimpleRight d D A eta) : SimpleRight d D B (c ^ 2 * eta) := by
  obtain ⟨g, gi, hgi, hB⟩ := hg
  have hgi' : gi * g = 1 := mul_eq_one_comm.1 hgi
  have hgh : gᴴ * giᴴ = 1 := by rw [← conjTranspose_mul, hgi', conjTranspose_one]
  have key : ∀ M : Matrix (Fin D) (Fin D) ℂ, ∑ s ∈ range d, toM3 D D B s * M * (toM3 D D B s)ᴴ = ((c ^ 2 * eta : ℝ) : ℂ) • M →
      ∑ s ∈ range d, toM3 D D A s * (gi * M * giᴴ) * (toM3 D D A s)ᴴ = (eta : ℂ) • (gi * M * giᴴ) := by
    intro M hM
    have h1 : ∑ s ∈ range d, toM3 D D B s * M * (toM3 D D B s)ᴴ =
        ((c ^ 2 : ℝ) : ℂ) • (g * (∑ s ∈ range d, toM3 D D A s * (gi * M * giᴴ) * (toM3 D D A s)ᴴ) * gᴴ) := by
      rw [Finset.mul_sum, Finset.sum_mul, Finset.smul_sum]
      refine sum_congr rfl fun s hs => ?_
      rw [hB s (mem_range.1 hs), conjTranspose_smul, conjTranspose_mul, conjTranspose_mul]
      simp only [Matrix.smul_mul, Matrix.mul_smul, smul_smul, Matrix.mul_assoc]
      rw [show star (c : ℂ) = c from Complex.conj_ofReal c]
      push_cast
      ring_nf
    rw [h1] at hM
    have hc2 : ((c ^ 2 : ℝ) : ℂ) ≠ 0 := by exact_mod_cast (pow_pos hc 2).ne'
    rw [Complex.ofReal_mul, mul_smul] at hM
    have h2 := smul_right_injective _ hc2 hM
    have h3 := congrArg (fun X => gi * X * giᴴ) h2
    rw [Matrix.mul_assoc g, ← Matrix.mul_assoc gi, hgi', Matrix.one_mul, Matrix.mul_assoc, hgh, Matrix.mul_one, Matrix.mul_smul, Matrix.smul_mul] at h3
    exact h3
  have back : ∀ M : Matrix (Fin D) (Fin D) ℂ, g * (gi * M * giᴴ) * gᴴ = M := by
    intro M
    rw [Matrix.mul_assoc gi, ← Matrix.mul_assoc g, hgi, Matrix.one_mul, Matrix.mul_assoc, ← conjTranspose_mul, hgi, conjTranspose_one, Matrix.mul_one]
  intro M N hM hN hN0
  obtain ⟨k, hk⟩ := hs _ _ (key M hM) (key N hN) (by
    intro h0
    apply hN0
    rw [← back N, h0, Matrix.mul_zero, Matrix.zero_mul])
  exact ⟨k, by rw [← back M, hk, Matrix.mul_smul, Matrix.smul_mul, back N]⟩

theorem gauge_left {A B : ND ℂ} {c eta : ℝ} (hc : 0 < c) (hg : GaugeEquiv d D A B c) (hs : SimpleLeft d D A eta) : SimpleLeft d D B (c ^ 2 * eta) := by
  obtain ⟨g, gi, hgi, hB⟩ := hg
  have hgi' : gi * g = 1 := mul_eq_one_comm.1 hgi
  have hgh : giᴴ * gᴴ = 1 := by rw [← conjTranspose_mul, hgi, conjTranspose_one]
  have hgh' : gᴴ * giᴴ = 1 := by rw [← conjTranspose_mul, hgi', conjTranspose_one]
  have key : ∀ M : Matrix (Fin D) (Fin D) ℂ, ∑ s ∈ range d, (toM3 D D B s)ᴴ * M * toM3 D D B s = ((c ^ 2 * eta : ℝ) : ℂ) • M →
      ∑ s ∈ range d, (toM3 D D A s)ᴴ * (gᴴ * M * g) * toM3 D D A s = (eta : ℂ) • (gᴴ * M * g) := by
    intro M hM
    have h1 : ∑ s ∈ range d, (toM3 D D B s)ᴴ * M * toM3 D D B s =
        ((c ^ 2 : ℝ) : ℂ) • (giᴴ * (∑ s ∈ range d, (toM3 D D A s)ᴴ * (gᴴ * M * g) * toM3 D D A s) * gi) := by
      rw [Finset.mul_sum, Finset.sum_mul, Finset.smul_sum]
      refine sum_congr rfl fun s hs => ?_
      rw [hB s (mem_range.1 hs), conjTranspose_smul, conjTranspose_mul, conjTranspose_mul]
      simp only [Matrix.smul_mul, Matrix.mul_smul, smul_smul, Matrix.mul_assoc]
      rw [show star (c : ℂ) = c from Complex.conj_ofReal c]
      push_cast
      ring_nf
    rw [h1] at hM
    have hc2 : ((c ^ 2 : ℝ) : ℂ) ≠ 0 := by exact_mod_cast (pow_pos hc 2).ne'
    rw [Complex.ofReal_mul, mul_smul] at hM
    have h2 := smul_right_injective _ hc2 hM
    have h3 := congrArg (fun X => gᴴ * X * g) h2
    rw [Matrix.mul_assoc giᴴ, ← Matrix.mul_assoc gᴴ, hgh', Matrix.one_mul, Matrix.mul_assoc, hgi', Matrix.mul_one, Matrix.mul_smul, Matrix.smul_mul] at h3
    exact h3
  have back : ∀ M : Matrix (Fin D) (Fin D) ℂ, giᴴ * (gᴴ * M * g) * gi = M := by
    intro M
    rw [Matrix.mul_assoc gᴴ, ← Matrix.mul_assoc giᴴ, hgh, Matrix.one_mul, Matrix.mul_assoc, hgi, Matrix.mul_one]
  intro M N hM hN hN0
  obtain ⟨k, hk⟩ := hs _ _ (key M hM) (key N hN) (by
    intro h0
    apply hN0
    rw [← back N, h0, Matrix.mul_zero, Matrix.zero_mul])
  exact ⟨k, by rw [← back M, hk, Matrix.mul_smul, Matrix.smul_mul, back N]⟩

/-- the canonical form of a good tensor is good -/
theorem canon_good (hchol : CholLaw chol) (hsvd : SVDLaw svd) (hinv : InvLaw inv) (hfix : FixLaw eigs) (hD : 0 < D) {B : ND ℂ}
    (hB : B.shape = [2, D, D]) {p : ℝ × ND ℂ × ND ℂ} (he : eigs B = .ok p) :
    ∃ y l r, canonicalise eigs chol svd inv ⟨B, none, none, none⟩ .l = .ok y ∧ Spec.LeftCanon D y ∧ Spec.GoodFix 2 D y.A l r 1 := by
  obtain ⟨eta, l, r⟩ := p
  obtain ⟨hf, -, hsl, hsr⟩ := hfix B 2 D eta l r hB he
  obtain ⟨y, L, lam, e, h1, h2, h2', -, h3, h4, h5, -, h6, h7⟩ := canonicalise_left hchol hsvd hinv hD (x := ⟨B, none, none, none⟩) he hf
  obtain ⟨a1, a2, a3⟩ := canon_fixed hchol hsvd hinv hfix hD hB e
  have hc : 0 < (Real.sqrt eta)⁻¹ := inv_pos.2 (Real.sqrt_pos.2 hf.eta_pos)
  have hone : (Real.sqrt eta)⁻¹ ^ 2 * eta = 1 := by
    rw [inv_pow, Real.sq_sqrt hf.eta_pos.le, inv_mul_cancel₀ hf.eta_pos.ne']
  have g1 := gauge_left hc h2' hsl
  have g2 := gauge_right hc h2' hsr
  rw [hone] at g1 g2
  obtain ⟨lam, b1, b2, b3, b4⟩ := a3
  refine ⟨y, eyeND D, ⟨[D, D], fun | [i, j] => if i = j then ((lam.getD i 0 ^ 2 : ℝ) : ℂ) else 0 | _ => 0⟩, e, ⟨a1, a2, lam, b1, b2, b3, b4⟩, ?_, ?_, g1, g2⟩
  all_goals
    have hr : toM D D (⟨[D, D], fun | [i, j] => if i = j then ((lam.getD i 0 ^ 2 : ℝ) : ℂ) else 0 | _ => 0⟩ : ND ℂ) =
        Matrix.diagonal (fun i : Fin D => ((lam.getD i 0 ^ 2 : ℝ) : ℂ)) := by
      ext i j
      rw [toM_apply, Matrix.diagonal_apply]
      simp only [Fin.ext_iff]
    have hl : toM D D (eyeND D : ND ℂ) = 1 := by
      ext i j
      simp [toM_apply, eyeND, Matrix.one_apply, Fin.ext_iff]
  · refine ⟨a1, rfl, rfl, one_pos, ?_, ?_, by rw [hl]; exact PosDef.one, ?_⟩
    · rw [hr, Complex.ofReal_one, one_smul]; exact b4
    · have := (leftIso_iff a1).1 a2
      have := congrArg Matrix.transpose this
      rw [transpose_sum, transpose_one] at this
      rw [hl, Complex.ofReal_one, one_smul]
      conv_rhs => rw [← this]
      refine sum_congr rfl fun s _ => ?_
      rw [transpose_mul, Matrix.mul_one]
      rfl
    · rw [hr, Matrix.posDef_diagonal_iff]
      intro i
      have : 0 < lam.getD i 0 := by
        rw [List.getD_eq_getElem _ _ (by rw [b1]; exact i.2)]
        exact b2 _ (List.getElem_mem _)
      exact_mod_cast pow_pos this 2
  · rw [hl, hr, Matrix.one_mul, Matrix.trace_diagonal]
    rw [← Complex.ofReal_sum]
    have : ∑ i : Fin D, lam.getD i 0 ^ 2 = (lam.map fun v => v ^ 2).sum := by
      subst b1
      rw [← List.sum_ofFn]
      congr 1
      refine List.ext_getElem (by simp) fun i h1 h2 => ?_
      simp at h1 ⊢
    rw [this, b3, Complex.ofReal_one]

/-- the cluster state: `Σ A M A†` -/
theorem clu_right_simple {z : ℂ} (hz : z * star z = 1) : SimpleRight 2 2 (exClu z) 1 := by
  have key : ∀ M : Matrix (Fin 2) (Fin 2) ℂ, ∑ s ∈ range 2, toM3 2 2 (exClu z) s * M * (toM3 2 2 (exClu z) s)ᴴ = ((1 : ℝ) : ℂ) • M →
      M = M 0 0 • 1 := by
    intro M hM
    obtain ⟨p, q, r, t, rfl⟩ : ∃ p q r t, M = !![p, q; r, t] := ⟨_, _, _, _, Matrix.eta_fin_two M⟩
    simp only [Finset.sum_range_succ, Finset.sum_range_zero, zero_add, clu0, clu1, conjTranspose_smul, Matrix.smul_mul, Matrix.mul_smul, smul_smul,
      mul_comm (star ((1 + Complex.I) / 2)) ((1 + Complex.I) / 2), half_norm] at hM
    simp only [ct2, Matrix.mul_fin_two, Matrix.smul_of, Matrix.smul_cons, Matrix.smul_empty, smul_eq_mul, Matrix.of_add_of, Matrix.add_cons,
      Matrix.head_cons, Matrix.tail_cons, Matrix.empty_add_empty, star_zero, star_one, star_neg] at hM
    have e00 := congrFun (congrFun hM 0) 0
    have e01 := congrFun (congrFun hM 0) 1
    have e10 := congrFun (congrFun hM 1) 0
    have e11 := congrFun (congrFun hM 1) 1
    simp at e00 e01 e10 e11
    subst e01 e10
    simp at e00 e11
    obtain rfl : t = p := e11.symm.trans e00
    rw [one_fin_two, Matrix.smul_of]
    simp
  intro M N hM hN hN0
  have h1 := key M hM
  have h2 := key N hN
  refine ⟨M 0 0 / N 0 0, ?_⟩
  have hn : N 0 0 ≠ 0 := by
    intro e
    rw [e, zero_smul] at h2
    exact hN0 h2
  rw [h1, h2, smul_smul]
  simp [hn]

theorem clu_good {z : ℂ} (hz : z * star z = 1) : Spec.GoodFix 2 2 (exClu z) exId exTwo 1 := ⟨clu_fixed hz, clu_norm, clu_simple hz, clu_right_simple hz⟩

theorem stepTensor_zero (A g : ND ℂ) : stepTensor A g 0 = A := by
  unfold stepTensor
  simp

/-- with `ϵ = 0` and `tol = 0` the loop goes through all its rounds -/
theorem groundLoop_still (hchol : CholTriLaw chol) (hsvd : SVDLaw svd) (hinv : InvLaw inv) (hnull : NullLaw null) (hfix : FixLaw eigs)
    (htot : ∀ d D A l r eta, Spec.GoodFix d D A l r eta → ∃ p, eigs A = .ok p)
    (hroot : RootLaw root) (hD : 0 < D) (hh : h.shape = [4, 4]) : ∀ (n : ℕ) (x : IMPS) (es : List ℂ) (l r : ND ℂ), Spec.LeftCanon D x →
    Spec.GoodFix 2 D x.A l r 1 → ∃ y vs, groundLoop chol inv null svd O eigs root h 0 0 n x es = .ok (y, es ++ vs) ∧ vs.length = n
  | 0, x, es, l, r, hx, hg => ⟨x, [], by simp [groundLoop], rfl⟩
  | n + 1, x, es, l, r, hx, hg => by
    obtain ⟨p, he⟩ := htot _ _ _ _ _ _ hg
    obtain ⟨g, eg, sg, -, l, r, -, -, ee⟩ := leftCanon_round hchol hinv hnull hfix hroot hD hh hx he (O := O)
    obtain ⟨z, l', r', ez, hz, gz⟩ := canon_good (cholTri_chol hchol) hsvd hinv hfix hD (B := x.A) hx.shape he
    have hzip : x.A.zipNd (· - ·) (g.smul (Complex.I * (0 : ℝ))) = .ok (stepTensor x.A g 0) := by
      unfold ND.zipNd
      rw [if_pos (by rw [hx.shape]; exact sg.symm)]
      rfl
    obtain ⟨y, vs, e, hl⟩ := groundLoop_still hchol hsvd hinv hnull hfix htot hroot hD hh n z (es ++ [infExpect2 2 D x.A l r 1 fun s1 s2 t1 t2 =>
      h.val [s1 * 2 + s2, t1 * 2 + t2]]) l' r' hz gz
    rw [List.append_assoc] at e
    refine ⟨y, [infExpect2 2 D x.A l r 1 fun s1 s2 t1 t2 => h.val [s1 * 2 + s2, t1 * 2 + t2]] ++ vs, ?_, by simp [hl]⟩
    unfold groundLoop
    rw [eg, ok_bind, ee, ok_bind]
    dsimp only
    rw [frob_step, if_neg (by simp)]
    unfold groundStep
    rw [hzip, ok_bind, stepTensor_zero, ez, ok_bind, e]

/-- the hypotheses of `findGround_spec`, `findGround_small` and `findGround_size` can be met, with the cluster state as the random numbers -/
example (O : SetOrder) (h : ND ℂ) (hh : h.shape = [4, 4]) (n : ℕ) : ∃ chol inv null svd eigs root, CholTriLaw chol ∧ SVDLaw svd ∧ InvLaw inv ∧ NullLaw null ∧
    FixLaw eigs ∧ RootLaw root ∧ (∃ y es, findGround chol inv null svd O eigs root h 0 0 n (exClu 1) = .ok (y, es) ∧ es.length = n) ∧
    ∃ y g, canonicalise eigs chol svd inv ⟨exClu 1, none, none, none⟩ .l = .ok y ∧ y.A.shape = [2, 2, 2] ∧
      dAdt chol inv null O eigs root y h = .ok g := by
  obtain ⟨chol, h1⟩ := cholTriLaw_exists
  obtain ⟨inv, h2⟩ := invLaw_exists
  obtain ⟨null, h3⟩ := nullLaw_exists
  obtain ⟨root, h4⟩ := rootLaw_exists
  obtain ⟨svd, h5⟩ := svdLaw_exists
  obtain ⟨eigs, h6, h7⟩ := fixLaw_exists
  obtain ⟨p, hp⟩ := h7 _ _ _ _ _ _ (clu_good (z := 1) (by simp))
  obtain ⟨y, l, r, ey, hy, gy⟩ := canon_good (D := 2) (cholTri_chol h1) h5 h2 h6 (by norm_num) rfl hp
  obtain ⟨p', hp'⟩ := h7 _ _ _ _ _ _ gy
  obtain ⟨g, eg, -⟩ := leftCanon_round h1 h2 h3 h6 h4 (by norm_num) hh hy hp' (O := O)
  obtain ⟨w, vs, ew, hl⟩ := groundLoop_still h1 h5 h2 h3 h6 h7 h4 (by norm_num) hh n y [] l r hy gy (O := O)
  refine ⟨chol, inv, null, svd, eigs, root, h1, h5, h2, h3, h6, h4, ⟨w, vs, ?_, hl⟩, y, g, ey, hy.shape, eg⟩
  unfold findGround
  rw [ey, ok_bind, ew, List.nil_append]

end IMPS

end Xmps
