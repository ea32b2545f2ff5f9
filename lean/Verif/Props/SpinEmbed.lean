import Verif.Props.SpinBasis
import Verif.Base.NpMore

/-! # Property C70: `insu2N` adds an idle qubit -/

namespace Xmps.Spin

open Matrix

/-! ### specification -/

namespace Spec

/-- the index of the old space inside an index of the enlarged space of size 2n: the new qubit is last, first, or last but one -/
def old (n : ℕ) : Where → ℕ → ℕ
  | .right, a => a / 2
  | .left, a => a % n
  | .mid, a => a / 4 * 2 + a % 2
  | .other, _ => 0

/-- the value of the new qubit -/
def new (n : ℕ) : Where → ℕ → ℕ
  | .right, a => a % 2
  | .left, a => a / n
  | .mid, a => a / 2 % 2
  | .other, _ => 0

/-- `E` is `X` on the old space and does nothing to the new qubit. -/
def Idle (wh : Where) {n : ℕ} (X : Matrix (Fin n) (Fin n) ℂ) (E : Matrix (Fin (2 * n)) (Fin (2 * n)) ℂ) : Prop :=
  ∀ (a b : Fin (2 * n)) (i j : Fin n), i.val = old n wh a → j.val = old n wh b → E a b = if new n wh a = new n wh b then X i j else 0

end Spec

/-! ### the splitting of indices -/

/-- the places at which `insu2N` works: the middle needs a qubit next to the new one -/
def Fits (n : ℕ) : Where → Prop
  | .right | .left => 1 ≤ n
  | .mid => ∃ k, n = 2 ^ k * 2
  | .other => False

theorem Fits.pos {n : ℕ} {wh : Where} (h : Fits n wh) : 1 ≤ n := by
  cases wh with
  | left => exact h
  | right => exact h
  | other => exact h.elim
  | mid => obtain ⟨k, rfl⟩ := h; have := Nat.pos_of_ne_zero (pow_ne_zero k two_ne_zero); omega

theorem old_lt {n : ℕ} {wh : Where} (h : Fits n wh) {a : ℕ} (ha : a < 2 * n) : Spec.old n wh a < n := by
  cases wh with
  | left => exact Nat.mod_lt _ h
  | right => simp only [Spec.old]; omega
  | other => exact h.elim
  | mid =>
    obtain ⟨k, rfl⟩ := h
    simp only [Spec.old]
    omega

theorem new_lt {n : ℕ} {wh : Where} (h : Fits n wh) {a : ℕ} (ha : a < 2 * n) : Spec.new n wh a < 2 := by
  cases wh with
  | left => exact Nat.div_lt_of_lt_mul (by rwa [Nat.mul_comm])
  | right => simp only [Spec.new]; omega
  | other => exact h.elim
  | mid => simp only [Spec.new]; omega

theorem split_inj {n : ℕ} {wh : Where} (h : Fits n wh) {a b : ℕ} (ho : Spec.old n wh a = Spec.old n wh b)
    (hn : Spec.new n wh a = Spec.new n wh b) : a = b := by
  cases wh with
  | left =>
    simp only [Spec.old, Spec.new] at ho hn
    rw [← Nat.div_add_mod a n, ← Nat.div_add_mod b n, ho, hn]
  | right => simp only [Spec.old, Spec.new] at ho hn; omega
  | other => exact h.elim
  | mid => simp only [Spec.old, Spec.new] at ho hn; omega

/-- index of the enlarged space ≃ (old index, new qubit) -/
noncomputable def splitE {n : ℕ} {wh : Where} (h : Fits n wh) : Fin (2 * n) ≃ Fin n × Fin 2 :=
  Equiv.ofBijective (fun a => (⟨Spec.old n wh a, old_lt h a.isLt⟩, ⟨Spec.new n wh a, new_lt h a.isLt⟩)) (by
    rw [Fintype.bijective_iff_injective_and_card]
    refine ⟨?_, by simp [Nat.mul_comm]⟩
    intro a b e
    simp only [Prod.mk.injEq, Fin.mk.injEq] at e
    exact Fin.ext (split_inj h e.1 e.2))

/-- adding an idle qubit, as an algebra homomorphism -/
noncomputable def idleHom {n : ℕ} {wh : Where} (h : Fits n wh) : Matrix (Fin n) (Fin n) ℂ →ₐ[ℂ] Matrix (Fin (2 * n)) (Fin (2 * n)) ℂ where
  toFun X := (kroneckerMap (· * ·) X (1 : Matrix (Fin 2) (Fin 2) ℂ)).submatrix (splitE h) (splitE h)
  map_one' := by
    rw [show kroneckerMap (· * ·) (1 : Matrix (Fin n) (Fin n) ℂ) (1 : Matrix (Fin 2) (Fin 2) ℂ) = 1 from one_kronecker_one]
    exact submatrix_one_equiv _
  map_mul' X Y := by
    have := mul_kronecker_mul X Y (1 : Matrix (Fin 2) (Fin 2) ℂ) (1 : Matrix (Fin 2) (Fin 2) ℂ)
    rw [Matrix.one_mul] at this
    rw [show kroneckerMap (· * ·) (X * Y) (1 : Matrix (Fin 2) (Fin 2) ℂ) = _ from this]
    exact (submatrix_mul_equiv _ _ _ _ _).symm
  map_zero' := by ext a b; simp
  map_add' X Y := by ext a b; simp [kroneckerMap_apply, add_mul]
  commutes' r := by
    ext a b
    simp only [submatrix_apply, kroneckerMap_apply, algebraMap_eq_diagonal, diagonal_apply, one_apply, Pi.algebraMap_apply]
    by_cases e : a = b
    · simp [e]
    · have : splitE h a ≠ splitE h b := fun h' => e ((splitE h).injective h')
      rw [if_neg e]
      by_cases e1 : (splitE h a).1 = (splitE h b).1
      · have e2 : (splitE h a).2 ≠ (splitE h b).2 := fun h' => this (Prod.ext e1 h')
        simp [e2]
      · simp [e1]

theorem idleHom_apply {n : ℕ} {wh : Where} (h : Fits n wh) (X : Matrix (Fin n) (Fin n) ℂ) (a b : Fin (2 * n)) :
    idleHom h X a b = if Spec.new n wh a = Spec.new n wh b then X ⟨Spec.old n wh a, old_lt h a.isLt⟩ ⟨Spec.old n wh b, old_lt h b.isLt⟩ else 0 := by
  show X (splitE h a).1 (splitE h b).1 * (1 : Matrix (Fin 2) (Fin 2) ℂ) (splitE h a).2 (splitE h b).2 = _
  simp only [splitE, Equiv.ofBijective_apply, one_apply, Fin.mk.injEq]
  split <;> simp

theorem idleHom_idle {n : ℕ} {wh : Where} (h : Fits n wh) (X : Matrix (Fin n) (Fin n) ℂ) : Spec.Idle wh X (idleHom h X) := by
  intro a b i j hi hj
  rw [idleHom_apply]
  have e1 : i = ⟨Spec.old n wh a, old_lt h a.isLt⟩ := Fin.ext hi
  have e2 : j = ⟨Spec.old n wh b, old_lt h b.isLt⟩ := Fin.ext hj
  rw [e1, e2]

theorem idleHom_continuous {n : ℕ} {wh : Where} (h : Fits n wh) : Continuous (idleHom h) := by
  refine continuous_matrix fun a b => ?_
  simp only [idleHom_apply]
  split
  · exact continuous_id.matrix_elem _ _
  · exact continuous_const

theorem idleHom_trace {n : ℕ} {wh : Where} (h : Fits n wh) (X : Matrix (Fin n) (Fin n) ℂ) : trace (idleHom h X) = 2 * trace X := by
  have : trace (idleHom h X) = ∑ p : Fin n × Fin 2, X p.1 p.1 := by
    rw [trace, ← (splitE h).sum_comp]
    refine Finset.sum_congr rfl fun a _ => ?_
    rw [diag_apply]
    show X (splitE h a).1 (splitE h a).1 * (1 : Matrix (Fin 2) (Fin 2) ℂ) (splitE h a).2 (splitE h a).2 = _
    simp
  rw [this, Fintype.sum_prod_type]
  simp [trace, Finset.mul_sum]

/-! ### the code's `expand` is this homomorphism -/

theorem Sq.mul_ok {n : ℕ} (A B : Matrix (Fin n) (Fin n) ℂ) : Sq.mul ⟨n, A⟩ ⟨n, B⟩ = .ok ⟨n, A * B⟩ := by simp [Sq.mul]

theorem Sq.cast_eq {m n : ℕ} (h : n = m) (A : Matrix (Fin m) (Fin m) ℂ) : (⟨m, A⟩ : Sq) = ⟨n, A.submatrix (Fin.cast h) (Fin.cast h)⟩ := by
  subst h; rfl

theorem kronF_of {m n : ℕ} {A : Matrix (Fin m) (Fin m) ℂ} {B : Matrix (Fin n) (Fin n) ℂ} {a b : Fin (m * n)} (i j : Fin m) (k l : Fin n)
    (h1 : i.val = a.val / n) (h2 : j.val = b.val / n) (h3 : k.val = a.val % n) (h4 : l.val = b.val % n) :
    kronF A B a b = A i j * B k l := by
  have e1 : a.divNat = i := Fin.ext h1.symm
  have e2 : b.divNat = j := Fin.ext h2.symm
  have e3 : a.modNat = k := Fin.ext h3.symm
  have e4 : b.modNat = l := Fin.ext h4.symm
  rw [kronF, e1, e2, e3, e4]

theorem eye_kron (m n : ℕ) : Sq.kron (Sq.eye m) (Sq.eye n) = Sq.eye (m * n) := by
  have : kronF (1 : Matrix (Fin m) (Fin m) ℂ) (1 : Matrix (Fin n) (Fin n) ℂ) = 1 := by
    ext a b
    simp only [kronF, one_apply]
    by_cases e : a = b
    · simp [e]
    · rw [if_neg e]
      by_cases e1 : a.divNat = b.divNat
      · have e2 : a.modNat ≠ b.modNat := by
          intro e2
          apply e
          have h1 := congrArg Fin.val e1
          have h2 := congrArg Fin.val e2
          simp only [Fin.coe_divNat, Fin.coe_modNat] at h1 h2
          apply Fin.ext
          rw [← Nat.div_add_mod a.val n, ← Nat.div_add_mod b.val n, h1, h2]
        simp [e2]
      · simp [e1]
  rw [Sq.kron, Sq.eye, Sq.eye, this, Sq.eye]

theorem eyes_fold : ∀ (k m : ℕ) (B : Sq), (List.replicate k (Sq.eye 2) ++ [B]).foldl Sq.kron (Sq.eye m) = Sq.kron (Sq.eye (m * 2 ^ k)) B
  | 0, m, B => by simp
  | k + 1, m, B => by
    rw [List.replicate_succ, List.cons_append, List.foldl_cons, eye_kron, eyes_fold k (m * 2) B]
    congr 2
    rw [pow_succ]; ring

theorem one_kron (A : Sq) : Sq.kron (Sq.eye 1) A = A := by
  obtain ⟨n, A⟩ := A
  rw [show Sq.kron (Sq.eye 1) ⟨n, A⟩ = (⟨1 * n, kronF 1 A⟩ : Sq) from rfl, Sq.cast_eq (n := n) (Nat.one_mul n).symm]
  congr 1
  ext a b
  have ha := a.isLt
  have hb := b.isLt
  rw [submatrix_apply, kronF_of 0 0 a b (by simp [Nat.div_eq_of_lt]) (by simp [Nat.div_eq_of_lt]) (by simp [Nat.mod_eq_of_lt])
    (by simp [Nat.mod_eq_of_lt])]
  simp

theorem swapEnd_eq (k : ℕ) : swapEnd k = Sq.kron (Sq.eye (2 ^ k)) ⟨4, Gates.swap⟩ := by
  cases k with
  | zero => rw [pow_zero, one_kron]; rfl
  | succ k =>
    have := eyes_fold k 2 ⟨4, Gates.swap⟩
    rw [show swapEnd (k + 1) = (List.replicate k (Sq.eye 2) ++ [(⟨4, Gates.swap⟩ : Sq)]).foldl Sq.kron (Sq.eye 2) from rfl, this, pow_succ,
      Nat.mul_comm]

/-- exchange of the last two bits -/
def flip2 (a : ℕ) : ℕ := a / 4 * 4 + a % 2 * 2 + a / 2 % 2

theorem flip2_lt {k a : ℕ} (h : a < k * 4) : flip2 a < k * 4 := by simp only [flip2]; omega

theorem flip2_flip2 (a : ℕ) : flip2 (flip2 a) = a := by
  have key : ∀ q r s : ℕ, r < 2 → s < 2 → flip2 (4 * q + 2 * r + s) = 4 * q + 2 * s + r := by
    intro q r s hr hs
    have h1 : (4 * q + 2 * r + s) / 4 = q := by omega
    have h2 : (4 * q + 2 * r + s) % 2 = s := by omega
    have h3 : (4 * q + 2 * r + s) / 2 % 2 = r := by omega
    rw [flip2, h1, h2, h3]
    omega
  have e : a = 4 * (a / 4) + 2 * (a / 2 % 2) + a % 2 := by omega
  rw [e, key _ _ _ (by omega) (by omega), key _ _ _ (by omega) (by omega)]

theorem swap_apply' (i j : Fin 4) : (Gates.swap : Matrix (Fin 4) (Fin 4) ℂ) i j = if j.val = i.val % 2 * 2 + i.val / 2 then 1 else 0 := by
  fin_cases i <;> fin_cases j <;> simp [Gates.swap]

theorem swapEnd_apply (k : ℕ) (a b : Fin (k * 4)) :
    kronF (1 : Matrix (Fin k) (Fin k) ℂ) Gates.swap a b = if b = ⟨flip2 a, flip2_lt a.isLt⟩ then 1 else 0 := by
  rw [kronF, swap_apply', one_apply]
  simp only [Fin.ext_iff, Fin.coe_divNat, Fin.coe_modNat, flip2]
  by_cases e1 : a.val / 4 = b.val / 4
  · rw [if_pos e1, one_mul]
    congr 1
    have h1 : a.val % 4 % 2 = a.val % 2 := by omega
    have h2 : a.val % 4 / 2 = a.val / 2 % 2 := by omega
    have h3 : b.val = b.val / 4 * 4 + b.val % 4 := by omega
    rw [h1, h2, e1]
    apply propext
    constructor <;> intro h <;> omega
  · rw [if_neg e1, zero_mul, if_neg]
    omega

theorem conj_flip (k : ℕ) (K : Matrix (Fin (k * 4)) (Fin (k * 4)) ℂ) (a b : Fin (k * 4)) :
    (kronF (1 : Matrix (Fin k) (Fin k) ℂ) Gates.swap * K * kronF (1 : Matrix (Fin k) (Fin k) ℂ) Gates.swap) a b =
      K ⟨flip2 a, flip2_lt a.isLt⟩ ⟨flip2 b, flip2_lt b.isLt⟩ := by
  rw [mul_apply, Finset.sum_eq_single ⟨flip2 b, flip2_lt b.isLt⟩]
  · rw [mul_apply, Finset.sum_eq_single ⟨flip2 a, flip2_lt a.isLt⟩]
    · rw [swapEnd_apply, if_pos rfl, one_mul, swapEnd_apply, if_pos, mul_one]
      exact Fin.ext (flip2_flip2 _).symm
    · intro c _ hc; rw [swapEnd_apply, if_neg hc, zero_mul]
    · intro h; exact absurd (Finset.mem_univ _) h
  · intro c _ hc
    rw [swapEnd_apply, if_neg, mul_zero]
    intro h
    apply hc
    apply Fin.ext
    have := congrArg (fun x : Fin (k * 4) => flip2 x.val) h
    simp only [flip2_flip2] at this
    exact this.symm
  · intro h; exact absurd (Finset.mem_univ _) h

/-- **C70**: `expand(X, where)` is `X` on the old qubits and idle on the new one. -/
theorem expandGen_eq {n : ℕ} {wh : Where} (h : Fits n wh) (X : Matrix (Fin n) (Fin n) ℂ) :
    expandGen (Nat.log 2 n) ⟨n, X⟩ wh = .ok ⟨2 * n, idleHom h X⟩ := by
  have fin : ∀ (K : Matrix (Fin (2 * n)) (Fin (2 * n)) ℂ), (∀ a b : Fin (2 * n), K a b =
      X ⟨Spec.old n wh a, old_lt h a.isLt⟩ ⟨Spec.old n wh b, old_lt h b.isLt⟩ *
        (1 : Matrix (Fin 2) (Fin 2) ℂ) ⟨Spec.new n wh a, new_lt h a.isLt⟩ ⟨Spec.new n wh b, new_lt h b.isLt⟩) → K = idleHom h X := by
    intro K hK
    ext a b
    rw [hK, idleHom_apply, one_apply]
    by_cases e : Spec.new n wh a = Spec.new n wh b
    · simp [e]
    · rw [if_neg e, if_neg (by simpa using e), mul_zero]
  cases wh with
  | other => exact h.elim
  | right =>
    rw [expandGen, show Sq.kron ⟨n, X⟩ (Sq.eye 2) = (⟨n * 2, kronF X 1⟩ : Sq) from rfl, Sq.cast_eq (n := 2 * n) (Nat.mul_comm _ _)]
    refine congrArg (fun K => Except.ok (⟨2 * n, K⟩ : Sq)) (fin _ fun a b => ?_)
    rw [submatrix_apply]
    exact kronF_of _ _ _ _ rfl rfl rfl rfl
  | left =>
    rw [expandGen, show (Sq.eye 2).kron ⟨n, X⟩ = (⟨2 * n, kronF 1 X⟩ : Sq) from rfl]
    congr 2
    refine fin _ fun a b => ?_
    rw [mul_comm]
    exact kronF_of _ _ _ _ rfl rfl rfl rfl
  | mid =>
    obtain ⟨k, rfl⟩ := id h
    have hl : Nat.log 2 (2 ^ k * 2) = k + 1 := by rw [← pow_succ, Nat.log_pow (by decide)]
    rw [expandGen, hl, Nat.add_sub_cancel, swapEnd_eq,
      show Sq.kron ⟨2 ^ k * 2, X⟩ (Sq.eye 2) = (⟨2 ^ k * 2 * 2, kronF X 1⟩ : Sq) from rfl,
      show Sq.kron (Sq.eye (2 ^ k)) ⟨4, Gates.swap⟩ = (⟨2 ^ k * 4, kronF 1 Gates.swap⟩ : Sq) from rfl,
      Sq.cast_eq (n := 2 ^ k * 4) (m := 2 ^ k * 2 * 2) (by omega)]
    simp only [Sq.mul_ok, ok_bind]
    rw [Sq.cast_eq (n := 2 * (2 ^ k * 2)) (m := 2 ^ k * 4) (by omega)]
    congr 2
    refine fin _ fun a b => ?_
    rw [submatrix_apply, conj_flip, submatrix_apply]
    have e2 : ∀ x : ℕ, x / 2 % 2 = (x / 4 * 4 + x % 2 * 2 + x / 2 % 2) % 2 := by intro x; omega
    have e4 : ∀ x : ℕ, x / 4 * 2 + x % 2 = (x / 4 * 4 + x % 2 * 2 + x / 2 % 2) / 2 := by intro x; omega
    exact kronF_of _ _ _ _ (e4 _) (e4 _) (e2 _) (e2 _)

/-! ### `insu2N` -/

theorem gammaRows_eq {n : ℕ} {wh : Where} (h : Fits n wh) : gammaRows n wh = .ok ((su n).map fun X => components (idleHom h X)) := by
  rw [gammaRows]
  refine mapM_ok fun X _ => ?_
  rw [expandGen_eq h, ok_bind]
  refine mapM_ok fun V _ => ?_
  rw [gammaEntry, Sq.mul_ok]
  rfl

theorem comb_linear {n m : ℕ} (f : Matrix (Fin n) (Fin n) ℂ →ₐ[ℂ] Matrix (Fin m) (Fin m) ℂ) (V : Matrix (Fin m) (Fin m) ℂ) :
    ∀ (v : List ℂ) (gens : List (Matrix (Fin n) (Fin n) ℂ)),
      (List.zipWith (fun x g => x * (trace (f g * V) / 2)) v gens).sum = trace (f (List.zipWith (· • ·) v gens).sum * V) / 2
  | [], _ => by simp
  | _ :: _, [] => by simp
  | x :: v, g :: gens => by
    rw [List.zipWith_cons_cons, List.sum_cons, comb_linear f V v gens, List.zipWith_cons_cons, List.sum_cons, map_add, map_smul, Matrix.add_mul,
      trace_add, Matrix.smul_mul, trace_smul, smul_eq_mul]
    ring

/-- **C70**: `insu2N(v, where)` returns the coordinates in su(2n) of the generator with coordinates `v` in su(n), idle on the new qubit. -/
theorem insu2N_spec {n : ℕ} {wh : Where} (h : Fits n wh) (v : List ℂ) (hv : v.length = n ^ 2 - 1) :
    ∃ w E, insu2N v wh = .ok w ∧ w.length = (2 * n) ^ 2 - 1 ∧ (List.zipWith (· • ·) w (su (2 * n))).sum = E ∧
      Spec.Idle wh (List.zipWith (· • ·) v (su n)).sum E := by
  refine ⟨components (idleHom h (List.zipWith (· • ·) v (su n)).sum), _, ?_, by rw [components, List.length_map, su_length], su_complete _ ?_,
    idleHom_idle h _⟩
  · have hn : Nat.sqrt (v.length + 1) = n := by
      have := h.pos
      rw [hv, Nat.sub_add_cancel (Nat.one_le_pow _ _ this), Nat.sqrt_eq']
    simp only [insu2N, hn, gammaRows_eq h, ok_bind, if_pos hv]
    congr 1
    apply List.ext_getElem
    · simp [components, su_length]
    · intro j h1 h2
      rw [List.length_map, List.length_range] at h1
      simp only [List.getElem_map, List.getElem_range]
      rw [List.zipWith_map_right]
      simp only [components, List.getElem_map]
      rw [← comb_linear]
      congr 2
      funext x g
      rw [List.getD_eq_getElem?_getD, List.getElem?_map, List.getElem?_eq_getElem (by rw [su_length]; exact h1)]
      rfl
  · rw [idleHom_trace, comb_trace _ _ fun g hg => (su_hermitian_traceless n g hg).2, mul_zero]

/-- **C70**: the unitary with coordinates `insu2N(v, where)` is the unitary with coordinates `v`, idle on the new qubit. -/
theorem SU_insu2N {n : ℕ} {wh : Where} (h : Fits n wh) (v : List ℂ) (hv : v.length = n ^ 2 - 1) :
    ∃ w U V, insu2N v wh = .ok w ∧ SU v n = .ok U ∧ SU w (2 * n) = .ok V ∧ Spec.Idle wh U V := by
  obtain ⟨w, E, hw, hl, hE, hI⟩ := insu2N_spec h v hv
  refine ⟨w, _, _, hw, by rw [SU, expGen, tdot, if_pos (by rw [hv, su_length]), ok_bind],
    by rw [SU, expGen, tdot, if_pos (by rw [hl, su_length]), ok_bind], ?_⟩
  have hE' : E = idleHom h (List.zipWith (· • ·) v (su n)).sum := by
    ext a b
    rw [idleHom_apply]
    exact hI a b _ _ rfl rfl
  rw [hE, hE', ← map_smul]
  have key : idleHom h (NormedSpace.exp ((-Complex.I) • (List.zipWith (· • ·) v (su n)).sum)) =
      NormedSpace.exp (idleHom h ((-Complex.I) • (List.zipWith (· • ·) v (su n)).sum)) := open scoped Norms.Operator in NormedSpace.map_exp (idleHom h) (idleHom_continuous h) ((-Complex.I) • (List.zipWith (· • ·) v (su n)).sum)
  rw [← key]
  exact idleHom_idle h _

/-- **C70**: `SU(v, N, '2N')` for N = 2^k, k ≥ 1: the unitary `SU(v, N)` on N's qubits with an idle qubit inserted before the last one. -/
theorem SU2N_spec {k : ℕ} (v : List ℂ) (hv : v.length = (2 ^ k * 2) ^ 2 - 1) :
    ∃ U V, SU v (2 ^ k * 2) = .ok U ∧ SU2N v (2 ^ k * 2) = .ok V ∧ Spec.Idle .mid U V := by
  obtain ⟨w, U, V, hw, hU, hV, hI⟩ := SU_insu2N (wh := .mid) ⟨k, rfl⟩ v hv
  refine ⟨U, V, hU, ?_, hI⟩
  rw [SU2N, hw, ok_bind]
  exact hV

/-- **C70**: a number of coordinates that is not of the form n² - 1 raises `ValueError`. -/
theorem insu2N_length (v : List ℂ) (wh : Where) (hw : wh = .left ∨ wh = .right) (hv : ∀ n, v.length ≠ n ^ 2 - 1) :
    insu2N v wh = .error .valueError := by
  have h : Fits (Nat.sqrt (v.length + 1)) wh := by
    rcases hw with rfl | rfl <;> exact Nat.sqrt_pos.2 (by omega)
  simp only [insu2N, gammaRows_eq h, ok_bind, if_neg (hv _)]

/-- **C70**: the default place `'mid'` only works for powers of two; any other size raises `ValueError`. -/
theorem insu2N_mid_raises {n : ℕ} (hn : 2 ≤ n) (hp : ∀ k, n ≠ 2 ^ k * 2) (v : List ℂ) (hv : v.length = n ^ 2 - 1) :
    insu2N v .mid = .error .valueError := by
  have hs : Nat.sqrt (v.length + 1) = n := by
    rw [hv, Nat.sub_add_cancel (Nat.one_le_pow _ _ (by omega)), Nat.sqrt_eq']
  have hX : ∀ X, expandGen (Nat.log 2 n) ⟨n, X⟩ .mid = .error .valueError := by
    intro X
    rw [expandGen, swapEnd_eq, show Sq.kron (Sq.eye (2 ^ (Nat.log 2 n - 1))) ⟨4, Gates.swap⟩ = (⟨2 ^ (Nat.log 2 n - 1) * 4, kronF 1 Gates.swap⟩ : Sq)
      from rfl, show Sq.kron ⟨n, X⟩ (Sq.eye 2) = (⟨n * 2, kronF X 1⟩ : Sq) from rfl]
    simp only [Sq.mul]
    rw [dif_neg]
    · rfl
    · have := hp (Nat.log 2 n - 1)
      show ¬ n * 2 = 2 ^ (Nat.log 2 n - 1) * 4
      omega
  have hne : su n ≠ [] := by
    intro h
    have := su_length n
    rw [h] at this
    have h4 : 2 ^ 2 ≤ n ^ 2 := Nat.pow_le_pow_left hn 2
    simp at this
    omega
  have hg : gammaRows n .mid = .error .valueError := by
    obtain ⟨u, us, hu⟩ := List.exists_cons_of_ne_nil hne
    rw [gammaRows, hu, List.mapM_cons, hX]
    rfl
  simp only [insu2N, hs, hg]
  rfl

/-! Concrete cases: one qubit to two, at each place; a size that is not a power of two on the left. -/
example := SU2N_spec (k := 0) [1, 2, 3] rfl
example := SU_insu2N (n := 2) (wh := .mid) ⟨0, rfl⟩ [1, 2, 3] rfl
example := insu2N_mid_raises (n := 3) (by decide) (fun k h => by omega) [1, 2, 3, 4, 5, 6, 7, 8] rfl
example := SU_insu2N (n := 3) (wh := .left) (show 1 ≤ 3 by decide) [1, 2, 3, 4, 5, 6, 7, 8] rfl
example : insu2N [1, 2] .left = .error .valueError := insu2N_length _ _ (by simp) (fun n => by
  rcases n with _ | _ | n
  · simp
  · simp
  · simp only [List.length_cons, List.length_nil]
    have : 4 ≤ (n + 1 + 1) ^ 2 := by ring_nf; omega
    omega)

end Xmps.Spin
