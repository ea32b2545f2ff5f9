import Verif.Spec.Sites
import Verif.Model.NBody
import Verif.Lemmas.TwoSite

/-!
# Kronecker products of a list of matrices
-/

namespace Xmps.Spin

open Finset Xmps.Spec

variable {K : Type} [CommRing K]

/-- the matrix elements of a product of operators -/
def prodElem : List (ND K) → List ℕ → List ℕ → K
  | A :: As, s :: ss, t :: ts => A.val [s, t] * prodElem As ss ts
  | _, _, _ => 1

/-- the list of square matrices has sizes `ms` -/
def Squares : List ℕ → List (ND K) → Prop
  | m :: ms, A :: As => A.shape = [m, m] ∧ Squares ms As
  | [], [] => True
  | _, _ => False

theorem kron_foldl : ∀ (ms : List ℕ) (As : List (ND K)) (A : ND K) (m : ℕ), A.shape = [m, m] → Squares ms As →
    (As.foldl kron A).shape = [m * ms.prod, m * ms.prod] ∧ ∀ a b s t, a < m → b < m → InB ms s → InB ms t →
      (As.foldl kron A).val [a * ms.prod + ravel ms s, b * ms.prod + ravel ms t] = A.val [a, b] * prodElem As s t
  | [], [], A, m, hA, _ => by
    refine ⟨by simp [hA], ?_⟩
    intro a b s t _ _ hs ht
    match s, t, hs, ht with
    | [], [], _, _ => simp [prodElem]
  | [], B :: As, A, m, hA, h => by simp [Squares] at h
  | p :: ms, [], A, m, hA, h => by simp [Squares] at h
  | p :: ms, B :: As, A, m, hA, h => by
    obtain ⟨hB, hAs⟩ := h
    have hk : (kron A B).shape = [m * p, m * p] := by simp [kron, ND.dim, hA, hB]
    obtain ⟨h1, h2⟩ := kron_foldl ms As (kron A B) (m * p) hk hAs
    refine ⟨by rw [List.foldl_cons, h1]; simp [mul_assoc], ?_⟩
    intro a b s t ha hb hs ht
    match s, t, hs, ht with
    | x :: s, y :: t, hs, ht =>
      rw [InB_cons] at hs ht
      have e := h2 (a * p + x) (b * p + y) s t (mul_add_lt ha hs.1) (mul_add_lt hb ht.1) hs.2 ht.2
      rw [List.foldl_cons]
      have ea : a * (p :: ms).prod + ravel (p :: ms) (x :: s) = (a * p + x) * ms.prod + ravel ms s := by
        rw [List.prod_cons, ravel_cons]; ring
      have eb : b * (p :: ms).prod + ravel (p :: ms) (y :: t) = (b * p + y) * ms.prod + ravel ms t := by
        rw [List.prod_cons, ravel_cons]; ring
      rw [ea, eb, e]
      have hp : 0 < p := by omega
      have d1 : (a * p + x) / p = a := by
        rw [mul_comm, Nat.mul_add_div hp, Nat.div_eq_of_lt hs.1, add_zero]
      have d2 : (b * p + y) / p = b := by
        rw [mul_comm, Nat.mul_add_div hp, Nat.div_eq_of_lt ht.1, add_zero]
      have m1 : (a * p + x) % p = x := by rw [Nat.add_comm, Nat.add_mul_mod_self_right, Nat.mod_eq_of_lt hs.1]
      have m2 : (b * p + y) % p = y := by rw [Nat.add_comm, Nat.add_mul_mod_self_right, Nat.mod_eq_of_lt ht.1]
      simp only [kron, ND.dim, hB, List.getD_cons_zero, List.getD_cons_succ, d1, d2, m1, m2, prodElem]
      ring

/-- `reduce(kron, As)` of a non-empty list of square matrices -/
theorem tensor_spec (ms : List ℕ) (As : List (ND K)) (hne : As ≠ []) (h : Squares ms As) :
    ∃ R, tensor As = .ok R ∧ R.shape = [ms.prod, ms.prod] ∧ ∀ s t, InB ms s → InB ms t →
      R.val [ravel ms s, ravel ms t] = prodElem As s t := by
  match ms, As, hne, h with
  | [], _ :: _, _, h => exact h.elim
  | m :: ms, A :: As, _, h =>
    obtain ⟨h1, h2⟩ := kron_foldl ms As A m h.1 h.2
    refine ⟨_, rfl, by rw [h1]; simp, ?_⟩
    intro s t hs ht
    match s, t, hs, ht with
    | a :: s, b :: t, hs, ht =>
      rw [InB_cons] at hs ht
      rw [ravel_cons, ravel_cons, h2 a b s t hs.1 ht.1 hs.2 ht.2]
      rfl

theorem prodElem_append : ∀ (As Bs : List (ND K)) (s s' t t' : List ℕ), s.length = As.length → t.length = As.length →
    prodElem (As ++ Bs) (s ++ s') (t ++ t') = prodElem As s t * prodElem Bs s' t'
  | [], Bs, s, s', t, t', hs, ht => by
    simp at hs ht; subst hs ht; simp [prodElem]
  | A :: As, Bs, s, s', t, t', hs, ht => by
    match s, t, hs, ht with
    | a :: s, b :: t, hs, ht =>
      simp only [List.cons_append, prodElem]
      rw [prodElem_append As Bs s s' t t' (by simpa using hs) (by simpa using ht)]
      ring

theorem prodElem_eye (d : ℕ) : ∀ (n : ℕ) (s t : List ℕ), s.length = n → t.length = n →
    prodElem (List.replicate n (eyeND d : ND K)) s t = if s = t then 1 else 0
  | 0, s, t, hs, ht => by simp at hs ht; subst hs ht; simp [prodElem]
  | n + 1, s, t, hs, ht => by
    match s, t, hs, ht with
    | a :: s, b :: t, hs, ht =>
      simp only [List.replicate_succ, prodElem]
      rw [prodElem_eye d n s t (by simpa using hs) (by simpa using ht)]
      by_cases h1 : a = b <;> by_cases h2 : s = t <;> simp [eyeND, h1, h2]

omit [CommRing K] in
theorem Squares_append {ms ms' : List ℕ} : ∀ {As Bs : List (ND K)}, Squares ms As → Squares ms' Bs → Squares (ms ++ ms') (As ++ Bs) := by
  induction ms with
  | nil =>
    intro As Bs h1 h2
    match As, h1 with
    | [], _ => exact h2
  | cons m ms ih =>
    intro As Bs h1 h2
    match As, h1 with
    | A :: As, h1 => exact ⟨h1.1, ih h1.2 h2⟩

omit [CommRing K] in
theorem Squares_replicate (d : ℕ) (A : ND K) (hA : A.shape = [d, d]) : ∀ n, Squares (List.replicate n d) (List.replicate n A)
  | 0 => trivial
  | n + 1 => ⟨hA, Squares_replicate d A hA n⟩

/-- identities, an operator on `k` sites, identities -/
theorem tensor_block (d i k m : ℕ) (X : ND K) (hX : X.shape = [d ^ k, d ^ k]) :
    ∃ R, tensor (List.replicate i (eyeND d) ++ X :: List.replicate m (eyeND d)) = .ok R ∧ R.shape = [d ^ (i + k + m), d ^ (i + k + m)] ∧
      ∀ s t, InB (List.replicate (i + k + m) d) s → InB (List.replicate (i + k + m) d) t →
        matElem (List.replicate (i + k + m) d) R s t = blockElem d X i k s t := by
  have hsq : Squares (List.replicate i d ++ ([d ^ k] ++ List.replicate m d))
      (List.replicate i (eyeND d : ND K) ++ ([X] ++ List.replicate m (eyeND d))) :=
    Squares_append (Squares_replicate d _ rfl i) (Squares_append ⟨hX, trivial⟩ (Squares_replicate d _ rfl m))
  obtain ⟨R, h1, h2, h3⟩ := tensor_spec _ _ (by simp) hsq
  refine ⟨R, h1, by rw [h2]; simp [pow_add, mul_assoc], ?_⟩
  intro s t hs ht
  have spl : ∀ s, InB (List.replicate (i + k + m) d) s → ∃ s1 s2 s3, s = s1 ++ (s2 ++ s3) ∧ InB (List.replicate i d) s1 ∧
      InB (List.replicate k d) s2 ∧ InB (List.replicate m d) s3 := by
    intro s hs
    rw [add_assoc, List.replicate_add, List.replicate_add] at hs
    have hl := hs.length_eq
    simp only [List.length_append, List.length_replicate] at hl
    refine ⟨s.take i, (s.drop i).take k, (s.drop i).drop k, by simp, ?_⟩
    have e1 : s = s.take i ++ s.drop i := by simp
    rw [e1, InB_append_iff (by simp; omega)] at hs
    have e2 : s.drop i = (s.drop i).take k ++ (s.drop i).drop k := by simp
    refine ⟨hs.1, ?_⟩
    have h' := hs.2
    rw [e2, InB_append_iff (by simp; omega)] at h'
    exact h'
  obtain ⟨s1, s2, s3, rfl, a1, a2, a3⟩ := spl s hs
  obtain ⟨t1, t2, t3, rfl, b1, b2, b3⟩ := spl t ht
  have la1 := a1.length_eq; have la2 := a2.length_eq; have la3 := a3.length_eq
  have lb1 := b1.length_eq; have lb2 := b2.length_eq; have lb3 := b3.length_eq
  simp only [List.length_replicate] at la1 la2 la3 lb1 lb2 lb3
  have rv : ∀ u1 u2 u3, InB (List.replicate i d) u1 → InB (List.replicate k d) u2 → InB (List.replicate m d) u3 →
      ravel (List.replicate (i + k + m) d) (u1 ++ (u2 ++ u3)) =
        ravel (List.replicate i d ++ ([d ^ k] ++ List.replicate m d)) (u1 ++ ([ravel (List.replicate k d) u2] ++ u3)) := by
    intro u1 u2 u3 c1 c2 c3
    rw [add_assoc, List.replicate_add, List.replicate_add, ravel_append _ _ c1.length_eq, ravel_append _ _ c2.length_eq,
      ravel_append _ _ c1.length_eq]
    simp [pow_add]
  rw [matElem, rv s1 s2 s3 a1 a2 a3, rv t1 t2 t3 b1 b2 b3, h3]
  · rw [prodElem_append _ _ _ _ _ _ (by simp [la1]) (by simp [lb1]), prodElem_append [X] _ [_] _ [_] _ rfl rfl,
      prodElem_eye d i _ _ la1 lb1, prodElem_eye d m _ _ la3 lb3]
    simp only [prodElem, blockElem, mul_one]
    have k1 : (s1 ++ (s2 ++ s3)).take i = s1 := List.take_left' la1
    have k2 : (t1 ++ (t2 ++ t3)).take i = t1 := List.take_left' lb1
    have k3 : (s1 ++ (s2 ++ s3)).drop i = s2 ++ s3 := List.drop_left' la1
    have k4 : (t1 ++ (t2 ++ t3)).drop i = t2 ++ t3 := List.drop_left' lb1
    rw [k1, k2, ← List.drop_drop, ← List.drop_drop, k3, k4, List.drop_left' la2, List.drop_left' lb2, List.take_left' la2, List.take_left' lb2]
    by_cases c1 : s1 = t1 <;> by_cases c2 : s3 = t3 <;> simp [c1, c2]
  · exact a1.append (InB.append (by simpa using ravel_lt a2) a3)
  · exact b1.append (InB.append (by simpa using ravel_lt b2) b3)

end Xmps.Spin
