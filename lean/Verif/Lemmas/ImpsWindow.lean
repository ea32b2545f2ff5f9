import Verif.Spec.ImpsTdvp
import Verif.Lemmas.ImpsCore

/-!
# Windows of an infinite MPS
-/

namespace Xmps.IMPS

open Finset Matrix Spec

variable {d D : ℕ} {A B A1 A2 B1 B2 l r h : ND ℂ} {As Bs : List (ND ℂ)} {R X : Matrix (Fin D) (Fin D) ℂ}

/-- one site more in a left environment -/
noncomputable def push2 (d D : ℕ) (A B : ND ℂ) (X : Matrix (Fin D) (Fin D) ℂ) : Matrix (Fin D) (Fin D) ℂ :=
  ∑ s ∈ range d, (toM3 D D A s)ᵀ * X * (toM3 D D B s).map star

/-- `h` on two tensors, for given output indices -/
noncomputable def hMat (d D : ℕ) (h A1 A2 : ND ℂ) (s1 s2 : ℕ) : Matrix (Fin D) (Fin D) ℂ :=
  ∑ t1 ∈ range d, ∑ t2 ∈ range d, h.val [s1 * d + s2, t1 * d + t2] • (toM3 D D A1 t1 * toM3 D D A2 t2)

/-- two sites more in a left environment, `h` acting on them -/
noncomputable def hPush (d D : ℕ) (h A1 A2 B1 B2 : ND ℂ) (X : Matrix (Fin D) (Fin D) ℂ) : Matrix (Fin D) (Fin D) ℂ :=
  ∑ s1 ∈ range d, ∑ s2 ∈ range d, (hMat d D h A1 A2 s1 s2)ᵀ * X * (toM3 D D B1 s1 * toM3 D D B2 s2).map star

/-- a window between the environments `X` and `R` -/
noncomputable def cl (d D : ℕ) (R X : Matrix (Fin D) (Fin D) ℂ) (As Bs : List (ND ℂ)) : ℂ :=
  ∑ c : Fin D, ∑ c' : Fin D, R c c' * ∑ a : Fin D, ∑ a' : Fin D, X a a' *
    sumIdx (List.replicate As.length d) fun s => amp As s a c * star (amp Bs s a' c')

/-- a window between the environments `X` and `R` with `h` on the sites `m`, `m+1` -/
noncomputable def clG (d D : ℕ) (h : ND ℂ) (m : ℕ) (R X : Matrix (Fin D) (Fin D) ℂ) (As Bs : List (ND ℂ)) : ℂ :=
  ∑ c : Fin D, ∑ c' : Fin D, R c c' * ∑ a : Fin D, ∑ a' : Fin D, X a a' *
    sumIdx (List.replicate As.length d) fun s => gateAct d h m (m + 1) (fun s => amp As s a c) s * star (amp Bs s a' c')

theorem window_eq (m : ℕ) : window d D l r h m As Bs = clG d D h m (toM D D r) (toM D D l) As Bs := by
  simp only [window, clG, Finset.sum_range, Finset.mul_sum]
  rfl

/-- one step of the contraction -/
theorem step1 (P Q : Matrix (Fin D) (Fin D) ℂ) (ds : List ℕ) (F G : Fin D → List ℕ → ℂ) :
    ∑ a : Fin D, ∑ a' : Fin D, X a a' * sumIdx ds (fun s => (∑ e : Fin D, P a e * F e s) * star (∑ e : Fin D, Q a' e * G e s)) =
      ∑ e : Fin D, ∑ e' : Fin D, (Pᵀ * X * Q.map star) e e' * sumIdx ds fun s => F e s * star (G e' s) := by
  have h1 : ∀ a a', sumIdx ds (fun s => (∑ e : Fin D, P a e * F e s) * star (∑ e : Fin D, Q a' e * G e s)) =
      ∑ e : Fin D, ∑ e' : Fin D, P a e * star (Q a' e') * sumIdx ds fun s => F e s * star (G e' s) := by
    intro a a'
    simp only [← sumIdx_mul_left, ← sumIdx_finset_sum]
    refine sumIdx_congr fun s _ => ?_
    simp only [star_sum, star_mul', Finset.sum_mul, Finset.mul_sum]
    rw [Finset.sum_comm]
    exact sum_congr rfl fun e _ => sum_congr rfl fun e' _ => by ring
  simp only [h1]
  simp only [Matrix.mul_apply, transpose_apply, Matrix.map_apply, Finset.mul_sum, Finset.sum_mul]
  have h2 : ∀ (f : Fin D → Fin D → Fin D → Fin D → ℂ), ∑ a, ∑ a', ∑ e, ∑ e', f a a' e e' = ∑ e, ∑ e', ∑ a', ∑ a, f a a' e e' := by
    intro f
    calc _ = ∑ a, ∑ e, ∑ a', ∑ e', f a a' e e' := sum_congr rfl fun a _ => Finset.sum_comm
      _ = ∑ e, ∑ a, ∑ a', ∑ e', f a a' e e' := Finset.sum_comm
      _ = ∑ e, ∑ a, ∑ e', ∑ a', f a a' e e' := sum_congr rfl fun e _ => sum_congr rfl fun a _ => Finset.sum_comm
      _ = ∑ e, ∑ e', ∑ a, ∑ a', f a a' e e' := sum_congr rfl fun e _ => Finset.sum_comm
      _ = _ := sum_congr rfl fun e _ => sum_congr rfl fun a _ => Finset.sum_comm
  rw [h2]
  exact sum_congr rfl fun e _ => sum_congr rfl fun e' _ => sum_congr rfl fun a _ => sum_congr rfl fun a' _ => by ring

theorem amp_step (hA : A.shape = [d, D, D]) (s : ℕ) (ss : List ℕ) (a c : Fin D) :
    amp (A :: As) (s :: ss) a c = ∑ e : Fin D, toM3 D D A s a e * amp As ss e c := by
  rw [amp_cons, show A.dim 2 = D by simp [ND.dim, hA], Finset.sum_range]
  rfl

theorem cl_cons (hA : A.shape = [d, D, D]) (hB : B.shape = [d, D, D]) : cl d D R X (A :: As) (B :: Bs) = cl d D R (push2 d D A B X) As Bs := by
  unfold cl
  refine sum_congr rfl fun c _ => sum_congr rfl fun c' _ => congrArg _ ?_
  simp only [List.length_cons, List.replicate_succ, sumIdx_cons, amp_step hA, amp_step hB, Finset.mul_sum]
  rw [Finset.sum_congr rfl fun a _ => Finset.sum_comm, Finset.sum_comm]
  rw [Finset.sum_congr rfl fun s _ => step1 (toM3 D D A s) (toM3 D D B s) _ (fun e ss => amp As ss e c) (fun e ss => amp Bs ss e c')]
  rw [Finset.sum_comm]
  refine sum_congr rfl fun e _ => ?_
  rw [Finset.sum_comm]
  refine sum_congr rfl fun e' _ => ?_
  rw [← Finset.sum_mul, push2, Matrix.sum_apply]

theorem gate_step (hA : A.shape = [d, D, D]) (m s : ℕ) (ss : List ℕ) (a c : Fin D) :
    gateAct d h (m + 1) (m + 1 + 1) (fun s => amp (A :: As) s a c) (s :: ss) =
      ∑ e : Fin D, toM3 D D A s a e * gateAct d h m (m + 1) (fun s => amp As s e c) ss := by
  unfold gateAct
  simp only [List.getD_cons_succ, List.set_cons_succ, amp_step hA, Finset.mul_sum]
  rw [Finset.sum_congr rfl fun t1 _ => Finset.sum_comm, Finset.sum_comm]
  exact sum_congr rfl fun e _ => sum_congr rfl fun t1 _ => sum_congr rfl fun t2 _ => by ring

theorem clG_succ (hA : A.shape = [d, D, D]) (hB : B.shape = [d, D, D]) (m : ℕ) :
    clG d D h (m + 1) R X (A :: As) (B :: Bs) = clG d D h m R (push2 d D A B X) As Bs := by
  unfold clG
  refine sum_congr rfl fun c _ => sum_congr rfl fun c' _ => congrArg _ ?_
  simp only [List.length_cons, List.replicate_succ, sumIdx_cons, gate_step hA, amp_step hB, Finset.mul_sum]
  rw [Finset.sum_congr rfl fun a _ => Finset.sum_comm, Finset.sum_comm]
  rw [Finset.sum_congr rfl fun s _ => step1 (toM3 D D A s) (toM3 D D B s) _ (fun e ss => gateAct d h m (m + 1) (fun s => amp As s e c) ss)
    (fun e ss => amp Bs ss e c')]
  rw [Finset.sum_comm]
  refine sum_congr rfl fun e _ => ?_
  rw [Finset.sum_comm]
  refine sum_congr rfl fun e' _ => ?_
  rw [← Finset.sum_mul, push2, Matrix.sum_apply]

theorem amp_step2 (hA : A1.shape = [d, D, D]) (hB : A2.shape = [d, D, D]) (s1 s2 : ℕ) (ss : List ℕ) (a c : Fin D) :
    amp (A1 :: A2 :: As) (s1 :: s2 :: ss) a c = ∑ e : Fin D, (toM3 D D A1 s1 * toM3 D D A2 s2) a e * amp As ss e c := by
  rw [amp_step hA]
  simp only [amp_step hB, Matrix.mul_apply, Finset.mul_sum, Finset.sum_mul]
  rw [Finset.sum_comm]
  exact sum_congr rfl fun e _ => sum_congr rfl fun t1 _ => by ring

theorem gate_zero (hA : A1.shape = [d, D, D]) (hB : A2.shape = [d, D, D]) (s1 s2 : ℕ) (ss : List ℕ) (a c : Fin D) :
    gateAct d h 0 (0 + 1) (fun s => amp (A1 :: A2 :: As) s a c) (s1 :: s2 :: ss) = ∑ e : Fin D, hMat d D h A1 A2 s1 s2 a e * amp As ss e c := by
  unfold gateAct hMat
  simp only [List.getD_cons_succ, List.getD_cons_zero, List.set_cons_succ, List.set_cons_zero, amp_step2 hA hB, Finset.mul_sum, Matrix.sum_apply,
    Matrix.smul_apply, smul_eq_mul, Finset.sum_mul]
  rw [Finset.sum_congr rfl fun t1 _ => Finset.sum_comm, Finset.sum_comm]
  exact sum_congr rfl fun e _ => sum_congr rfl fun t1 _ => sum_congr rfl fun t2 _ => by ring

theorem clG_zero (hA1 : A1.shape = [d, D, D]) (hA2 : A2.shape = [d, D, D]) (hB1 : B1.shape = [d, D, D]) (hB2 : B2.shape = [d, D, D]) :
    clG d D h 0 R X (A1 :: A2 :: As) (B1 :: B2 :: Bs) = cl d D R (hPush d D h A1 A2 B1 B2 X) As Bs := by
  unfold clG cl
  refine sum_congr rfl fun c _ => sum_congr rfl fun c' _ => congrArg _ ?_
  simp only [List.length_cons, List.replicate_succ, sumIdx_cons, gate_zero hA1 hA2, amp_step2 hB1 hB2, Finset.mul_sum]
  rw [Finset.sum_congr rfl fun a _ => Finset.sum_comm, Finset.sum_comm]
  have h1 : ∀ s1 ∈ range d, ∑ a : Fin D, ∑ a' : Fin D, ∑ s2 ∈ range d, X a a' * sumIdx (List.replicate As.length d)
      (fun ss => (∑ e : Fin D, hMat d D h A1 A2 s1 s2 a e * amp As ss e c) * star (∑ e : Fin D, (toM3 D D B1 s1 * toM3 D D B2 s2) a' e * amp Bs ss e c')) =
      ∑ s2 ∈ range d, ∑ e : Fin D, ∑ e' : Fin D, ((hMat d D h A1 A2 s1 s2)ᵀ * X * (toM3 D D B1 s1 * toM3 D D B2 s2).map star) e e' *
        sumIdx (List.replicate As.length d) fun ss => amp As ss e c * star (amp Bs ss e' c') := by
    intro s1 _
    rw [Finset.sum_congr rfl fun a _ => Finset.sum_comm, Finset.sum_comm]
    exact sum_congr rfl fun s2 _ => step1 _ _ _ (fun e ss => amp As ss e c) (fun e ss => amp Bs ss e c')
  rw [Finset.sum_congr rfl h1]
  simp only [hPush, Matrix.sum_apply, Finset.sum_mul]
  rw [Finset.sum_congr rfl fun s1 _ => Finset.sum_comm, Finset.sum_comm]
  refine sum_congr rfl fun e _ => ?_
  rw [Finset.sum_congr rfl fun s1 _ => Finset.sum_comm, Finset.sum_comm]

theorem cl_nil : cl d D R X [] [] = (Xᵀ * R).trace := by
  unfold cl
  simp only [List.length_nil, List.replicate_zero, Matrix.trace, Matrix.diag_apply, Matrix.mul_apply, transpose_apply]
  have : ∀ c c' : Fin D, ∑ a : Fin D, ∑ a' : Fin D, X a a' * sumIdx [] (fun s => amp ([] : List (ND ℂ)) s a c * star (amp ([] : List (ND ℂ)) s a' c')) = X c c' := by
    intro c c'
    rw [Finset.sum_eq_single c, Finset.sum_eq_single c']
    · simp [sumIdx]
    · intro b _ hb
      simp [sumIdx, Fin.val_inj, hb]
    · simp
    · intro b _ hb
      simp [sumIdx, Fin.val_inj, hb]
    · simp
  simp only [this]
  rw [Finset.sum_comm]
  exact sum_congr rfl fun c _ => sum_congr rfl fun c' _ => mul_comm _ _

theorem cl_zero : cl d D R 0 As Bs = 0 := by
  simp [cl]

theorem clG_zero_env (m : ℕ) : clG d D h m R 0 As Bs = 0 := by
  simp [clG]

/-- sites without variation on the right -/
theorem cl_tail (hA : A.shape = [d, D, D]) (hR : ∑ s ∈ range d, toM3 D D A s * R * (toM3 D D A s)ᴴ = R) :
    ∀ (k : ℕ) (X : Matrix (Fin D) (Fin D) ℂ), cl d D R X (List.replicate k A) (List.replicate k A) = (Xᵀ * R).trace
  | 0, X => cl_nil
  | k + 1, X => by
    rw [List.replicate_succ, cl_cons hA hA, cl_tail hA hR k, push2, transpose_sum, Finset.sum_mul, Matrix.trace_sum]
    conv_rhs => rw [← hR, Finset.mul_sum, Matrix.trace_sum]
    refine sum_congr rfl fun s _ => ?_
    rw [transpose_mul, transpose_mul, transpose_transpose, show ((toM3 D D A s).map star)ᵀ = (toM3 D D A s)ᴴ from rfl, Matrix.mul_assoc,
      Matrix.trace_mul_comm]
    simp only [Matrix.mul_assoc]

/-- sites without variation on the left -/
theorem cl_skip (hA : A.shape = [d, D, D]) : ∀ (n : ℕ) (X : Matrix (Fin D) (Fin D) ℂ), cl d D R X (List.replicate n A ++ As) (List.replicate n A ++ Bs) =
    cl d D R ((pushLeft d D A)^[n] X) As Bs
  | 0, _ => rfl
  | n + 1, X => by
    rw [List.replicate_succ, List.cons_append, List.cons_append, cl_cons hA hA, cl_skip hA n]
    rfl

theorem clG_skip (hA : A.shape = [d, D, D]) (m : ℕ) : ∀ (n : ℕ) (X : Matrix (Fin D) (Fin D) ℂ), pushLeft d D A X = X →
    clG d D h (m + n) R X (List.replicate n A ++ As) (List.replicate n A ++ Bs) = clG d D h m R X As Bs
  | 0, _, _ => rfl
  | n + 1, X, hX => by
    rw [List.replicate_succ, List.cons_append, List.cons_append, ← add_assoc, clG_succ hA hA, show push2 d D A A X = X from hX, clG_skip hA m n X hX]

theorem replicate_split (n k : ℕ) : List.replicate (n + 1 + k) A = List.replicate n A ++ A :: List.replicate k A := by
  rw [add_assoc, List.replicate_add, add_comm 1 k, List.replicate_succ]

/-- **the window**: the terms of the Hamiltonian that matter for a variation in the left gauge -/
theorem hamOverlap_eq (hA : A.shape = [d, D, D]) (hB : B.shape = [d, D, D]) (hR : ∑ s ∈ range d, toM3 D D A s * toM D D r * (toM3 D D A s)ᴴ = toM D D r)
    (hl : pushLeft d D A (toM D D l) = toM D D l) (hg : push2 d D A B (toM D D l) = 0) (j k : ℕ) :
    hamOverlap d D A l r h B (j + 1 + 1 + (k + 1)) (j + 1) =
      ((hPush d D h A A B A (toM D D l))ᵀ * toM D D r).trace + ((hPush d D h A A A B (toM D D l))ᵀ * toM D D r).trace +
        ∑ n ∈ range j, ((push2 d D A B ((pushLeft d D A)^[n] (hPush d D h A A A A (toM D D l))))ᵀ * toM D D r).trace := by
  have hset : ∀ n k, (List.replicate (n + 1 + k) A).set n B = List.replicate n A ++ B :: List.replicate k A := by
    intro n k
    rw [replicate_split, List.set_append_right _ _ (by simp)]
    simp
  unfold hamOverlap
  rw [hset, replicate_split]
  simp only [window_eq]
  rw [show j + 1 + 1 + (k + 1) - 1 = j + (2 + k) by omega, Finset.sum_range_add, ← Finset.sum_range_reflect, add_comm]
  refine congrArg₂ (· + ·) ?_ ?_
  · rw [add_comm 2 k, Finset.sum_range_succ', Finset.sum_range_succ', Finset.sum_eq_zero, zero_add]
    · refine congrArg₂ (· + ·) ?_ ?_
      · have := clG_skip (R := toM D D r) (h := h) (As := A :: List.replicate (k + 1) A) (Bs := B :: List.replicate (k + 1) A) hA 0 (j + 1) _ hl
        rw [zero_add, ] at this
        rw [zero_add, this, List.replicate_succ, clG_zero hA hA hB hA, cl_tail hA hR]
      · have := clG_skip (R := toM D D r) (h := h) (As := A :: A :: List.replicate (k + 1) A) (Bs := A :: B :: List.replicate (k + 1) A) hA 0 j _ hl
        rw [zero_add] at this
        rw [add_zero]
        have e : ∀ (C : ND ℂ) (Cs : List (ND ℂ)), List.replicate (j + 1) A ++ C :: Cs = List.replicate j A ++ A :: C :: Cs := by
          intro C Cs
          rw [List.replicate_succ', List.append_assoc]
          rfl
        rw [e, e, this, clG_zero hA hA hA hB, cl_tail hA hR]
    · intro m hm
      have := clG_skip (R := toM D D r) (h := h) (As := A :: List.replicate (k + 1) A) (Bs := B :: List.replicate (k + 1) A) hA (m + 1) (j + 1) _ hl
      rw [show j + (m + 1 + 1) = m + 1 + (j + 1) by omega, this, clG_succ hA hB, hg, clG_zero_env]
  · refine sum_congr rfl fun n hn => ?_
    have hn := mem_range.1 hn
    have e : ∀ (C : ND ℂ) (Cs : List (ND ℂ)), List.replicate (j + 1) A ++ C :: Cs = List.replicate (j - 1 - n) A ++ (A :: A :: (List.replicate n A ++ C :: Cs)) := by
      intro C Cs
      rw [show j + 1 = (j - 1 - n) + (n + 1 + 1) by omega, List.replicate_add, List.append_assoc]
      rfl
    have := clG_skip (R := toM D D r) (h := h) (As := A :: A :: (List.replicate n A ++ A :: List.replicate (k + 1) A))
      (Bs := A :: A :: (List.replicate n A ++ B :: List.replicate (k + 1) A)) hA 0 (j - 1 - n) _ hl
    rw [zero_add] at this
    rw [e, e, this, clG_zero hA hA hA hA, cl_skip hA, cl_cons hA hB, cl_tail hA hR]

end Xmps.IMPS
