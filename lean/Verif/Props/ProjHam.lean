import Verif.Model.ProjHam
import Verif.Props.NBody
import Verif.Props.Hamiltonian
import Verif.Props.SpinAlgebra
import Verif.Props.Qmb

/-!
# Property C120: the Hamiltonians of `projects/fHam.py` and `projects/iHam.py`
-/

namespace Xmps.ProjHam

open Finset Xmps.Spec Xmps.ProjMpo Xmps.Spin

/-- the entries of a matrix as a function -/
noncomputable def ent {m : ℕ} (S : Matrix (Fin m) (Fin m) ℂ) (a b : ℕ) : ℂ := (Ham.ofMat S).val [a, b]

theorem ent_eq {m : ℕ} (S : Matrix (Fin m) (Fin m) ℂ) {a b : ℕ} (ha : a < m) (hb : b < m) : ent S a b = S ⟨a, ha⟩ ⟨b, hb⟩ := by
  simp [ent, Ham.ofMat, ha, hb]

/-- `R` is the two-site operator with elements `f` -/
def Two (d : ℕ) (R : ND ℂ) (f : ℕ → ℕ → ℕ → ℕ → ℂ) : Prop := R.shape = [d * d, d * d] ∧
  ∀ a < d, ∀ a' < d, ∀ b < d, ∀ b' < d, R.val [a * d + a', b * d + b'] = f a a' b b'

section
variable {d : ℕ} {A B : ND ℂ} {f g : ℕ → ℕ → ℕ → ℕ → ℂ}

theorem Two.scl (c : ℂ) (h : Two d A f) : Two d (scl c A) fun a a' b b' => c * f a a' b b' :=
  ⟨h.1, fun a ha a' ha' b hb b' hb' => by show c * _ = c * _; rw [← h.2 a ha a' ha' b hb b' hb']⟩

theorem Two.add (h : Two d A f) (h' : Two d B g) : ∃ R, A.zipNd (· + ·) B = .ok R ∧ Two d R fun a a' b b' => f a a' b b' + g a a' b b' :=
  ⟨⟨A.shape, fun idx => A.val idx + B.val idx⟩, by rw [ND.zipNd, if_pos (by rw [h.1, h'.1])], h.1, fun a ha a' ha' b hb b' hb' => by
    show _ + _ = _ + _
    rw [← h.2 a ha a' ha' b hb b' hb', ← h'.2 a ha a' ha' b hb b' hb']⟩

theorem Two.mul (h : Two d A f) (h' : Two d B g) : ∃ R, A.matmul B = .ok R ∧
    Two d R fun a a' b b' => ∑ c ∈ range d, ∑ c' ∈ range d, f a a' c c' * g c c' b b' := by
  obtain ⟨R, r1, r2, r3⟩ := ND.matmul22 h.1 h'.1
  refine ⟨R, r1, r2, fun a ha a' ha' b hb b' hb' => ?_⟩
  rw [r3, sum_range_mul]
  refine Finset.sum_congr rfl fun c hc => Finset.sum_congr rfl fun c' hc' => ?_
  rw [h.2 a ha a' ha' c (mem_range.1 hc) c' (mem_range.1 hc'), h'.2 c (mem_range.1 hc) c' (mem_range.1 hc') b hb b' hb']

end

theorem spin2_first {m : ℕ} (S : Matrix (Fin m) (Fin m) ℂ) : ∃ R, spin2 S 1 = .ok R ∧ Two m R fun a a' b b' => if a' = b' then ent S a b else 0 := by
  obtain ⟨R, r1, r2, r3⟩ := nBody_spec (ilog := fun _ _ => 0) (op := Ham.ofMat S) (d := m) rfl (i := 1) (n := 2) le_rfl (by omega)
  refine ⟨R, by exact_mod_cast r1, by rw [r2, pow_two], fun a ha a' ha' b hb b' hb' => ?_⟩
  have := r3 [a, a'] [b, b'] ⟨ha, ha', trivial⟩ ⟨hb, hb', trivial⟩
  simp only [matElem, List.replicate, ravel_cons, ravel_nil, List.prod_cons, List.prod_nil, mul_one, add_zero] at this
  rw [this]
  by_cases e : a' = b' <;> simp [blockElem, e, ent]

theorem spin2_second {m : ℕ} (S : Matrix (Fin m) (Fin m) ℂ) : ∃ R, spin2 S 2 = .ok R ∧ Two m R fun a a' b b' => if a = b then ent S a' b' else 0 := by
  obtain ⟨R, r1, r2, r3⟩ := nBody_spec (ilog := fun _ _ => 0) (op := Ham.ofMat S) (d := m) rfl (i := 2) (n := 2) (by omega) le_rfl
  refine ⟨R, by exact_mod_cast r1, by rw [r2, pow_two], fun a ha a' ha' b hb b' hb' => ?_⟩
  have := r3 [a, a'] [b, b'] ⟨ha, ha', trivial⟩ ⟨hb, hb', trivial⟩
  simp only [matElem, List.replicate, ravel_cons, ravel_nil, List.prod_cons, List.prod_nil, mul_one, add_zero] at this
  rw [this]
  by_cases e : a = b <;> simp [blockElem, e, ent]

/-- the product of an operator on the first and one on the second site -/
theorem two_prod {d : ℕ} (F G : ℕ → ℕ → ℂ) (c : ℂ) {a a' b b' : ℕ} (ha' : a' < d) (hb : b < d) :
    ∑ x ∈ range d, ∑ x' ∈ range d, (c * if a' = x' then F a x else 0) * (if x = b then G x' b' else 0) = c * (F a b * G a' b') := by
  rw [Finset.sum_eq_single_of_mem b (mem_range.2 hb) fun x _ hx => by simp [hx],
    Finset.sum_eq_single_of_mem a' (mem_range.2 ha') fun x _ hx => by simp [Ne.symm hx]]
  simp [mul_assoc]

/-- the product of two operators on the first site -/
theorem two_first {d : ℕ} (F G : ℕ → ℕ → ℂ) (c : ℂ) {a a' b b' : ℕ} (ha' : a' < d) :
    ∑ x ∈ range d, ∑ x' ∈ range d, (c * if a' = x' then F a x else 0) * (if x' = b' then G x b else 0) =
      if a' = b' then c * ∑ x ∈ range d, F a x * G x b else 0 := by
  rw [Finset.sum_congr rfl fun x _ => Finset.sum_eq_single_of_mem a' (mem_range.2 ha') fun x' _ hx => by simp [Ne.symm hx]]
  by_cases e : a' = b'
  · simp [e, Finset.mul_sum, mul_assoc]
  · simp [e]

/-- a two-site matrix placed at bond `i` of a chain of sites of dimension `d` -/
theorem block_place {d : ℕ} (M : ND ℂ) (g : ℕ → List ℕ → List ℕ → ℂ)
    (h0 : ∀ a a' b b' s t, a < d → a' < d → b < d → b' < d → g 0 (a :: a' :: s) (b :: b' :: t) = if s = t then M.val [a * d + a', b * d + b'] else 0)
    (hs : ∀ i a b s t, g (i + 1) (a :: s) (b :: t) = if a = b then g i s t else 0) : ∀ (i L : ℕ) (s t : List ℕ), i + 2 ≤ L →
    InB (List.replicate L d) s → InB (List.replicate L d) t → blockElem d M i 2 s t = g i s t
  | 0, L, s, t, hL, hs', ht => by
    obtain ⟨L, rfl⟩ := Nat.exists_eq_add_of_le' hL
    match s, t, hs', ht with
    | a :: a' :: s, b :: b' :: t, hs', ht =>
      simp only [List.replicate_succ, InB_cons] at hs' ht
      rw [h0 a a' b b' s t hs'.1 hs'.2.1 ht.1 ht.2.1]
      simp [blockElem, ravel_cons]
  | i + 1, L, s, t, hL, hs', ht => by
    obtain ⟨L, rfl⟩ := Nat.exists_eq_add_of_le' (show 1 ≤ L by omega)
    match s, t, hs', ht with
    | a :: s, b :: t, hs', ht =>
      simp only [List.replicate_succ, InB_cons] at hs' ht
      rw [Ham.blockElem_succ, hs, block_place M g h0 hs i L s t (by omega) hs'.2 ht.2]

/-- the operator given by a list of two-site matrices, the first on sites 0 and 1, the next on sites 1 and 2, … -/
noncomputable def termSum (d : ℕ) (hs : List (ND ℂ)) (s t : List ℕ) : ℂ := (hs.zipIdx.map fun p => blockElem d p.1 p.2 2 s t).sum

theorem termSum_cons (d : ℕ) (A B : ND ℂ) (n : ℕ) (s t : List ℕ) : termSum d (A :: List.replicate n B) s t =
    blockElem d A 0 2 s t + ∑ i ∈ range n, blockElem d B (i + 1) 2 s t := by
  rw [termSum, List.zipIdx_cons, List.map_cons, List.sum_cons, Ham.sum_zipIdx_replicate B (fun M i => blockElem d M i 2 s t)]

theorem termSum_replicate (d : ℕ) (B : ND ℂ) (n : ℕ) (s t : List ℕ) : termSum d (List.replicate n B) s t =
    ∑ i ∈ range n, blockElem d B i 2 s t := by
  rw [termSum, Ham.sum_zipIdx_replicate B (fun M i => blockElem d M i 2 s t)]
  simp

/-! ### the Ising chain -/

theorem isinFirst_ok (n : ℕ) (lam : ℂ) : ∃ R, isinFirst n lam = .ok R ∧ Two (n + 1) R fun a a' b b' =>
    -(ent (Sz n) a b * ent (Sz n) a' b') + lam * if a' = b' then ent (Sx n) a b else 0 := by
  obtain ⟨z1, e1, t1⟩ := spin2_first (Sz n)
  obtain ⟨z2, e2, t2⟩ := spin2_second (Sz n)
  obtain ⟨x1, e3, t3⟩ := spin2_first (Sx n)
  obtain ⟨p, e4, t4⟩ := (t1.scl (-1)).mul t2
  obtain ⟨R, e5, t5⟩ := t4.add (t3.scl lam)
  refine ⟨R, ?_, t5.1, fun a ha a' ha' b hb b' hb' => ?_⟩
  · unfold isinFirst
    rw [e1, ok_bind, e2, ok_bind, e3, ok_bind, e4, ok_bind, e5]
  · rw [t5.2 a ha a' ha' b hb b' hb']
    simp only [two_prod (ent (Sz n)) (ent (Sz n)) (-1) (b' := b') (a := a) ha' hb]
    ring

theorem isinBulk_ok (n : ℕ) (lam : ℂ) : ∃ R, isinBulk n lam = .ok R ∧ Two (n + 1) R fun a a' b b' =>
    -(ent (Sz n) a b * ent (Sz n) a' b') + lam * ((if a' = b' then ent (Sx n) a b else 0) + if a = b then ent (Sx n) a' b' else 0) := by
  obtain ⟨z1, e1, t1⟩ := spin2_first (Sz n)
  obtain ⟨z2, e2, t2⟩ := spin2_second (Sz n)
  obtain ⟨x1, e3, t3⟩ := spin2_first (Sx n)
  obtain ⟨x2, e3', t3'⟩ := spin2_second (Sx n)
  obtain ⟨p, e4, t4⟩ := (t1.scl (-1)).mul t2
  obtain ⟨q, e6, t6⟩ := t3.add t3'
  obtain ⟨R, e5, t5⟩ := t4.add (t6.scl lam)
  refine ⟨R, ?_, t5.1, fun a ha a' ha' b hb b' hb' => ?_⟩
  · unfold isinBulk
    rw [e1, ok_bind, e2, ok_bind, e3, ok_bind, e3', ok_bind, e4, ok_bind, e6, ok_bind, e5]
  · rw [t5.2 a ha a' ha' b hb b' hb']
    simp only [two_prod (ent (Sz n)) (ent (Sz n)) (-1) (b' := b') (a := a) ha' hb]
    ring

theorem first_place {n : ℕ} {lam : ℂ} {R : ND ℂ} (h : isinFirst n lam = .ok R) {i L : ℕ} {s t : List ℕ} (hi : i + 2 ≤ L)
    (hs : InB (List.replicate L (n + 1)) s) (ht : InB (List.replicate L (n + 1)) t) :
    blockElem (n + 1) R i 2 s t = -bondElem (ent (Sz n)) (ent (Sz n)) i s t + lam * siteElem (ent (Sx n)) i s t := by
  obtain ⟨R', e, h'⟩ := isinFirst_ok n lam
  rw [h] at e
  injection e with e
  subst e
  refine block_place R (fun i s t => -bondElem (ent (Sz n)) (ent (Sz n)) i s t + lam * siteElem (ent (Sx n)) i s t) ?_ ?_ i L s t hi hs ht
  · intro a a' b b' s t ha ha' hb hb'
    rw [h'.2 a ha a' ha' b hb b' hb']
    by_cases e : s = t
    · by_cases e' : a' = b' <;> simp [bondElem, siteElem, e, e']
    · simp [bondElem, siteElem, e]
  · intro i a b s t
    by_cases e : a = b <;> simp [bondElem, siteElem, e]

theorem bulk_place {n : ℕ} {lam : ℂ} {R : ND ℂ} (h : isinBulk n lam = .ok R) {i L : ℕ} {s t : List ℕ} (hi : i + 2 ≤ L)
    (hs : InB (List.replicate L (n + 1)) s) (ht : InB (List.replicate L (n + 1)) t) :
    blockElem (n + 1) R i 2 s t = -bondElem (ent (Sz n)) (ent (Sz n)) i s t +
      lam * (siteElem (ent (Sx n)) i s t + siteElem (ent (Sx n)) (i + 1) s t) := by
  obtain ⟨R', e, h'⟩ := isinBulk_ok n lam
  rw [h] at e
  injection e with e
  subst e
  refine block_place R (fun i s t => -bondElem (ent (Sz n)) (ent (Sz n)) i s t +
    lam * (siteElem (ent (Sx n)) i s t + siteElem (ent (Sx n)) (i + 1) s t)) ?_ ?_ i L s t hi hs ht
  · intro a a' b b' s t ha ha' hb hb'
    rw [h'.2 a ha a' ha' b hb b' hb']
    by_cases e : s = t
    · by_cases e' : a' = b' <;> by_cases e'' : a = b <;> simp [bondElem, siteElem, e, e', e'']
    · simp [bondElem, siteElem, e]
  · intro i a b s t
    by_cases e : a = b <;> simp [bondElem, siteElem, e]

/-- the Ising chain of `L` spins `n / 2`: `-Σ Sz Sz` over the bonds and `λ Σ Sx` over the sites -/
noncomputable def isingElem (n L : ℕ) (lam : ℂ) (s t : List ℕ) : ℂ :=
  -(∑ i ∈ range (L - 1), bondElem (ent (Sz n)) (ent (Sz n)) i s t) + lam * ∑ i ∈ range L, siteElem (ent (Sx n)) i s t

/-- **C120** `fHam.isin(L, λ)` for three sites or more: the Ising chain, and the field once more on every site from the third to the last but one. -/
theorem isin_sum (n L : ℕ) (lam : ℂ) : ∃ hs, isin n (L + 3) lam = .ok hs ∧ hs.length = L + 2 ∧ ∀ s t, InB (List.replicate (L + 3) (n + 1)) s →
    InB (List.replicate (L + 3) (n + 1)) t →
    termSum (n + 1) hs s t = isingElem n (L + 3) lam s t + lam * ∑ i ∈ range L, siteElem (ent (Sx n)) (i + 2) s t := by
  obtain ⟨A, e1, -⟩ := isinFirst_ok n lam
  obtain ⟨B, e2, -⟩ := isinBulk_ok n lam
  refine ⟨A :: List.replicate (L + 1) B, by unfold isin; rw [e1, ok_bind, e2, ok_bind]; rfl, by simp, fun s t hs ht => ?_⟩
  rw [termSum_cons, first_place e1 (by omega) hs ht,
    Finset.sum_congr rfl fun i hi => bulk_place e2 (i := i + 1) (by have := mem_range.1 hi; omega) hs ht]
  unfold isingElem
  rw [show L + 3 - 1 = L + 2 by omega]
  have c1 := Finset.sum_range_succ' (fun i => bondElem (ent (Sz n)) (ent (Sz n)) i s t) (L + 1)
  have c2 := Finset.sum_range_succ' (fun i => siteElem (ent (Sx n)) i s t) (L + 2)
  have c3 := Finset.sum_range_succ' (fun i => siteElem (ent (Sx n)) (i + 1) s t) (L + 1)
  have c4 := Finset.sum_range_succ (fun i => siteElem (ent (Sx n)) (i + 1 + 1) s t) L
  rw [show L + 2 = L + 1 + 1 from rfl, show L + 3 = L + 1 + 1 + 1 from rfl] at *
  rw [c1, c2, c3]
  simp only [Finset.sum_add_distrib, Finset.sum_neg_distrib, ← Finset.mul_sum]
  have c5 := Finset.sum_range_succ' (fun i => siteElem (ent (Sx n)) (i + 1) s t) L
  have c6 := Finset.sum_range_succ (fun i => siteElem (ent (Sx n)) (i + 1 + 1) s t) L
  simp only [c5, c6]
  simp only [show ∀ i, i + 1 + 1 = i + 2 from fun _ => rfl]
  ring

/-- **C120** for three sites it is the Ising chain -/
theorem isin_three (n : ℕ) (lam : ℂ) : ∃ hs, isin n 3 lam = .ok hs ∧ hs.length = 2 ∧ ∀ s t, InB (List.replicate 3 (n + 1)) s →
    InB (List.replicate 3 (n + 1)) t → termSum (n + 1) hs s t = isingElem n 3 lam s t := by
  obtain ⟨hs, h1, h2, h3⟩ := isin_sum n 0 lam
  exact ⟨hs, h1, h2, fun s t hs ht => by rw [h3 s t hs ht]; simp⟩

theorem ent_Sx01 (n : ℕ) : ent (Sx (n + 1)) 0 1 ≠ 0 := by
  rw [ent_eq _ (by omega) (by omega)]
  unfold Sx
  rw [Matrix.smul_apply, Matrix.add_apply, Sp_apply, ← Sp_conjTranspose, Matrix.conjTranspose_apply, Sp_apply]
  have : Real.sqrt ((n : ℝ) + 1) ≠ 0 := (Real.sqrt_pos.2 (by positivity)).ne'
  simpa [lad] using this

/-- a chain of zeros, and one with a flipped spin at the third site -/
theorem inB_zeros (L n : ℕ) : InB (List.replicate L (n + 1)) (List.replicate L 0) := by
  induction L with
  | zero => trivial
  | succ L ih => exact ⟨by omega, ih⟩

theorem inB_flip (L n : ℕ) : InB (List.replicate (L + 3) (n + 2)) (0 :: 0 :: 1 :: List.replicate L 0) :=
  ⟨by omega, by omega, by omega, inB_zeros L (n + 1)⟩

/-- **C120 fails** for every chain of four sites or more and every field that is not zero: the matrix element that flips the third spin is
`2 λ Sx` instead of `λ Sx`. -/
theorem isin_wrong (n L : ℕ) {lam : ℂ} (hl : lam ≠ 0) : ∃ hs s t, isin (n + 1) (L + 4) lam = .ok hs ∧ InB (List.replicate (L + 4) (n + 2)) s ∧
    InB (List.replicate (L + 4) (n + 2)) t ∧ isingElem (n + 1) (L + 4) lam s t + lam * ent (Sx (n + 1)) 0 1 = termSum (n + 2) hs s t ∧
    termSum (n + 2) hs s t ≠ isingElem (n + 1) (L + 4) lam s t := by
  obtain ⟨hs, h1, -, h3⟩ := isin_sum (n + 1) (L + 1) lam
  have hs' := inB_zeros (L + 4) (n + 1)
  have ht' := inB_flip (L + 1) n
  have e : ∑ i ∈ range (L + 1), siteElem (ent (Sx (n + 1))) (i + 2) (List.replicate (L + 4) 0) (0 :: 0 :: 1 :: List.replicate (L + 1) 0) =
      ent (Sx (n + 1)) 0 1 := by
    rw [Finset.sum_range_succ', Finset.sum_eq_zero]
    · simp [siteElem, List.replicate_succ]
    · intro i _
      simp [siteElem, List.replicate_succ]
  have h4 := h3 _ _ hs' ht'
  rw [e] at h4
  refine ⟨hs, _, _, h1, hs', ht', h4.symm, ?_⟩
  rw [h4]
  intro h
  exact mul_ne_zero hl (ent_Sx01 n) (by linear_combination h)

/-- **C120 fails** for two sites: there is no field on the second one. -/
theorem isin_two (n : ℕ) (lam : ℂ) : ∃ hs, isin n 2 lam = .ok hs ∧ hs.length = 1 ∧ ∀ s t, InB (List.replicate 2 (n + 1)) s →
    InB (List.replicate 2 (n + 1)) t → termSum (n + 1) hs s t = isingElem n 2 lam s t - lam * siteElem (ent (Sx n)) 1 s t := by
  obtain ⟨A, e1, -⟩ := isinFirst_ok n lam
  obtain ⟨B, e2, -⟩ := isinBulk_ok n lam
  refine ⟨[A], by unfold isin; rw [e1, ok_bind, e2, ok_bind]; rfl, rfl, fun s t hs ht => ?_⟩
  have := termSum_cons (n + 1) A B 0 s t
  rw [List.replicate_zero, first_place e1 (by omega) hs ht] at this
  rw [this]
  simp only [isingElem, Finset.sum_range_succ, Finset.sum_range_zero, Nat.add_one_sub_one]
  ring

/-- **C120 fails** for one site: a term on two sites is returned. -/
theorem isin_one (n : ℕ) (lam : ℂ) : ∃ R, isin n 1 lam = .ok [R] ∧ R.shape = [(n + 1) * (n + 1), (n + 1) * (n + 1)] := by
  obtain ⟨A, e1, h⟩ := isinFirst_ok n lam
  obtain ⟨B, e2, -⟩ := isinBulk_ok n lam
  exact ⟨A, by unfold isin; rw [e1, ok_bind, e2, ok_bind]; rfl, h.1⟩

/-- **C120** `iHam.isin(λ)` on every bond of a chain: the field on a site inside is `2 λ`. -/
theorem iIsin_sum (n L : ℕ) (lam : ℂ) : ∃ h, iIsin n lam = .ok [h] ∧ ∀ s t, InB (List.replicate (L + 2) (n + 1)) s →
    InB (List.replicate (L + 2) (n + 1)) t → termSum (n + 1) (List.replicate (L + 1) h) s t =
      isingElem n (L + 2) (2 * lam) s t - lam * (siteElem (ent (Sx n)) 0 s t + siteElem (ent (Sx n)) (L + 1) s t) := by
  obtain ⟨B, e2, -⟩ := isinBulk_ok n lam
  refine ⟨B, by unfold iIsin; rw [e2, ok_bind], fun s t hs ht => ?_⟩
  rw [termSum_replicate, Finset.sum_congr rfl fun i hi => bulk_place e2 (i := i) (by have := mem_range.1 hi; omega) hs ht]
  unfold isingElem
  rw [show L + 2 - 1 = L + 1 by omega]
  simp only [Finset.sum_add_distrib, Finset.sum_neg_distrib, ← Finset.mul_sum]
  have c1 := Finset.sum_range_succ' (fun i => siteElem (ent (Sx n)) i s t) (L + 1)
  have c2 := Finset.sum_range_succ (fun i => siteElem (ent (Sx n)) i s t) (L + 1)
  rw [show L + 2 = L + 1 + 1 from rfl]
  linear_combination (-lam) * c1 - lam * c2

/-! ### the Heisenberg chain -/

/-- the square of `Sz` -/
noncomputable def sz2 (n : ℕ) (a b : ℕ) : ℂ := ∑ x ∈ range (n + 1), ent (Sz n) a x * ent (Sz n) x b

theorem ent_Sz (n : ℕ) {a b : ℕ} (ha : a < n + 1) (hb : b < n + 1) : ent (Sz n) a b = if a = b then (n : ℂ) / 2 - a else 0 := by
  rw [ent_eq _ ha hb, Sz_eq, Matrix.diagonal_apply]
  simp [Fin.ext_iff]

theorem sz2_eq (n : ℕ) {a b : ℕ} (ha : a < n + 1) (hb : b < n + 1) : sz2 n a b = if a = b then ((n : ℂ) / 2 - a) ^ 2 else 0 := by
  unfold sz2
  rw [Finset.sum_eq_single_of_mem a (mem_range.2 ha) fun x hx hne => by rw [ent_Sz n ha (mem_range.1 hx), if_neg (Ne.symm hne), zero_mul],
    ent_Sz n ha ha, ent_Sz n ha hb, if_pos rfl]
  by_cases e : a = b <;> simp [e, pow_two]

theorem heisTerm_ok (n : ℕ) (Δ : ℂ) : ∃ R, heisTerm n Δ = .ok R ∧ Two (n + 1) R fun a a' b b' =>
    ent (Sx n) a b * ent (Sx n) a' b' + ent (Sy n) a b * ent (Sy n) a' b' + if a' = b' then Δ * sz2 n a b else 0 := by
  obtain ⟨x1, e1, t1⟩ := spin2_first (Sx n)
  obtain ⟨x2, e2, t2⟩ := spin2_second (Sx n)
  obtain ⟨y1, e3, t3⟩ := spin2_first (Sy n)
  obtain ⟨y2, e4, t4⟩ := spin2_second (Sy n)
  obtain ⟨z1, e5, t5⟩ := spin2_first (Sz n)
  obtain ⟨xx, e6, t6⟩ := t1.mul t2
  obtain ⟨yy, e7, t7⟩ := t3.mul t4
  obtain ⟨zz, e8, t8⟩ := (t5.scl Δ).mul t5
  obtain ⟨p, e9, t9⟩ := t6.add t7
  obtain ⟨R, e10, t10⟩ := t9.add t8
  refine ⟨R, ?_, t10.1, fun a ha a' ha' b hb b' hb' => ?_⟩
  · unfold heisTerm
    rw [e1, ok_bind, e2, ok_bind, e3, ok_bind, e4, ok_bind, e5, ok_bind, e6, ok_bind, e7, ok_bind, e8, ok_bind, e9, ok_bind, e10]
  · rw [t10.2 a ha a' ha' b hb b' hb']
    have p1 := two_prod (d := n + 1) (ent (Sx n)) (ent (Sx n)) 1 (b' := b') (a := a) ha' hb
    have p2 := two_prod (d := n + 1) (ent (Sy n)) (ent (Sy n)) 1 (b' := b') (a := a) ha' hb
    have p3 := two_first (d := n + 1) (ent (Sz n)) (ent (Sz n)) Δ (b' := b') (a := a) (b := b) ha'
    simp only [one_mul] at p1 p2
    beta_reduce
    rw [p1, p2, p3]
    rfl

theorem heis_place {n : ℕ} {Δ : ℂ} {R : ND ℂ} (h : heisTerm n Δ = .ok R) {i L : ℕ} {s t : List ℕ} (hi : i + 2 ≤ L)
    (hs : InB (List.replicate L (n + 1)) s) (ht : InB (List.replicate L (n + 1)) t) :
    blockElem (n + 1) R i 2 s t = bondElem (ent (Sx n)) (ent (Sx n)) i s t + bondElem (ent (Sy n)) (ent (Sy n)) i s t +
      Δ * siteElem (sz2 n) i s t := by
  obtain ⟨R', e, h'⟩ := heisTerm_ok n Δ
  rw [h] at e
  injection e with e
  subst e
  refine block_place R (fun i s t => bondElem (ent (Sx n)) (ent (Sx n)) i s t + bondElem (ent (Sy n)) (ent (Sy n)) i s t +
      Δ * siteElem (sz2 n) i s t) ?_ ?_ i L s t hi hs ht
  · intro a a' b b' s t ha ha' hb hb'
    rw [h'.2 a ha a' ha' b hb b' hb']
    by_cases e : s = t
    · by_cases e' : a' = b' <;> simp [bondElem, siteElem, e, e']
    · simp [bondElem, siteElem, e]
  · intro i a b s t
    by_cases e : a = b <;> simp [bondElem, siteElem, e]

/-- the chain `Σ Sx Sx + Sy Sy + Δ Sz Sz` of `L` spins `n / 2` -/
noncomputable def xxzElem (n L : ℕ) (Δ : ℂ) (s t : List ℕ) : ℂ := ∑ i ∈ range (L - 1),
  (bondElem (ent (Sx n)) (ent (Sx n)) i s t + bondElem (ent (Sy n)) (ent (Sy n)) i s t + Δ * bondElem (ent (Sz n)) (ent (Sz n)) i s t)

/-- **C120** `fHam.heis(L, Δ)`: the coupling of the z components is replaced by the square of `Sz` on the first site of each bond. -/
theorem heis_sum (n L : ℕ) (Δ : ℂ) : ∃ hs, heis n L Δ = .ok hs ∧ hs.length = L - 1 ∧ ∀ s t, InB (List.replicate L (n + 1)) s →
    InB (List.replicate L (n + 1)) t → termSum (n + 1) hs s t =
      xxzElem n L 0 s t + Δ * ∑ i ∈ range (L - 1), siteElem (sz2 n) i s t := by
  obtain ⟨A, e1, -⟩ := heisTerm_ok n Δ
  refine ⟨List.replicate (L - 1) A, by unfold heis; rw [e1, ok_bind], by simp, fun s t hs ht => ?_⟩
  rw [termSum_replicate, Finset.sum_congr rfl fun i hi => heis_place e1 (i := i) (by have := mem_range.1 hi; omega) hs ht]
  unfold xxzElem
  rw [Finset.mul_sum, ← Finset.sum_add_distrib]
  exact Finset.sum_congr rfl fun i _ => by ring

theorem siteElem_one (A : ℕ → ℕ → ℂ) (z : ℂ) (d : ℕ) (hA : ∀ a < d, ∀ b < d, A a b = if a = b then z else 0) : ∀ (i L : ℕ) (s t : List ℕ), i < L →
    InB (List.replicate L d) s → InB (List.replicate L d) t → siteElem A i s t = if s = t then z else 0
  | 0, L + 1, a :: s, b :: t, _, hs, ht => by
    simp only [List.replicate_succ, InB_cons] at hs ht
    rw [siteElem, hA a hs.1 b ht.1]
    by_cases e : s = t <;> by_cases e' : a = b <;> simp [e, e']
  | i + 1, L + 1, a :: s, b :: t, h, hs, ht => by
    simp only [List.replicate_succ, InB_cons] at hs ht
    rw [siteElem, siteElem_one A z d hA i L s t (by omega) hs.2 ht.2]
    by_cases e : s = t <;> by_cases e' : a = b <;> simp [e, e']

/-- **C120** for spin 1/2, as in `iHam.heis(Δ)`, the anisotropy only shifts the energy: every bond contributes `Δ / 4` times the identity. -/
theorem iHeis_sum (L : ℕ) (Δ : ℂ) : ∃ h, iHeis 1 Δ = .ok [h] ∧ ∀ s t, InB (List.replicate L 2) s → InB (List.replicate L 2) t →
    termSum 2 (List.replicate (L - 1) h) s t = xxzElem 1 L 0 s t + if s = t then ((L - 1 : ℕ) : ℂ) * (Δ / 4) else 0 := by
  obtain ⟨A, e1, -⟩ := heisTerm_ok 1 Δ
  refine ⟨A, by unfold iHeis; rw [e1, ok_bind], fun s t hs ht => ?_⟩
  obtain ⟨hs', h1, -, h3⟩ := heis_sum 1 L Δ
  unfold heis at h1
  rw [e1, ok_bind] at h1
  injection h1 with h1
  rw [h1, h3 s t hs ht, Finset.sum_congr rfl fun i hi => siteElem_one (sz2 1) (1 / 4) 2 (fun a ha b hb => by
    rw [sz2_eq 1 ha hb]
    by_cases e : a = b
    · subst e
      interval_cases a <;> norm_num
    · simp [e]) i L s t (by have := mem_range.1 hi; omega) hs ht]
  by_cases e : s = t
  · simp [e]
    ring
  · simp [e]

theorem siteElem_diag (A : ℕ → ℕ → ℂ) : ∀ (i : ℕ) (s : List ℕ), i < s.length → siteElem A i s s = A (s.getD i 0) (s.getD i 0)
  | 0, a :: s, _ => by simp [siteElem]
  | i + 1, a :: s, h => by rw [siteElem, if_pos rfl, siteElem_diag A i s (by simpa using h)]; simp

theorem bondElem_diag (A B : ℕ → ℕ → ℂ) : ∀ (i : ℕ) (s : List ℕ), i + 1 < s.length →
    bondElem A B i s s = A (s.getD i 0) (s.getD i 0) * B (s.getD (i + 1) 0) (s.getD (i + 1) 0)
  | 0, a :: a' :: s, _ => by simp [bondElem]
  | i + 1, a :: s, h => by rw [bondElem, if_pos rfl, bondElem_diag A B i s (by simpa using h)]; simp

/-- **C120 fails** for every chain of two sites or more and every anisotropy that is not zero: with all spins up but the last one down, the
diagonal element is too large by `2 Δ (n/2)²`. -/
theorem heis_wrong (n L : ℕ) {Δ : ℂ} (hΔ : Δ ≠ 0) : ∃ hs s, heis (n + 1) (L + 2) Δ = .ok hs ∧ InB (List.replicate (L + 2) (n + 2)) s ∧
    termSum (n + 2) hs s s = xxzElem (n + 1) (L + 2) Δ s s + 2 * Δ * (((n + 1 : ℕ) : ℂ) / 2) ^ 2 ∧
    termSum (n + 2) hs s s ≠ xxzElem (n + 1) (L + 2) Δ s s := by
  obtain ⟨hs, h1, -, h3⟩ := heis_sum (n + 1) (L + 2) Δ
  have hin : InB (List.replicate (L + 2) (n + 2)) (List.replicate (L + 1) 0 ++ [n + 1]) := by
    rw [List.replicate_succ' (n := L + 1)]
    exact (inB_zeros (L + 1) (n + 1)).append ⟨by omega, trivial⟩
  set s := List.replicate (L + 1) 0 ++ [n + 1] with hsdef
  have hlen : s.length = L + 2 := by simp [hsdef]
  have g0 : ∀ i, i < L + 1 → s.getD i 0 = 0 := by
    intro i hi
    rw [hsdef, List.getD_append _ _ _ _ (by simpa using hi)]
    simp [List.getD_eq_getElem?_getD, hi]
  have g1 : s.getD (L + 1) 0 = n + 1 := by
    rw [hsdef, List.getD_append_right _ _ _ _ (by simp)]
    simp
  set j : ℂ := ((n + 1 : ℕ) : ℂ) / 2 with hj
  have z0 : ent (Sz (n + 1)) 0 0 = j := by rw [ent_Sz _ (by omega) (by omega)]; simp [hj]
  have z1 : ent (Sz (n + 1)) (n + 1) (n + 1) = -j := by rw [ent_Sz _ (by omega) (by omega), hj]; simp; ring
  have q : ∀ i ∈ range (L + 1), siteElem (sz2 (n + 1)) i s s = j ^ 2 := by
    intro i hi
    have hi := mem_range.1 hi
    rw [siteElem_diag _ _ _ (by omega), g0 i hi, sz2_eq _ (by omega) (by omega)]
    simp [hj]
  have b : ∑ i ∈ range (L + 1), bondElem (ent (Sz (n + 1))) (ent (Sz (n + 1))) i s s = L * j ^ 2 - j ^ 2 := by
    rw [Finset.sum_range_succ, bondElem_diag _ _ _ _ (by omega), g0 L (by omega), g1, z0, z1, Finset.sum_congr rfl (g := fun _ => j ^ 2)]
    · simp; ring
    · intro i hi
      have hi := mem_range.1 hi
      rw [bondElem_diag _ _ _ _ (by omega), g0 i (by omega), g0 (i + 1) (by omega), z0, pow_two]
  have e : termSum (n + 2) hs s s = xxzElem (n + 1) (L + 2) Δ s s + 2 * Δ * j ^ 2 := by
    rw [h3 s s hin hin]
    unfold xxzElem
    rw [show L + 2 - 1 = L + 1 by omega, Finset.sum_congr rfl q]
    simp only [Finset.sum_add_distrib, zero_mul, add_zero, ← Finset.mul_sum, b]
    simp
    ring
  refine ⟨hs, s, h1, hin, e, ?_⟩
  rw [e]
  intro h
  have : 2 * Δ * j ^ 2 = 0 := by linear_combination h
  have hj0 : j ≠ 0 := by
    rw [hj]
    exact div_ne_zero (by exact_mod_cast Nat.succ_ne_zero n) two_ne_zero
  exact mul_ne_zero (mul_ne_zero two_ne_zero hΔ) (pow_ne_zero 2 hj0) this

/-- the spin 1 chains of `fHam.py` and the spin 1/2 chains of `iHam.py` -/
example := isin_wrong 1 0 (lam := 1 / 2) (by norm_num)
example := isin_three 2 (1 / 2)
example := heis_wrong 1 2 (Δ := 1) one_ne_zero
example := iHeis_sum 4 3
example := iIsin_sum 1 3 (1 / 2)

end Xmps.ProjHam
