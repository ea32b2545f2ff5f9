import Verif.Model.Tfd
import Verif.Lemmas.FmpsBasic
import Verif.Lemmas.TwoSite
import Verif.Props.TransferMatrix
import Verif.Props.Orthogonalise

/-!
# C37: thermofield doubles

Specification: a doubled basis state is a pair of basis states `s`, `t`; on each site of local
dimension `d` it is numbered `s_k d + t_k`.
-/

namespace Xmps.Spec

variable {K : Type}

/-- The basis state of the doubled chain with first copy `s` and second copy `t`. -/
def pairIdx : List ℕ → List ℕ → List ℕ → List ℕ
  | d :: ds, s :: ss, t :: ts => (s * d + t) :: pairIdx ds ss ts
  | _, _, _ => []

/-- A chain whose extents are squares: site `k` has local dimension `ds[k] ^ 2`. -/
def SquareChain : List ℕ → List (ND K) → ℕ → ℕ → Prop
  | [], [], l, r => l = r
  | d :: ds, A :: As, l, r => ∃ m, A.shape = [d ^ 2, l ^ 2, m ^ 2] ∧ SquareChain ds As m r
  | _, _, _, _ => False

/-- The tensor is unchanged when the two copies are exchanged on every leg. -/
def CopySym (A : ND K) (d l r : ℕ) : Prop :=
  ∀ s < d, ∀ t < d, ∀ i < l, ∀ j < l, ∀ k < r, ∀ m < r,
    A.val [t * d + s, j * l + i, m * r + k] = A.val [s * d + t, i * l + j, k * r + m]

end Xmps.Spec

namespace Xmps

open Spec Finset TFD

variable {K : Type}

theorem ND.reshape_ok_any {A : ND K} {sh : List ℕ} (h : A.shape.prod = sh.prod) : A.reshape sh = .ok (A.reshapeR sh) := by
  unfold ND.reshape ND.size
  rw [h]
  simp

theorem ND.reshapeR_val_any {A : ND K} {sh idx idx' : List ℕ} (h : InB A.shape idx) (he : ravel sh idx' = ravel A.shape idx) :
    (A.reshapeR sh).val idx' = A.val idx := by
  change A.val (unravel A.shape (ravel sh idx')) = _
  rw [he, unravel_ravel h]

theorem sum_flat' [AddCommMonoid K] (D : ℕ) (f : ℕ → K) :
    ∑ x ∈ range (D ^ 2), f x = ∑ a ∈ range D, ∑ b ∈ range D, f (a * D + b) := by
  rw [pow_two, sum_range_mul]

theorem flat_div {d s t : ℕ} (ht : t < d) : (s * d + t) / d = s := by
  rw [Nat.add_comm, Nat.add_mul_div_right _ _ (by omega), Nat.div_eq_of_lt ht, Nat.zero_add]

theorem flat_mod {d s t : ℕ} (ht : t < d) : (s * d + t) % d = t := by
  rw [Nat.add_comm, Nat.add_mul_mod_self_right, Nat.mod_eq_of_lt ht]

theorem pairIdx_inB : ∀ {ds s t : List ℕ}, InB ds s → InB ds t → InB (ds.map (· ^ 2)) (pairIdx ds s t)
  | [], [], [], _, _ => trivial
  | _ :: _, _ :: _, _ :: _, h, h' => ⟨flat_pair h.1 h'.1, pairIdx_inB h.2 h'.2⟩

theorem SquareChain.chain : ∀ {ds : List ℕ} {As : List (ND K)} {l r : ℕ}, SquareChain ds As l r →
    MpsChain (ds.map (· ^ 2)) As (l ^ 2) (r ^ 2)
  | [], [], _, _, h => by cases h; rfl
  | _ :: _, _ :: _, _, _, ⟨m, h1, h2⟩ => ⟨m ^ 2, h1, SquareChain.chain h2⟩
  | [], _ :: _, _, _, h => h.elim
  | _ :: _, [], _, _, h => h.elim

/-! ## `kron` -/

theorem kron3_ok [Mul K] {A : ND K} {d l r : ℕ} (hA : A.shape = [d, l, r]) :
    ∃ R, kron3 A A = .ok R ∧ R.shape = [d ^ 2, l ^ 2, r ^ 2] ∧
      ∀ s < d, ∀ t < d, ∀ i < l, ∀ j < l, ∀ k < r, ∀ m < r,
        R.val [s * d + t, i * l + j, k * r + m] = A.val [s, i, k] * A.val [t, j, m] := by
  unfold kron3
  rw [hA]
  refine ⟨_, rfl, by simp [pow_two], fun s _ t ht i _ j hj k _ m hm => ?_⟩
  simp only [flat_div ht, flat_mod ht, flat_div hj, flat_mod hj, flat_div hm, flat_mod hm]

theorem kronChain_ok [CommSemiring K] : ∀ {ds : List ℕ} {As : List (ND K)} {l r : ℕ}, MpsChain ds As l r →
    ∃ Bs, As.mapM (fun a => kron3 a a) = .ok Bs ∧ SquareChain ds Bs l r ∧
      ∀ s t, InB ds s → InB ds t → ∀ a < l, ∀ a' < l, ∀ b < r, ∀ b' < r,
        amp Bs (pairIdx ds s t) (a * l + a') (b * r + b') = amp As s a b * amp As t a' b'
  | [], [], l, r, h => by
    have h : l = r := h
    subst h
    refine ⟨[], rfl, rfl, fun s t hs ht a ha a' ha' b hb b' hb' => ?_⟩
    cases s with
    | cons _ _ => exact absurd hs (by simp [InB])
    | nil => cases t with
      | cons _ _ => exact absurd ht (by simp [InB])
      | nil =>
        simp only [pairIdx, amp_nil]
        by_cases h1 : a = b
        · by_cases h2 : a' = b'
          · simp [h1, h2]
          · have : ¬ (a * l + a' = b * l + b') := by rw [h1]; omega
            simp [h2, this]
        · have : ¬ (a * l + a' = b * l + b') := by
            intro he
            have := congrArg (· / l) he
            simp only [flat_div ha', flat_div hb'] at this
            exact h1 this
          simp [h1, this]
  | d :: ds, A :: As, l, r, ⟨m, hA, h⟩ => by
    obtain ⟨R, h1, h2, h3⟩ := kron3_ok hA
    obtain ⟨Bs, h4, h5, h6⟩ := kronChain_ok h
    refine ⟨R :: Bs, by rw [List.mapM_cons, h1, ok_bind, h4]; rfl, ⟨m, h2, h5⟩, ?_⟩
    intro s t hs ht a ha a' ha' b hb b' hb'
    match s, t, hs, ht with
    | s :: ss, t :: ts, hs, ht =>
      simp only [pairIdx, amp_cons, dim2 h2, dim2 hA]
      rw [sum_flat', sum_mul_sum]
      refine sum_congr rfl fun c hc => sum_congr rfl fun c' hc' => ?_
      rw [h3 s hs.1 t ht.1 a ha a' ha' c (by simpa using hc) c' (by simpa using hc'),
        h6 ss ts hs.2 ht.2 c (by simpa using hc) c' (by simpa using hc') b hb b' hb']
      ring
  | [], _ :: _, _, _, h => h.elim
  | _ :: _, [], _, _, h => h.elim

/-- **C37**: `fTFD().from_fMPS(x)` is a state of the doubled chain, its amplitude on the pair
`s`, `t` is `x(s) x(t)`, and its local dimension and bond dimension are the squares. -/
theorem fromFMPS_amplitude [CommSemiring K] {x : FMPS K} {ds : List ℕ} (hx : x.Holds ds) :
    ∃ y, fromFMPS x = .ok y ∧ SquareChain ds y.data 1 1 ∧ y.Holds (ds.map (· ^ 2)) ∧ y.D = x.D ^ 2 ∧
      ∀ s t, InB ds s → InB ds t → psi y.data (pairIdx ds s t) = psi x.data s * psi x.data t := by
  obtain ⟨Bs, h1, h2, h3⟩ := kronChain_ok hx.chain
  have hc : MpsChain (ds.map (· ^ 2)) Bs 1 1 := by simpa using SquareChain.chain h2
  obtain ⟨d, ds', rfl⟩ := List.exists_cons_of_ne_nil hx.ne
  refine ⟨⟨Bs, x.L, x.d ^ 2, x.D ^ 2, false, false, none, none⟩, ?_, h2, ⟨hc, by simp, ?_, ?_⟩, rfl, ?_⟩
  · unfold fromFMPS
    rw [h1]
    rfl
  · simp [hx.len]
  · have := hx.d
    simp_all
  · intro s t hs ht
    have hB : Bs ≠ [] := by
      rintro rfl
      exact h2.elim
    rw [psi_eq_amp hc hB (pairIdx_inB hs ht).length_eq, psi_eq_amp hx.chain hx.data_ne hs.length_eq,
      psi_eq_amp hx.chain hx.data_ne ht.length_eq]
    simpa using h3 s t hs ht 0 (by simp) 0 (by simp) 0 (by simp) 0 (by simp)

/-! ## `symmetry` -/

theorem nat_sqrt_sq (n : ℕ) : Nat.sqrt (n ^ 2) = n := by rw [pow_two]; exact Nat.sqrt_eq n

theorem symmetry1_ok {A : ND K} {d l r : ℕ} (hA : A.shape = [d ^ 2, l ^ 2, r ^ 2]) :
    ∃ R, symmetry1 A = .ok R ∧ R.shape = [d ^ 2, l ^ 2, r ^ 2] ∧
      ∀ s < d, ∀ t < d, ∀ i < l, ∀ j < l, ∀ k < r, ∀ m < r,
        R.val [t * d + s, j * l + i, m * r + k] = A.val [s * d + t, i * l + j, k * r + m] := by
  set T := A.reshapeR [d, d, l, l, r, r] with hT
  have sT : T.shape = [d, d, l, l, r, r] := rfl
  set U := T.transposeR [1, 0, 3, 2, 5, 4] with hU
  have sU : U.shape = [d, d, l, l, r, r] := by simp [hU, ND.transposeR, ND.dim, sT]
  have eU : T.transpose [1, 0, 3, 2, 5, 4] = .ok U :=
    ND.transpose_ok (by rw [ND.rank, sT]; exact (by decide : [1, 0, 3, 2, 5, 4].Perm (List.range 6)))
  refine ⟨U.reshapeR [d ^ 2, l ^ 2, r ^ 2], ?_, rfl, ?_⟩
  · unfold symmetry1
    simp only [dim0 hA, dim1 hA, dim2 hA, nat_sqrt_sq]
    rw [ND.reshape_ok_any (by rw [hA]; simp; ring), ok_bind, eU, ok_bind, hA]
    exact ND.reshape_ok_any (by rw [sU]; simp; ring)
  · intro s hs t ht i hi j hj k hk m hm
    rw [ND.reshapeR_val_any (idx := [t, s, j, i, m, k]) (by rw [sU]; exact ⟨ht, hs, hj, hi, hm, hk, trivial⟩) (by
      rw [sU]; simp only [ravel_cons, ravel_nil, List.prod_cons, List.prod_nil]; ring)]
    have : U.val [t, s, j, i, m, k] = T.val [s, t, i, j, k, m] := by
      simp [hU, ND.transposeR, ND.rank, sT, List.range_succ]
    rw [this]
    refine ND.reshapeR_val_any (by rw [hA]; exact ⟨flat_pair hs ht, flat_pair hi hj, flat_pair hk hm, trivial⟩) ?_
    rw [hA]
    simp only [ravel_cons, ravel_nil, List.prod_cons, List.prod_nil]
    ring

theorem square_eqv {A B : ND K} {d l r : ℕ} (hA : A.shape = [d ^ 2, l ^ 2, r ^ 2]) (hB : B.shape = [d ^ 2, l ^ 2, r ^ 2])
    (h : ∀ s < d, ∀ t < d, ∀ i < l, ∀ j < l, ∀ k < r, ∀ m < r,
      A.val [t * d + s, j * l + i, m * r + k] = B.val [t * d + s, j * l + i, m * r + k]) : A ≈ B := by
  refine ⟨by rw [hA, hB], ?_⟩
  rw [hA]
  intro idx hi
  match idx, hi with
  | [a, b, c], hi =>
    obtain ⟨t, s, h1, h2, rfl⟩ := flat_split hi.1
    obtain ⟨j, i, h3, h4, rfl⟩ := flat_split hi.2.1
    obtain ⟨m, k, h5, h6, rfl⟩ := flat_split hi.2.2.1
    exact h s h2 t h1 i h4 j h3 k h6 m h5

theorem symChain_ok [CommSemiring K] : ∀ {ds : List ℕ} {As : List (ND K)} {l r : ℕ}, SquareChain ds As l r →
    ∃ Bs, As.mapM symmetry1 = .ok Bs ∧ SquareChain ds Bs l r ∧
      ∀ s t, InB ds s → InB ds t → ∀ a < l, ∀ a' < l, ∀ b < r, ∀ b' < r,
        amp Bs (pairIdx ds t s) (a' * l + a) (b' * r + b) = amp As (pairIdx ds s t) (a * l + a') (b * r + b')
  | [], [], l, r, h => by
    have h : l = r := h
    subst h
    refine ⟨[], rfl, rfl, fun s t hs ht a ha a' ha' b hb b' hb' => ?_⟩
    have key : ∀ x < l, ∀ x' < l, ∀ y < l, ∀ y' < l, x * l + x' = y * l + y' ↔ x = y ∧ x' = y' := by
      intro x _ x' hx' y _ y' hy'
      refine ⟨fun he => ?_, by rintro ⟨rfl, rfl⟩; rfl⟩
      have h1 := congrArg (· / l) he
      have h2 := congrArg (· % l) he
      simp only [flat_div hx', flat_div hy', flat_mod hx', flat_mod hy'] at h1 h2
      exact ⟨h1, h2⟩
    cases s with
    | cons _ _ => exact absurd hs (by simp [InB])
    | nil => cases t with
      | cons _ _ => exact absurd ht (by simp [InB])
      | nil =>
        simp only [pairIdx, amp_nil, key a' ha' a ha b' hb' b hb, key a ha a' ha' b hb b' hb']
        simp only [and_comm]
  | d :: ds, A :: As, l, r, ⟨m, hA, h⟩ => by
    obtain ⟨R, h1, h2, h3⟩ := symmetry1_ok hA
    obtain ⟨Bs, h4, h5, h6⟩ := symChain_ok h
    refine ⟨R :: Bs, by rw [List.mapM_cons, h1, ok_bind, h4]; rfl, ⟨m, h2, h5⟩, ?_⟩
    intro s t hs ht a ha a' ha' b hb b' hb'
    match s, t, hs, ht with
    | s :: ss, t :: ts, hs, ht =>
      simp only [pairIdx, amp_cons, dim2 h2, dim2 hA]
      rw [sum_flat', sum_flat', sum_comm]
      refine sum_congr rfl fun c hc => sum_congr rfl fun c' hc' => ?_
      rw [h3 s hs.1 t ht.1 a ha a' ha' c (by simpa using hc) c' (by simpa using hc'),
        h6 ss ts hs.2 ht.2 c (by simpa using hc) c' (by simpa using hc') b hb b' hb']
  | [], _ :: _, _, _, h => h.elim
  | _ :: _, [], _, _, h => h.elim

theorem squareChain_ne {ds : List ℕ} {As : List (ND K)} {l r : ℕ} (h : SquareChain ds As l r) (hne : ds ≠ []) : As ≠ [] := by
  rintro rfl
  obtain ⟨d, ds', rfl⟩ := List.exists_cons_of_ne_nil hne
  exact h.elim

theorem symmetry_data [CommSemiring K] {y : FMPS K} {ds : List ℕ} (hne : ds ≠ []) (hy : SquareChain ds y.data 1 1) :
    ∃ z, symmetry y = .ok z ∧ y.data.mapM symmetry1 = .ok z.data ∧ SquareChain ds z.data 1 1 ∧ z.Holds (ds.map (· ^ 2)) ∧
      ∀ s t, InB ds s → InB ds t → psi z.data (pairIdx ds t s) = psi y.data (pairIdx ds s t) := by
  obtain ⟨Bs, h1, h2, h3⟩ := symChain_ok hy
  have hc : MpsChain (ds.map (· ^ 2)) Bs 1 1 := by simpa using SquareChain.chain h2
  have hc' : MpsChain (ds.map (· ^ 2)) y.data 1 1 := by simpa using SquareChain.chain hy
  obtain ⟨z, e1, e2, e3, -⟩ := init_holds hc (by simpa using hne) none (Or.inl rfl)
  refine ⟨z, ?_, by rw [e2]; exact h1, e2 ▸ h2, e3, ?_⟩
  · unfold symmetry
    rw [h1]
    exact e1
  · intro s t hs ht
    rw [e2, psi_eq_amp hc (squareChain_ne h2 hne) (pairIdx_inB ht hs).length_eq,
      psi_eq_amp hc' (squareChain_ne hy hne) (pairIdx_inB hs ht).length_eq]
    simpa using h3 s t hs ht 0 (by simp) 0 (by simp) 0 (by simp) 0 (by simp)

/-- **C37**: `symmetry` exchanges the two copies: the amplitude of the result on the pair `t`, `s` is
the amplitude of the argument on `s`, `t`. -/
theorem symmetry_exchanges [CommSemiring K] {y : FMPS K} {ds : List ℕ} (hne : ds ≠ []) (hy : SquareChain ds y.data 1 1) :
    ∃ z, symmetry y = .ok z ∧ z.Holds (ds.map (· ^ 2)) ∧
      ∀ s t, InB ds s → InB ds t → psi z.data (pairIdx ds t s) = psi y.data (pairIdx ds s t) :=
  have ⟨z, h1, _, _, h2, h3⟩ := symmetry_data hne hy
  ⟨z, h1, h2, h3⟩

theorem symTwice : ∀ {ds : List ℕ} {As Bs Cs : List (ND K)} {l r : ℕ}, SquareChain ds As l r →
    As.mapM symmetry1 = .ok Bs → Bs.mapM symmetry1 = .ok Cs → List.Forall₂ (· ≈ ·) Cs As
  | [], [], Bs, Cs, _, _, _, h1, h2 => by
    cases h1
    cases h2
    exact .nil
  | d :: ds, A :: As, Bs, Cs, l, r, ⟨m, hA, h⟩, h1, h2 => by
    obtain ⟨R, e1, e2, e3⟩ := symmetry1_ok hA
    obtain ⟨S, f1, f2, f3⟩ := symmetry1_ok e2
    rw [List.mapM_cons, e1, ok_bind] at h1
    obtain ⟨Bs', g1, g2⟩ := bind_eq_ok h1
    cases g2
    rw [List.mapM_cons, f1, ok_bind] at h2
    obtain ⟨Cs', g3, g4⟩ := bind_eq_ok h2
    cases g4
    refine .cons (square_eqv f2 hA fun s hs t ht i hi j hj k hk m hm => ?_) (symTwice h g1 g3)
    rw [f3 s hs t ht i hi j hj k hk m hm, e3 t ht s hs j hj i hi m hm k hk]
  | [], _ :: _, _, _, _, _, h, _, _ => h.elim
  | _ :: _, [], _, _, _, _, h, _, _ => h.elim

/-- **C37**: `symmetry` is an involution: twice it gives back the same arrays. -/
theorem symmetry_involution [CommSemiring K] {y : FMPS K} {ds : List ℕ} (hne : ds ≠ []) (hy : SquareChain ds y.data 1 1) :
    ∃ z w, symmetry y = .ok z ∧ symmetry z = .ok w ∧ List.Forall₂ (· ≈ ·) w.data y.data := by
  obtain ⟨z, h1, h2, h3, -⟩ := symmetry_data hne hy
  obtain ⟨w, g1, g2, -⟩ := symmetry_data hne h3
  exact ⟨z, w, h1, g1, symTwice hy h2 g2⟩

theorem symmetry1_fix {A R : ND K} {d l r : ℕ} (hA : A.shape = [d ^ 2, l ^ 2, r ^ 2]) (hs : CopySym A d l r)
    (hR : symmetry1 A = .ok R) : R ≈ A := by
  obtain ⟨R', e1, e2, e3⟩ := symmetry1_ok hA
  obtain rfl : R' = R := by rw [e1] at hR; exact Except.ok.inj hR
  refine square_eqv e2 hA fun s hs' t ht i hi j hj k hk m hm => ?_
  rw [e3 s hs' t ht i hi j hj k hk m hm, hs s hs' t ht i hi j hj k hk m hm]

/-- Chains of tensors each of which is unchanged by the exchange of copies. -/
def SymChain : List ℕ → List (ND K) → ℕ → ℕ → Prop
  | [], [], l, r => l = r
  | d :: ds, A :: As, l, r => ∃ m, A.shape = [d ^ 2, l ^ 2, m ^ 2] ∧ CopySym A d l m ∧ SymChain ds As m r
  | _, _, _, _ => False

theorem SymChain.square : ∀ {ds : List ℕ} {As : List (ND K)} {l r : ℕ}, SymChain ds As l r → SquareChain ds As l r
  | [], [], _, _, h => h
  | _ :: _, _ :: _, _, _, ⟨m, h1, _, h2⟩ => ⟨m, h1, h2.square⟩
  | [], _ :: _, _, _, h => h.elim
  | _ :: _, [], _, _, h => h.elim

theorem symChain_fix : ∀ {ds : List ℕ} {As Bs : List (ND K)} {l r : ℕ}, SymChain ds As l r →
    As.mapM symmetry1 = .ok Bs → List.Forall₂ (· ≈ ·) Bs As
  | [], [], Bs, _, _, _, h => by
    cases h
    exact .nil
  | d :: ds, A :: As, Bs, l, r, ⟨m, hA, hs, h⟩, hB => by
    obtain ⟨R, e1, -, -⟩ := symmetry1_ok hA
    rw [List.mapM_cons, e1, ok_bind] at hB
    obtain ⟨Bs', g1, g2⟩ := bind_eq_ok hB
    cases g2
    exact .cons (symmetry1_fix hA hs e1) (symChain_fix h g1)
  | [], _ :: _, _, _, _, h, _ => h.elim
  | _ :: _, [], _, _, _, h, _ => h.elim

theorem kron_symChain [CommSemiring K] : ∀ {ds : List ℕ} {As Bs : List (ND K)} {l r : ℕ}, MpsChain ds As l r →
    As.mapM (fun a => kron3 a a) = .ok Bs → SymChain ds Bs l r
  | [], [], Bs, _, _, h, h1 => by
    cases h1
    exact h
  | d :: ds, A :: As, Bs, l, r, ⟨m, hA, h⟩, hB => by
    obtain ⟨R, e1, e2, e3⟩ := kron3_ok hA
    rw [List.mapM_cons, e1, ok_bind] at hB
    obtain ⟨Bs', g1, g2⟩ := bind_eq_ok hB
    cases g2
    refine ⟨m, e2, fun s hs t ht i hi j hj k hk n hn => ?_, kron_symChain h g1⟩
    rw [e3 s hs t ht i hi j hj k hk n hn, e3 t ht s hs j hj i hi n hn k hk, mul_comm]
  | [], _ :: _, _, _, _, h, _ => h.elim
  | _ :: _, [], _, _, _, h, _ => h.elim

/-- **C37**: the thermofield double of an MPS is unchanged, array by array, by `symmetry`. -/
theorem fromFMPS_symmetric [CommSemiring K] {x : FMPS K} {ds : List ℕ} (hx : x.Holds ds) :
    ∃ y z, fromFMPS x = .ok y ∧ symmetry y = .ok z ∧ List.Forall₂ (· ≈ ·) z.data y.data := by
  obtain ⟨y, h1, h2, -⟩ := fromFMPS_amplitude hx
  obtain ⟨z, g1, g2, -⟩ := symmetry_data hx.ne h2
  refine ⟨y, z, h1, g1, symChain_fix (kron_symChain hx.chain ?_) g2⟩
  unfold fromFMPS at h1
  obtain ⟨Bs, e1, e2⟩ := bind_eq_ok h1
  cases e2
  exact e1

/-! ## `symmetrise` -/

theorem symSum [CommSemiring K] : ∀ {ds : List ℕ} {As Bs : List (ND K)} {l r : ℕ}, SquareChain ds As l r →
    As.mapM symmetry1 = .ok Bs →
    ∃ Cs, (As.zip Bs).mapM (fun (a, b) => a.zipNd (· + ·) b) = .ok Cs ∧ SymChain ds Cs l r ∧
      List.Forall₂ (fun C p => ∀ idx, C.val idx = p.1.val idx + p.2.val idx) Cs (As.zip Bs)
  | [], [], Bs, _, _, h, h1 => by
    cases h1
    exact ⟨[], rfl, h, .nil⟩
  | d :: ds, A :: As, Bs, l, r, ⟨m, hA, h⟩, hB => by
    obtain ⟨R, e1, e2, e3⟩ := symmetry1_ok hA
    rw [List.mapM_cons, e1, ok_bind] at hB
    obtain ⟨Bs', g1, g2⟩ := bind_eq_ok hB
    cases g2
    obtain ⟨Cs, f1, f2, f3⟩ := symSum h g1
    refine ⟨⟨A.shape, fun idx => A.val idx + R.val idx⟩ :: Cs, ?_, ⟨m, hA, ?_, f2⟩, .cons (fun _ => rfl) f3⟩
    · have : A.zipNd (· + ·) R = .ok ⟨A.shape, fun idx => A.val idx + R.val idx⟩ := by
        unfold ND.zipNd
        rw [if_pos (by rw [hA, e2])]
      simp only [List.zip_cons_cons, List.mapM_cons, this, ok_bind, f1]
      rfl
    · intro s hs t ht i hi j hj k hk n hn
      change A.val _ + R.val _ = A.val _ + R.val _
      rw [e3 s hs t ht i hi j hj k hk n hn, e3 t ht s hs j hj i hi n hn k hk, add_comm]
  | [], _ :: _, _, _, _, h, _ => h.elim
  | _ :: _, [], _, _, _, h, _ => h.elim

/-- **C37**: `symmetrise` adds to each array its exchanged copy; the result is unchanged, array by array, by
`symmetry`, so its amplitudes are symmetric in the two copies. -/
theorem symmetrise_symmetric [CommSemiring K] {y : FMPS K} {ds : List ℕ} (hne : ds ≠ []) (hy : SquareChain ds y.data 1 1) :
    ∃ z w v, symmetry y = .ok z ∧ symmetrise y = .ok w ∧ symmetry w = .ok v ∧
      List.Forall₂ (fun C p => ∀ idx, C.val idx = p.1.val idx + p.2.val idx) w.data (y.data.zip z.data) ∧
      List.Forall₂ (· ≈ ·) v.data w.data ∧ w.Holds (ds.map (· ^ 2)) ∧
      ∀ s t, InB ds s → InB ds t → psi w.data (pairIdx ds t s) = psi w.data (pairIdx ds s t) := by
  obtain ⟨z, h1, h2, h3, -⟩ := symmetry_data hne hy
  obtain ⟨Cs, f1, f2, f3⟩ := symSum hy h2
  have hc : MpsChain (ds.map (· ^ 2)) Cs 1 1 := by simpa using SquareChain.chain f2.square
  obtain ⟨w, e1, e2, e3, -⟩ := init_holds hc (by simpa using hne) none (Or.inl rfl)
  rw [← e2] at f2 f3
  obtain ⟨v, g1, g2, g3, g4, g5⟩ := symmetry_data hne f2.square
  have hf := symChain_fix f2 g2
  refine ⟨z, w, v, h1, ?_, g1, f3, hf, e3, fun s t hs ht => ?_⟩
  · unfold symmetrise
    rw [h1, ok_bind]
    unfold FMPS.addItem
    rw [f1]
    exact e1
  · rw [← g5 s t hs ht]
    have hv : MpsChain (ds.map (· ^ 2)) v.data 1 1 := g4.chain
    rw [psi_eq_amp hv g4.data_ne (pairIdx_inB ht hs).length_eq, psi_eq_amp e3.chain e3.data_ne (pairIdx_inB ht hs).length_eq]
    exact (amp_congr hv hf (pairIdx_inB ht hs) 0 0 (by simp)).symm

/-! ## the hypotheses are met -/

example := fromFMPS_amplitude (exTwo_holds 2)
example := fromFMPS_symmetric (exTwo_holds 2)

theorem exTwo_double : ∃ y, fromFMPS (exTwo 2) = .ok y ∧ SquareChain (List.replicate 2 2) y.data 1 1 :=
  have ⟨y, h1, h2, _⟩ := fromFMPS_amplitude (exTwo_holds 2)
  ⟨y, h1, h2⟩

/-- a tensor of one doubled site that is not symmetric: the pair `(0, 1)` -/
def exPair : FMPS ℂ := ⟨[⟨[4, 1, 1], fun idx => if idx = [1, 0, 0] then 1 else 0⟩], 1, 4, 1, false, false, none, none⟩

theorem exPair_square : SquareChain [2] exPair.data 1 1 := ⟨1, rfl, rfl⟩

theorem exPair_psi : psi exPair.data (pairIdx [2] [0] [1]) = 1 ∧ psi exPair.data (pairIdx [2] [1] [0]) = 0 := by
  simp [psi, exPair, pairIdx, pathProd]

example := symmetry_exchanges (by simp) exPair_square
example := symmetry_involution (by simp) exPair_square
example := symmetrise_symmetric (by simp) exPair_square

end Xmps
