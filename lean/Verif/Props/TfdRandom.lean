import Verif.Model.TfdRandom
import Verif.Props.Tfd
import Verif.Props.IsoRandom

/-!
# C131: random thermofield doubles

Specification: `pairIdx` (a basis state of the doubled chain is a pair) of C37.
-/

namespace Xmps.TFD

open Spec Finset

variable {L d D : ℕ} (ang : ℕ → ℝ × ℝ) (rnd : ℕ → List ℕ → ℝ × ℝ) (x : FMPS ℂ)

theorem zip_self_mapM {α β : Type} (f : α → α → Py β) : ∀ l : List α, ((l.zip l).mapM fun (a, b) => f a b) = l.mapM fun a => f a a
  | [] => rfl
  | a :: l => by
    rw [List.zip_cons_cons, List.mapM_cons, List.mapM_cons, zip_self_mapM f l]

/-- the doubled state made from the state `y` that `fMPS.random` gives -/
theorem random_of {y : FMPS ℂ} {ds : List ℕ} (ey : x.random ang rnd L d (some D) = .ok y) (hy : y.Holds ds) (hd : y.d = d) :
    ∃ z w, random ang rnd x L d D = .ok z ∧ z.Holds (ds.map (· ^ 2)) ∧ z.D = D ^ 2 ∧
      (∀ s t, InB ds s → InB ds t → psi z.data (pairIdx ds s t) = psi y.data s * psi y.data t) ∧
      symmetry z = .ok w ∧ List.Forall₂ (· ≈ ·) w.data z.data := by
  obtain ⟨z, w, e1, e2, e3⟩ := fromFMPS_symmetric hy
  obtain ⟨z', f1, -, f3, -, f5⟩ := fromFMPS_amplitude hy
  rw [e1] at f1
  cases f1
  unfold fromFMPS at e1
  obtain ⟨Bs, b1, b2⟩ := bind_eq_ok e1
  cases b2
  refine ⟨{ y with data := Bs, d := d ^ 2, D := D ^ 2 }, w, ?_, ⟨f3.chain, f3.ne, f3.len, ?_⟩, rfl, f5, e2, e3⟩
  · unfold random
    rw [if_pos rfl, ey, ok_bind, zip_self_mapM, b1, ok_bind]
  · have := f3.d
    rwa [hd] at this

/-- **C131**: `random(L, d, D)` is, for two or more sites, the double of the state `y` that `fMPS.random` gives with the same random numbers: the
amplitude on a pair of basis states is the product of the amplitudes, and exchanging the copies changes no tensor. -/
theorem random_pure (hL : 2 ≤ L) (hD : 0 < D) (hD1 : D = 1 → d = 2) :
    ∃ y z w, x.random ang rnd L d (some D) = .ok y ∧ y.Holds (List.replicate L d) ∧ random ang rnd x L d D = .ok z ∧
      z.Holds (List.replicate L (d ^ 2)) ∧ z.D = D ^ 2 ∧
      (∀ s t, InB (List.replicate L d) s → InB (List.replicate L d) t →
        psi z.data (pairIdx (List.replicate L d) s t) = psi y.data s * psi y.data t) ∧
      symmetry z = .ok w ∧ List.Forall₂ (· ≈ ·) w.data z.data := by
  obtain ⟨y, ey, hy⟩ : ∃ y, x.random ang rnd L d (some D) = .ok y ∧ y.Holds (List.replicate L d) := by
    by_cases h1 : D = 1
    · subst h1
      obtain rfl := hD1 rfl
      obtain ⟨y, ey, hp, -⟩ := FMPS.random_product ang rnd false x (L := L) (by omega)
      exact ⟨y, ey, hp.1⟩
    · obtain ⟨y, ey, hy, -⟩ := FMPS.random_chain ang rnd false x (d := d) hL hD h1
      exact ⟨y, ey, hy⟩
  have hd : y.d = d := by
    rw [hy.d]
    obtain ⟨n, rfl⟩ : ∃ n, L = n + 1 := ⟨L - 1, by omega⟩
    simp [List.replicate_succ]
  obtain ⟨z, w, h1, h2, h3, h4, h5, h6⟩ := random_of ang rnd x ey hy hd
  exact ⟨y, z, w, ey, hy, h1, by simpa using h2, h3, h4, h5, h6⟩

/-- **C131** (violated): with `D = 1` the tensors have local dimension 4 whatever `d` is, while the attribute says `d²`. -/
theorem random_pure_wrong (hL : 0 < L) (hd : d ≠ 2) : ∃ z, random ang rnd x L d 1 = .ok z ∧ z.d = d ^ 2 ∧
    MpsChain (List.replicate L (2 ^ 2)) z.data 1 1 ∧ ¬ MpsChain (List.replicate L (d ^ 2)) z.data 1 1 := by
  obtain ⟨y, ey, -, hc, -⟩ := FMPS.random_product_wrong ang rnd false x hL hd
  obtain ⟨Bs, b1, b2, -⟩ := kronChain_ok hc
  have hB : MpsChain (List.replicate L (2 ^ 2)) Bs 1 1 := by simpa using SquareChain.chain b2
  refine ⟨{ y with data := Bs, d := d ^ 2, D := 1 ^ 2 }, ?_, rfl, hB, ?_⟩
  · unfold random
    rw [if_pos rfl, ey, ok_bind, zip_self_mapM, b1, ok_bind]
  · intro hB'
    obtain ⟨n, rfl⟩ : ∃ n, L = n + 1 := ⟨L - 1, by omega⟩
    cases Bs with
    | nil => exact hB.elim
    | cons B Bs =>
      rw [List.replicate_succ] at hB hB'
      obtain ⟨m, h1, -⟩ := hB
      obtain ⟨m', h2, -⟩ := hB'
      rw [h1] at h2
      simp only [List.cons.injEq] at h2
      exact hd (Nat.pow_left_injective (n := 2) (by norm_num) h2.1.symm)

theorem bondAt_sq (i : ℕ) : bondAt L (d ^ 2) (D ^ 2) i = bondAt L d D i ^ 2 := by
  unfold bondAt
  rw [← pow_mul, mul_comm 2, pow_mul]
  exact ((Nat.pow_left_strictMono (n := 2) (by norm_num)).monotone.map_min).symm

theorem square_of_shapes (g : ℕ → ℕ) : ∀ (n i : ℕ) (As : List (ND ℂ)),
    As.map (·.shape) = (List.range' i n).map (fun j => [d ^ 2, g j ^ 2, g (j + 1) ^ 2]) → SquareChain (List.replicate n d) As (g i) (g (i + n))
  | 0, i, [], _ => rfl
  | 0, i, A :: As, h => by simp at h
  | n + 1, i, [], h => by simp [List.range'_succ] at h
  | n + 1, i, A :: As, h => by
    rw [List.range'_succ, List.map_cons, List.map_cons, List.cons.injEq] at h
    refine ⟨g (i + 1), h.1, ?_⟩
    have := square_of_shapes g n (i + 1) As h.2
    rwa [show i + 1 + n = i + (n + 1) by omega] at this

/-- **C131**: `random(L, d, D, pure=False)` is, for two or more sites and `D ≥ 2`, a state of the doubled chain that is symmetric in the two copies: each
tensor is the sum of a random one and the one with exchanged copies. -/
theorem random_mixed (hL : 2 ≤ L) (hD : 2 ≤ D) :
    ∃ y u z w, x.random ang rnd L (d ^ 2) (some (D ^ 2)) = .ok y ∧ symmetry y = .ok u ∧ random ang rnd x L d D false = .ok z ∧
      z.Holds (List.replicate L (d ^ 2)) ∧ List.Forall₂ (fun C p => ∀ idx, C.val idx = p.1.val idx + p.2.val idx) z.data (y.data.zip u.data) ∧
      (∀ s t, InB (List.replicate L d) s → InB (List.replicate L d) t →
        psi u.data (pairIdx (List.replicate L d) t s) = psi y.data (pairIdx (List.replicate L d) s t)) ∧
      (∀ s t, InB (List.replicate L d) s → InB (List.replicate L d) t →
        psi z.data (pairIdx (List.replicate L d) t s) = psi z.data (pairIdx (List.replicate L d) s t)) ∧
      symmetry z = .ok w ∧ List.Forall₂ (· ≈ ·) w.data z.data := by
  obtain ⟨y, ey, -, hs, -⟩ := FMPS.random_chain ang rnd false x (d := d ^ 2) (D := D ^ 2) hL (by positivity) (by nlinarith)
  have hq : SquareChain (List.replicate L d) y.data 1 1 := by
    have := square_of_shapes (d := d) (bondAt L d D) L 0 y.data (by rw [hs, List.range_eq_range']; simp only [bondAt_sq])
    have b0 : bondAt L d D 0 = 1 := by simp [bondAt]; omega
    have b1 : bondAt L d D (0 + L) = 1 := by simp [bondAt]; omega
    rwa [b0, b1] at this
  have hne : List.replicate L d ≠ [] := by
    rw [Ne, List.replicate_eq_nil_iff]
    omega
  obtain ⟨u, z, w, h1, h2, h3, h4, h5, h6, h7⟩ := symmetrise_symmetric hne hq
  obtain ⟨u', g1, -, g3⟩ := symmetry_exchanges hne hq
  rw [h1] at g1
  cases g1
  refine ⟨y, u, z, w, ey, h1, ?_, by simpa using h6, h4, g3, h7, h3, h5⟩
  unfold random
  rw [if_neg (by simp), ey, ok_bind, h2]

/-- **C131** (violated): `random(L, d, 1, pure=False)` always raises `ValueError`. -/
theorem random_mixed_one (hL : 0 < L) : random ang rnd x L d 1 false = .error .valueError := by
  obtain ⟨n, rfl⟩ : ∃ n, L = n + 1 := ⟨L - 1, by omega⟩
  have hs : symmetry1 (FMPS.blochTensor false (ang 0).1 (ang 0).2) = .error .valueError := by
    unfold symmetry1
    have h2 : Nat.sqrt 2 = 1 := by norm_num
    simp [ND.dim, FMPS.blochTensor, ND.reshape, h2]
    rfl
  unfold random
  rw [if_neg (by simp), FMPS.random, if_pos (by simp), ok_bind]
  unfold symmetrise symmetry
  simp only [List.range_succ_eq_map, List.map_cons, List.mapM_cons, hs, err_bind]

/-- **C131** (violated): one site raises `IndexError` unless `D = 1`. -/
theorem random_one_site (hD : D ≠ 1) (pure : Bool) : random ang rnd x 1 d D pure = .error .indexError := by
  unfold random
  cases pure
  · rw [if_neg (by simp), FMPS.random_one_site ang rnd false x (by simpa using hD), err_bind]
  · rw [if_pos rfl, FMPS.random_one_site ang rnd false x (by simpa using hD), err_bind]

/-! ### the hypotheses are met -/

example := random_pure ang rnd x (L := 3) (d := 2) (D := 1) (by norm_num) (by norm_num) (fun _ => rfl)
example := random_pure ang rnd x (L := 3) (d := 3) (D := 2) (by norm_num) (by norm_num) (by norm_num)
example := random_pure_wrong ang rnd x (L := 3) (d := 3) (by norm_num) (by norm_num)
example := random_mixed ang rnd x (L := 3) (d := 2) (D := 2) (by norm_num) (by norm_num)
example := random_mixed_one ang rnd x (L := 3) (d := 2) (by norm_num)
example := random_one_site ang rnd x (d := 2) (D := 2) (by norm_num)

end Xmps.TFD
