import Verif.Spec.Mps
import Verif.Base.NpMore

/-! # Chains: the recursive amplitude -/

namespace Xmps

open Finset Xmps.Spec

variable {K : Type}

@[simp] theorem mpsChain_nil {l r : ℕ} : MpsChain [] ([] : List (ND K)) l r ↔ l = r := Iff.rfl
@[simp] theorem mpsChain_cons {d : ℕ} {ds : List ℕ} {A : ND K} {As : List (ND K)} {l r : ℕ} :
    MpsChain (d :: ds) (A :: As) l r ↔ ∃ m, A.shape = [d, l, m] ∧ MpsChain ds As m r := Iff.rfl
@[simp] theorem mpsChain_nil_cons {A : ND K} {As : List (ND K)} {l r : ℕ} : ¬ MpsChain [] (A :: As) l r := by
  simp [MpsChain]
@[simp] theorem mpsChain_cons_nil {d : ℕ} {ds : List ℕ} {l r : ℕ} :
    ¬ MpsChain (d :: ds) ([] : List (ND K)) l r := by
  simp [MpsChain]

theorem Spec.MpsChain.length_eq : ∀ {ds : List ℕ} {As : List (ND K)} {l r : ℕ}, MpsChain ds As l r →
    As.length = ds.length
  | [], [], _, _, _ => rfl
  | _ :: _, _ :: _, _, _, h => by
    obtain ⟨m, _, h⟩ := h
    simp [h.length_eq]
  | [], _ :: _, _, _, h => by simp at h
  | _ :: _, [], _, _, h => by simp at h

theorem mpsChain_append : ∀ {ds : List ℕ} {As : List (ND K)} {ds' : List ℕ} {As' : List (ND K)} {l r : ℕ},
    As.length = ds.length →
    (MpsChain (ds ++ ds') (As ++ As') l r ↔ ∃ m, MpsChain ds As l m ∧ MpsChain ds' As' m r)
  | [], [], ds', As', l, r, _ => by simp
  | d :: ds, A :: As, ds', As', l, r, h => by
    simp only [List.cons_append, mpsChain_cons]
    have ih := fun m => mpsChain_append (ds := ds) (As := As) (ds' := ds') (As' := As') (l := m) (r := r) (by simpa using h)
    simp only [ih]
    constructor
    · rintro ⟨m, h1, n, h2, h3⟩
      exact ⟨n, ⟨m, h1, h2⟩, h3⟩
    · rintro ⟨n, ⟨m, h1, h2⟩, h3⟩
      exact ⟨m, h1, n, h2, h3⟩
  | [], _ :: _, _, _, _, _, h => by simp at h
  | _ :: _, [], _, _, _, _, h => by simp at h

theorem dim0 {A : ND K} {a b c : ℕ} (h : A.shape = [a, b, c]) : A.dim 0 = a := by simp [ND.dim, h]
theorem dim1 {A : ND K} {a b c : ℕ} (h : A.shape = [a, b, c]) : A.dim 1 = b := by simp [ND.dim, h]
theorem dim2 {A : ND K} {a b c : ℕ} (h : A.shape = [a, b, c]) : A.dim 2 = c := by simp [ND.dim, h]

/-- Partial amplitude between left bond value `a` and right bond value `b`. -/
def amp [CommSemiring K] : List (ND K) → List ℕ → ℕ → ℕ → K
  | [], [], a, b => if a = b then 1 else 0
  | A :: As, s :: ss, a, b => ∑ c ∈ range (A.dim 2), A.val [s, a, c] * amp As ss c b
  | _, _, _, _ => 0

section
variable [CommSemiring K]

@[simp] theorem amp_nil (a b : ℕ) : amp ([] : List (ND K)) [] a b = if a = b then 1 else 0 := rfl
@[simp] theorem amp_cons (A : ND K) (As : List (ND K)) (s : ℕ) (ss : List ℕ) (a b : ℕ) :
    amp (A :: As) (s :: ss) a b = ∑ c ∈ range (A.dim 2), A.val [s, a, c] * amp As ss c b := rfl

theorem amp_single (A : ND K) (s a b : ℕ) (hb : b < A.dim 2) : amp [A] [s] a b = A.val [s, a, b] := by
  simp only [amp_cons, amp_nil, mul_ite, mul_one, mul_zero]
  rw [Finset.sum_ite_eq' (range (A.dim 2)) b]
  simp [hb]

/-- Cutting a chain. -/
theorem amp_append : ∀ {ds : List ℕ} {As As' : List (ND K)} {ss ss' : List ℕ} {l m : ℕ},
    MpsChain ds As l m → ss.length = ds.length → ∀ (a b : ℕ), a < l →
    amp (As ++ As') (ss ++ ss') a b = ∑ c ∈ range m, amp As ss a c * amp As' ss' c b
  | [], [], As', [], ss', l, m, h, _, a, b, ha => by
    have : l = m := h
    subst this
    simp only [List.nil_append, amp_nil, ite_mul, one_mul, zero_mul]
    rw [Finset.sum_ite_eq]
    simp [ha]
  | d :: ds, A :: As, As', s :: ss, ss', l, m, h, hl, a, b, ha => by
    obtain ⟨n, hA, h⟩ := h
    have hd : A.dim 2 = n := by simp [ND.dim, hA]
    simp only [List.cons_append, amp_cons, hd]
    have : ∀ c ∈ range n, A.val [s, a, c] * amp (As ++ As') (ss ++ ss') c b =
        ∑ e ∈ range m, A.val [s, a, c] * (amp As ss c e * amp As' ss' e b) := by
      intro c hc
      rw [amp_append h (by simpa using hl) c b (by simpa using hc), Finset.mul_sum]
    rw [Finset.sum_congr rfl this, Finset.sum_comm]
    refine Finset.sum_congr rfl fun e _ => ?_
    rw [Finset.sum_mul]
    exact Finset.sum_congr rfl fun c _ => by ring
  | [], _ :: _, _, _, _, _, _, h, _, _, _, _ => by simp at h
  | _ :: _, [], _, _, _, _, _, h, _, _, _, _ => by simp at h
  | _ :: _, _ :: _, _, [], _, _, _, _, h, _, _, _ => by simp at h
  | [], [], _, _ :: _, _, _, _, _, h, _, _, _ => by simp at h

/-- The recursive and the flat amplitude agree. -/
theorem amp_eq_flat : ∀ {ds : List ℕ} {As : List (ND K)} {ss : List ℕ} {l : ℕ},
    MpsChain ds As l 1 → As ≠ [] → ss.length = ds.length → ∀ a,
    amp As ss a 0 = sumIdx ((As.map (·.dim 2)).dropLast) fun bs => pathProd As ss (a :: bs ++ [0])
  | [d], [A], [s], l, h, _, _, a => by
    obtain ⟨m, hA, h⟩ := h
    have : m = 1 := h
    subst this
    rw [amp_single _ _ _ _ (by simp [ND.dim, hA])]
    simp [pathProd]
  | d :: d' :: ds, A :: A' :: As, s :: s' :: ss, l, h, _, hl, a => by
    obtain ⟨m, hA, h⟩ := h
    have hd : A.dim 2 = m := by simp [ND.dim, hA]
    have ih := amp_eq_flat h (by simp) (ss := s' :: ss) (by simpa using hl)
    rw [amp_cons]
    simp only [List.map_cons, List.dropLast_cons_cons, sumIdx_cons]
    refine Finset.sum_congr rfl fun c _ => ?_
    rw [ih c, ← sumIdx_mul_left]
    simp only [List.map_cons]
    refine sumIdx_congr fun idx _ => ?_
    simp [pathProd]
  | [], _, _, _, h, hne, _, _ => by
    match h, hne with
    | h, hne => cases ‹List (ND K)› with
      | nil => exact absurd rfl hne
      | cons _ _ => simp at h
  | _ :: _, [], _, _, _, hne, _, _ => absurd rfl hne
  | _ :: _, _ :: _, [], _, _, _, h, _ => by simp at h
  | [_], _ :: _ :: _, _, _, h, _, _, _ => by obtain ⟨_, _, h⟩ := h; simp at h
  | _ :: _ :: _, [_], _, _, h, _, _, _ => by obtain ⟨_, _, h⟩ := h; simp at h
  | [_], [_], _ :: _ :: _, _, _, _, h, _ => by simp at h
  | _ :: _ :: _, _ :: _ :: _, [_], _, _, _, h, _ => by simp at h

theorem psi_eq_amp {ds : List ℕ} {As : List (ND K)} {ss : List ℕ} {l : ℕ} (h : MpsChain ds As l 1)
    (hne : As ≠ []) (hl : ss.length = ds.length) : psi As ss = amp As ss 0 0 :=
  (amp_eq_flat h hne hl 0).symm

end

end Xmps

namespace Xmps

open Finset Xmps.Spec

variable {K : Type}

/-- Cutting a chain at a site. -/
theorem chain_at : ∀ {ds : List ℕ} {As : List (ND K)} {l r i : ℕ}, MpsChain ds As l r → i < ds.length →
    ∃ ds1 d ds2 As1 A As2 m n, ds = ds1 ++ d :: ds2 ∧ As = As1 ++ A :: As2 ∧ ds1.length = i ∧
      As1.length = i ∧ MpsChain ds1 As1 l m ∧ A.shape = [d, m, n] ∧ MpsChain ds2 As2 n r
  | d :: ds, A :: As, l, r, 0, h, _ => by
    obtain ⟨n, hA, h⟩ := h
    exact ⟨[], d, ds, [], A, As, l, n, rfl, rfl, rfl, rfl, rfl, hA, h⟩
  | d :: ds, A :: As, l, r, i + 1, h, hi => by
    obtain ⟨n, hA, h⟩ := h
    obtain ⟨ds1, d', ds2, As1, A', As2, m, n', e1, e2, e3, e4, h1, h2, h3⟩ :=
      chain_at (i := i) h (by simpa using hi)
    exact ⟨d :: ds1, d', ds2, A :: As1, A', As2, m, n', by simp [e1], by simp [e2], by simp [e3], by simp [e4],
      ⟨n, hA, h1⟩, h2, h3⟩
  | [], _, _, _, _, _, h => by simp at h
  | _ :: _, [], _, _, _, h, _ => by simp at h

theorem InB.split : ∀ {ds1 ds2 s : List ℕ} {d : ℕ}, InB (ds1 ++ d :: ds2) s →
    ∃ s1 t s2, s = s1 ++ t :: s2 ∧ InB ds1 s1 ∧ t < d ∧ InB ds2 s2
  | [], ds2, t :: s2, d, h => ⟨[], t, s2, rfl, trivial, h.1, h.2⟩
  | e :: ds1, ds2, a :: s, d, h => by
    obtain ⟨s1, t, s2, e1, h1, h2, h3⟩ := InB.split (ds1 := ds1) h.2
    exact ⟨a :: s1, t, s2, by simp [e1], ⟨h.1, h1⟩, h2, h3⟩
  | [], _, [], _, h => by simp at h
  | _ :: _, _, [], _, h => by simp at h

theorem InB.split2 : ∀ {ds1 ds2 s : List ℕ}, InB (ds1 ++ ds2) s →
    ∃ s1 s2, s = s1 ++ s2 ∧ InB ds1 s1 ∧ InB ds2 s2
  | [], ds2, s, h => ⟨[], s, rfl, trivial, h⟩
  | e :: ds1, ds2, a :: s, h => by
    obtain ⟨s1, s2, e1, h1, h2⟩ := InB.split2 (ds1 := ds1) h.2
    exact ⟨a :: s1, s2, by simp [e1], ⟨h.1, h1⟩, h2⟩
  | _ :: _, _, [], h => by simp at h

variable [CommSemiring K]

/-- The amplitude as a sum over the two bonds of a site. -/
theorem amp_mid {ds1 : List ℕ} {As1 As2 : List (ND K)} {A : ND K} {s1 s2 : List ℕ} {l m n d : ℕ}
    (h1 : MpsChain ds1 As1 l m) (hl : s1.length = ds1.length) (hA : A.shape = [d, m, n]) (t a b : ℕ) (ha : a < l) :
    amp (As1 ++ A :: As2) (s1 ++ t :: s2) a b =
      ∑ c ∈ range m, ∑ e ∈ range n, amp As1 s1 a c * (A.val [t, c, e] * amp As2 s2 e b) := by
  rw [amp_append h1 hl a b ha]
  refine Finset.sum_congr rfl fun c _ => ?_
  rw [amp_cons, dim2 hA, Finset.mul_sum]

/-- Amplitudes only depend on the in-bounds entries. -/
theorem amp_congr : ∀ {ds : List ℕ} {As Bs : List (ND K)} {l r : ℕ} {ss : List ℕ}, MpsChain ds As l r →
    List.Forall₂ (· ≈ ·) As Bs → InB ds ss → ∀ a b, a < l → amp As ss a b = amp Bs ss a b
  | [], [], [], _, _, [], _, _, _, _, _, _ => rfl
  | d :: ds, A :: As, B :: Bs, l, r, s :: ss, h, hf, hb, a, b, ha => by
    obtain ⟨m, hA, h⟩ := h
    obtain ⟨hAB, hf⟩ := List.forall₂_cons.1 hf
    have hB : B.shape = [d, l, m] := hAB.1 ▸ hA
    rw [amp_cons, amp_cons, dim2 hA, dim2 hB]
    refine Finset.sum_congr rfl fun c hc => ?_
    rw [amp_congr h hf hb.2 c b (by simpa using hc), hAB.2 [s, a, c]]
    rw [hA]
    exact ⟨hb.1, ha, by simpa using hc, trivial⟩
  | [], _ :: _, _, _, _, _, h, _, _, _, _, _ => by simp at h
  | _ :: _, [], _, _, _, _, h, _, _, _, _, _ => by simp at h
  | _ :: _, _ :: _, [], _, _, _, _, h, _, _, _, _ => by simp at h
  | [], [], _ :: _, _, _, _, _, h, _, _, _, _ => by simp at h
  | _ :: _, _ :: _, _ :: _, _, _, [], _, _, h, _, _, _ => by simp at h
  | [], [], [], _, _, _ :: _, _, _, h, _, _, _ => by simp at h

omit [CommSemiring K] in
theorem chain_congr : ∀ {ds : List ℕ} {As Bs : List (ND K)} {l r : ℕ}, MpsChain ds As l r →
    List.Forall₂ (· ≈ ·) As Bs → MpsChain ds Bs l r
  | [], [], [], _, _, h, _ => h
  | d :: ds, A :: As, B :: Bs, l, r, h, hf => by
    obtain ⟨m, hA, h⟩ := h
    obtain ⟨hAB, hf⟩ := List.forall₂_cons.1 hf
    exact ⟨m, hAB.1 ▸ hA, chain_congr h hf⟩
  | [], _ :: _, _, _, _, h, _ => by simp at h
  | _ :: _, [], _, _, _, h, _ => by simp at h
  | _ :: _, _ :: _, [], _, _, _, h => by simp at h
  | [], [], _ :: _, _, _, _, h => by simp at h

end Xmps
