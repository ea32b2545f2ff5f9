import Verif.Lemmas.FmpsBasic

/-! # Lemmas about `add`, scalar multiples, product states and `apply` -/

namespace Xmps

open Finset Xmps.Spec Xmps.Ncon

variable {K : Type}

theorem Holds.psi_amp [CommSemiring K] {x : FMPS K} {ds s : List ℕ} (h : x.Holds ds) (hs : InB ds s) :
    psi x.data s = amp x.data s 0 0 := psi_eq_amp h.chain h.data_ne hs.length_eq

section add
variable [CommSemiring K]

theorem concat2_ok {A B : ND K} {d l r r' : ℕ} (hA : A.shape = [d, l, r]) (hB : B.shape = [d, l, r']) :
    ∃ R, A.concat B 2 = .ok R ∧ R.shape = [d, l, r + r'] ∧
      (∀ s a c, c < r → R.val [s, a, c] = A.val [s, a, c]) ∧
      ∀ s a c, R.val [s, a, r + c] = B.val [s, a, c] := by
  refine ⟨A.concatR B 2, by simp [ND.concat, ND.rank, hA, hB], by simp [ND.concatR, ND.dim, hA, hB], ?_, ?_⟩
  · intro s a c hc
    simp [ND.concatR, ND.dim, hA, hc]
  · intro s a c
    simp [ND.concatR, ND.dim, hA]

theorem concat1_ok {A B : ND K} {d l l' r : ℕ} (hA : A.shape = [d, l, r]) (hB : B.shape = [d, l', r]) :
    ∃ R, A.concat B 1 = .ok R ∧ R.shape = [d, l + l', r] ∧
      (∀ s a c, a < l → R.val [s, a, c] = A.val [s, a, c]) ∧
      ∀ s a c, R.val [s, l + a, c] = B.val [s, a, c] := by
  refine ⟨A.concatR B 1, by simp [ND.concat, ND.rank, hA, hB], by simp [ND.concatR, ND.dim, hA, hB], ?_, ?_⟩
  · intro s a c hc
    simp [ND.concatR, ND.dim, hA, hc]
  · intro s a c
    simp [ND.concatR, ND.dim, hA]

theorem blockDiag_ok {A B : ND K} {d l l' r r' : ℕ} (hA : A.shape = [d, l, r]) (hB : B.shape = [d, l', r']) :
    ∃ R, FMPS.blockDiag A B = .ok R ∧ R.shape = [d, l + l', r + r'] ∧
      (∀ s a c, a < l → c < r → R.val [s, a, c] = A.val [s, a, c]) ∧
      (∀ s a c, a < l → R.val [s, a, r + c] = 0) ∧
      (∀ s a c, c < r → R.val [s, l + a, c] = 0) ∧
      ∀ s a c, R.val [s, l + a, r + c] = B.val [s, a, c] := by
  refine ⟨_, by simp [FMPS.blockDiag, hA, hB]; rfl, rfl, ?_, ?_, ?_, ?_⟩
  · intro s a c h1 h2; simp [h1, h2]
  · intro s a c h1; simp [h1]
  · intro s a c h1; simp [h1]
  · intro s a c; simp

/-- The part of the loop after the first site: column of the two chains. -/
theorem addSites_tail : ∀ {ds : List ℕ} {As Bs : List (ND K)} {l l' : ℕ}, ds ≠ [] →
    MpsChain ds As l 1 → MpsChain ds Bs l' 1 →
    ∃ Cs, FMPS.addSites false As Bs = .ok Cs ∧ MpsChain ds Cs (l + l') 1 ∧
      ∀ ss, InB ds ss → (∀ a < l, amp Cs ss a 0 = amp As ss a 0) ∧
        ∀ a < l', amp Cs ss (l + a) 0 = amp Bs ss a 0
  | [d], [A], [B], l, l', _, h, h' => by
    obtain ⟨m, hA, hm⟩ := h
    obtain ⟨m', hB, hm'⟩ := h'
    have e1 : m = 1 := hm
    have e2 : m' = 1 := hm'
    subst e1 e2
    obtain ⟨R, hR, hs, hv1, hv2⟩ := concat1_ok hA hB
    refine ⟨[R], ?_, ⟨1, hs, rfl⟩, ?_⟩
    · simp only [FMPS.addSites, Bool.false_eq_true, if_false, List.isEmpty_nil, if_true, hR, ok_bind]
    · intro ss hss
      obtain ⟨s, rfl⟩ : ∃ s, ss = [s] := by
        match ss, hss with
        | [s], _ => exact ⟨s, rfl⟩
      refine ⟨fun a ha => ?_, fun a ha => ?_⟩
      · rw [amp_single _ _ _ _ (by rw [dim2 hs]; omega), amp_single _ _ _ _ (by rw [dim2 hA]; omega), hv1 s a 0 ha]
      · rw [amp_single _ _ _ _ (by rw [dim2 hs]; omega), amp_single _ _ _ _ (by rw [dim2 hB]; omega), hv2 s a 0]
  | d :: d' :: ds, A :: A' :: As, B :: B' :: Bs, l, l', _, h, h' => by
    obtain ⟨m, hA, h⟩ := h
    obtain ⟨m', hB, h'⟩ := h'
    obtain ⟨R, hR, hs, hv1, hv2, hv3, hv4⟩ := blockDiag_ok hA hB
    obtain ⟨Cs, hCs, hch, hv⟩ := addSites_tail (by simp) h h'
    refine ⟨R :: Cs, ?_, ⟨m + m', hs, hch⟩, ?_⟩
    · rw [FMPS.addSites]
      simp only [Bool.false_eq_true, if_false, List.isEmpty_cons, hR, ok_bind, hCs]
    · intro ss hss
      match ss, hss with
      | s :: ss, hss =>
        obtain ⟨w1, w2⟩ := hv ss hss.2
        refine ⟨fun a ha => ?_, fun a ha => ?_⟩
        · rw [amp_cons, amp_cons, dim2 hs, dim2 hA, Finset.sum_range_add]
          have z : ∑ c ∈ range m', R.val [s, a, m + c] * amp Cs ss (m + c) 0 = 0 :=
            Finset.sum_eq_zero fun c _ => by rw [hv2 s a c ha, zero_mul]
          rw [z, add_zero]
          refine Finset.sum_congr rfl fun c hc => ?_
          have hc := Finset.mem_range.1 hc
          rw [hv1 s a c ha hc, w1 c hc]
        · rw [amp_cons, amp_cons, dim2 hs, dim2 hB, Finset.sum_range_add]
          have z : ∑ c ∈ range m, R.val [s, l + a, c] * amp Cs ss c 0 = 0 :=
            Finset.sum_eq_zero fun c hc => by rw [hv3 s a c (Finset.mem_range.1 hc), zero_mul]
          rw [z, zero_add]
          refine Finset.sum_congr rfl fun c hc => ?_
          have hc := Finset.mem_range.1 hc
          rw [hv4 s a c, w2 c hc]
  | [], _, _, _, _, h, _, _ => absurd rfl h
  | [_], [], _, _, _, _, h, _ => by simp at h
  | [_], [_], [], _, _, _, _, h => by simp at h
  | _ :: _ :: _, [], _, _, _, _, h, _ => by simp at h
  | _ :: _ :: _, _ :: _ :: _, [], _, _, _, _, h => by simp at h
  | [_], _ :: _ :: _, _, _, _, _, h, _ => by obtain ⟨_, _, h⟩ := h; simp at h
  | [_], _, _ :: _ :: _, _, _, _, _, h => by obtain ⟨_, _, h⟩ := h; simp at h
  | _ :: _ :: _, [_], _, _, _, _, h, _ => by obtain ⟨_, _, h⟩ := h; simp at h
  | _ :: _ :: _, _, [_], _, _, _, _, h => by obtain ⟨_, _, h⟩ := h; simp at h

end add

theorem amp_smul_head [CommSemiring K] (c : K) (A : ND K) (As : List (ND K)) (s : ℕ) (ss : List ℕ) (a b : ℕ) :
    amp (A.smul c :: As) (s :: ss) a b = c * amp (A :: As) (s :: ss) a b := by
  rw [amp_cons, amp_cons, Finset.mul_sum]
  refine Finset.sum_congr rfl fun e _ => ?_
  rw [ND.val_smul, mul_assoc]

theorem chain_smul_all [Mul K] (c : K) : ∀ {ds : List ℕ} {As : List (ND K)} {l r : ℕ}, MpsChain ds As l r →
    MpsChain ds (As.map (ND.smul c)) l r
  | [], [], _, _, h => h
  | _ :: _, _ :: _, _, _, h => by
    obtain ⟨m, hA, h⟩ := h
    exact ⟨m, hA, chain_smul_all c h⟩
  | [], _ :: _, _, _, h => by simp at h
  | _ :: _, [], _, _, h => by simp at h

theorem amp_smul_all [CommSemiring K] (c : K) : ∀ (As : List (ND K)) (ss : List ℕ) (a b : ℕ),
    As.length = ss.length → amp (As.map (ND.smul c)) ss a b = c ^ As.length * amp As ss a b
  | [], [], a, b, _ => by simp
  | A :: As, s :: ss, a, b, h => by
    rw [List.map_cons, amp_smul_head, amp_cons, amp_cons, Finset.mul_sum, Finset.mul_sum]
    refine Finset.sum_congr rfl fun e _ => ?_
    rw [amp_smul_all c As ss e b (by simpa using h), List.length_cons, pow_succ]
    ring
  | [], _ :: _, _, _, h => by simp at h
  | _ :: _, [], _, _, h => by simp at h

theorem chain_columns [CommSemiring K] : ∀ (vs : List (List K)),
    MpsChain (vs.map List.length) (vs.map fun v => FMPS.column v) 1 1
  | [] => rfl
  | v :: vs => ⟨1, rfl, chain_columns vs⟩

theorem amp_columns [CommSemiring K] : ∀ (vs : List (List K)) (ss : List ℕ), vs.length = ss.length →
    amp (vs.map fun v => FMPS.column v) ss 0 0 = Spec.prodAmp vs ss
  | [], [], _ => by simp [Spec.prodAmp]
  | v :: vs, s :: ss, h => by
    have e : (FMPS.column v).dim 2 = 1 := rfl
    rw [List.map_cons, amp_cons, e, Finset.sum_range_one, amp_columns vs ss (by simpa using h)]
    rfl
  | [], _ :: _, h => by simp at h
  | _ :: _, [], h => by simp at h

section apply
variable [CommSemiring K]

theorem applyOp_ok {op A : ND K} {d' d l r : ℕ} (ho : op.shape = [d', d]) (hA : A.shape = [d, l, r]) :
    ∃ R, op.tensordot A [1] [0] = .ok R ∧ R.shape = [d', l, r] ∧
      ∀ s a b, R.val [s, a, b] = ∑ t ∈ range d, op.val [s, t] * A.val [t, a, b] := by
  refine ⟨_, by simp [ND.tensordot, ND.rank, ND.dim, hA, ho]; rfl, ?_, fun s a b => ?_⟩
  · simp [ND.tensordotR, ND.rank, ND.others, ND.dim, hA, ho, List.range_succ]
  · simp [ND.tensordotR, ND.transposeR, ND.rank, ND.others, ND.dim, hA, ho, List.range_succ]

theorem InB_set {ds s : List ℕ} {i d' t : ℕ} (h : InB (ds.set i d') s) {d : ℕ} (ht : t < d) : InB (ds.set i d) (s.set i t) := by
  induction ds generalizing s i with
  | nil => cases s with
    | nil => simp
    | cons a s => simp at h
  | cons e ds ih =>
    cases s with
    | nil => cases i <;> simp at h
    | cons a s =>
      cases i with
      | zero => exact ⟨ht, h.2⟩
      | succ i => exact ⟨h.1, ih h.2⟩

end apply

end Xmps
