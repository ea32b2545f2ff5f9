import Verif.Spec.MpoEff
import Verif.Lemmas.Envs

/-!
# Environments of an expectation value with a matrix product operator
-/

namespace Xmps.ProjMpo

open Finset Xmps.Spec

/-- left environment: operator bond, bra, ket -/
noncomputable def opLeft (ds : List ℕ) (As Ws : List (ND ℂ)) (l a' a : ℕ) : ℂ :=
  sumIdx ds fun s => sumIdx ds fun t => star (amp As s 0 a') * opAmp Ws s t 0 l * amp As t 0 a

/-- right environment: operator bond, bra, ket -/
noncomputable def opRight (ds : List ℕ) (As Ws : List (ND ℂ)) (l b' b : ℕ) : ℂ :=
  sumIdx ds fun s => sumIdx ds fun t => star (amp As s b' 0) * opAmp Ws s t l 0 * amp As t b 0

theorem opChain_append : ∀ {ds : List ℕ} {Ws : List (ND ℂ)} {ds' : List ℕ} {Ws' : List (ND ℂ)} {l r : ℕ}, Ws.length = ds.length →
    (OpChain (ds ++ ds') (Ws ++ Ws') l r ↔ ∃ m, OpChain ds Ws l m ∧ OpChain ds' Ws' m r)
  | [], [], ds', Ws', l, r, _ => by simp [OpChain]
  | d :: ds, W :: Ws, ds', Ws', l, r, h => by
    simp only [List.cons_append, OpChain]
    constructor
    · rintro ⟨m, hW, hc⟩
      obtain ⟨n, h1, h2⟩ := (opChain_append (by simpa using h)).1 hc
      exact ⟨n, ⟨m, hW, h1⟩, h2⟩
    · rintro ⟨n, ⟨m, hW, h1⟩, h2⟩
      exact ⟨m, hW, (opChain_append (by simpa using h)).2 ⟨n, h1, h2⟩⟩
  | [], _ :: _, _, _, _, _, h => by simp at h
  | _ :: _, [], _, _, _, _, h => by simp at h

theorem opChain_length : ∀ {ds : List ℕ} {Ws : List (ND ℂ)} {l r : ℕ}, OpChain ds Ws l r → Ws.length = ds.length
  | [], [], _, _, _ => rfl
  | _ :: _, _ :: _, _, _, ⟨_, _, h⟩ => by simp [opChain_length h]
  | [], _ :: _, _, _, h => h.elim
  | _ :: _, [], _, _, h => h.elim

theorem opAmp_append : ∀ {ds : List ℕ} {Ws Ws' : List (ND ℂ)} {ss ss' ts ts' : List ℕ} {l m : ℕ}, OpChain ds Ws l m →
    ss.length = ds.length → ts.length = ds.length → ∀ (a b : ℕ), a < l →
    opAmp (Ws ++ Ws') (ss ++ ss') (ts ++ ts') a b = ∑ c ∈ range m, opAmp Ws ss ts a c * opAmp Ws' ss' ts' c b
  | [], [], Ws', [], ss', [], ts', l, m, h, _, _, a, b, ha => by
    have : l = m := h
    subst this
    simp only [List.nil_append, opAmp, ite_mul, one_mul, zero_mul]
    rw [Finset.sum_ite_eq]
    simp [ha]
  | d :: ds, W :: Ws, Ws', s :: ss, ss', t :: ts, ts', l, m, h, hl, hl', a, b, ha => by
    obtain ⟨n, hW, h⟩ := h
    have hd : W.dim 3 = n := by simp [ND.dim, hW]
    simp only [List.cons_append, opAmp, hd]
    have : ∀ c ∈ range n, W.val [s, t, a, c] * opAmp (Ws ++ Ws') (ss ++ ss') (ts ++ ts') c b =
        ∑ e ∈ range m, W.val [s, t, a, c] * (opAmp Ws ss ts c e * opAmp Ws' ss' ts' e b) := by
      intro c hc
      rw [opAmp_append h (by simpa using hl) (by simpa using hl') c b (by simpa using hc), Finset.mul_sum]
    rw [Finset.sum_congr rfl this, Finset.sum_comm]
    refine Finset.sum_congr rfl fun e _ => ?_
    rw [Finset.sum_mul]
    exact Finset.sum_congr rfl fun c _ => by ring
  | [], _ :: _, _, _, _, _, _, _, _, h, _, _, _, _, _ => h.elim
  | _ :: _, [], _, _, _, _, _, _, _, h, _, _, _, _, _ => h.elim
  | _ :: _, _ :: _, _, [], _, _, _, _, _, _, h, _, _, _, _ => by simp at h
  | _ :: _, _ :: _, _, _ :: _, _, [], _, _, _, _, _, h, _, _, _ => by simp at h
  | [], [], _, _ :: _, _, _, _, _, _, _, h, _, _, _, _ => by simp at h
  | [], [], _, [], _, _ :: _, _, _, _, _, _, h, _, _, _ => by simp at h

theorem opAmp_single {W : ND ℂ} {s t a b : ℕ} (hb : b < W.dim 3) : opAmp [W] [s] [t] a b = W.val [s, t, a, b] := by
  simp only [opAmp, mul_ite, mul_one, mul_zero]
  rw [Finset.sum_ite_eq' (range (W.dim 3)) b]
  simp [hb]

theorem sum_three {m n p : ℕ} (f g h : ℕ → ℂ) : (∑ a ∈ range m, f a) * (∑ l ∈ range n, g l) * (∑ c ∈ range p, h c) =
    ∑ l ∈ range n, ∑ a ∈ range m, ∑ c ∈ range p, f a * g l * h c := by
  rw [Finset.sum_mul_sum, Finset.sum_mul, Finset.sum_comm]
  simp only [Finset.sum_mul, Finset.mul_sum]
  exact Finset.sum_congr rfl fun a _ => Finset.sum_comm

theorem opLeft_snoc {ds : List ℕ} {As Ws : List (ND ℂ)} {A W : ND ℂ} {d m n w w' : ℕ} (h : MpsChain ds As 1 m) (hW : OpChain ds Ws 1 w)
    (hA : A.shape = [d, m, n]) (hw : W.shape = [d, d, w, w']) (l b' b : ℕ) (hl : l < w') (hb' : b' < n) (hb : b < n) :
    opLeft (ds ++ [d]) (As ++ [A]) (Ws ++ [W]) l b' b = ∑ s ∈ range d, ∑ t ∈ range d, ∑ k ∈ range w, ∑ a' ∈ range m, ∑ a ∈ range m,
      star (A.val [s, a', b']) * W.val [s, t, k, l] * opLeft ds As Ws k a' a * A.val [t, a, b] := by
  unfold opLeft
  rw [sumIdx_append]
  calc _ = sumIdx ds fun s1 => ∑ s ∈ range d, sumIdx ds fun t1 => ∑ t ∈ range d, ∑ k ∈ range w, ∑ a' ∈ range m, ∑ a ∈ range m,
        star (A.val [s, a', b']) * W.val [s, t, k, l] * (star (amp As s1 0 a') * opAmp Ws s1 t1 0 k * amp As t1 0 a) * A.val [t, a, b] := by
        refine sumIdx_congr fun s1 h1 => ?_
        simp only [sumIdx_cons, sumIdx_nil]
        refine Finset.sum_congr rfl fun s _ => ?_
        rw [sumIdx_append]
        refine sumIdx_congr fun t1 h2 => ?_
        simp only [sumIdx_cons, sumIdx_nil]
        refine Finset.sum_congr rfl fun t _ => ?_
        rw [amp_append h h1.length_eq 0 b' (by omega), amp_append h h2.length_eq 0 b (by omega),
          opAmp_append hW h1.length_eq h2.length_eq 0 l (by omega), star_sum, sum_three]
        refine Finset.sum_congr rfl fun k _ => Finset.sum_congr rfl fun a' _ => Finset.sum_congr rfl fun a _ => ?_
        rw [amp_single _ _ _ _ (by rw [dim2 hA]; assumption), amp_single _ _ _ _ (by rw [dim2 hA]; assumption),
          opAmp_single (by simpa [ND.dim, hw] using hl), star_mul']
        ring
    _ = _ := by
        simp only [sumIdx_finset_sum, ← sumIdx_mul_left, ← sumIdx_mul_right]

theorem opRight_cons {ds : List ℕ} {As Ws : List (ND ℂ)} {A W : ND ℂ} {d m n w w' : ℕ} (hA : A.shape = [d, m, n]) (hw : W.shape = [d, d, w, w'])
    (l a' a : ℕ) :
    opRight (d :: ds) (A :: As) (W :: Ws) l a' a = ∑ s ∈ range d, ∑ t ∈ range d, ∑ k ∈ range w', ∑ b' ∈ range n, ∑ b ∈ range n,
      star (A.val [s, a', b']) * W.val [s, t, l, k] * opRight ds As Ws k b' b * A.val [t, a, b] := by
  have hd : W.dim 3 = w' := by simp [ND.dim, hw]
  unfold opRight
  calc _ = ∑ s ∈ range d, sumIdx ds fun s1 => ∑ t ∈ range d, sumIdx ds fun t1 => ∑ k ∈ range w', ∑ b' ∈ range n, ∑ b ∈ range n,
        star (A.val [s, a', b']) * W.val [s, t, l, k] * (star (amp As s1 b' 0) * opAmp Ws s1 t1 k 0 * amp As t1 b 0) * A.val [t, a, b] := by
        rw [sumIdx_cons]
        refine Finset.sum_congr rfl fun s _ => sumIdx_congr fun s1 h1 => ?_
        rw [sumIdx_cons]
        refine Finset.sum_congr rfl fun t _ => sumIdx_congr fun t1 h2 => ?_
        rw [amp_cons, amp_cons, opAmp, dim2 hA, hd, star_sum, sum_three]
        refine Finset.sum_congr rfl fun k _ => Finset.sum_congr rfl fun b' _ => Finset.sum_congr rfl fun b _ => ?_
        rw [star_mul']
        ring
    _ = _ := by
        simp only [sumIdx_finset_sum, ← sumIdx_mul_left, ← sumIdx_mul_right]

/-- the effective Hamiltonian from the environments -/
theorem effElem_eq {ds1 ds2 : List ℕ} {As1 As2 Ws1 Ws2 : List (ND ℂ)} {W : ND ℂ} {d w w' : ℕ} (h1 : OpChain ds1 Ws1 1 w)
    (hw : W.shape = [d, d, w, w']) (i' a' b' i a b : ℕ) :
    effElem ds1 ds2 As1 As2 (Ws1 ++ W :: Ws2) i' a' b' i a b =
      ∑ k ∈ range w, ∑ l ∈ range w', opLeft ds1 As1 Ws1 k a' a * W.val [i', i, k, l] * opRight ds2 As2 Ws2 l b' b := by
  have hd : W.dim 3 = w' := by simp [ND.dim, hw]
  unfold effElem opLeft opRight
  calc _ = sumIdx ds1 fun s1 => sumIdx ds1 fun t1 => sumIdx ds2 fun s2 => sumIdx ds2 fun t2 => ∑ k ∈ range w, ∑ l ∈ range w',
        (star (amp As1 s1 0 a') * opAmp Ws1 s1 t1 0 k * amp As1 t1 0 a) * W.val [i', i, k, l] *
          (star (amp As2 s2 b' 0) * opAmp Ws2 s2 t2 l 0 * amp As2 t2 b 0) := by
        refine sumIdx_congr fun s1 e1 => sumIdx_congr fun t1 e2 => sumIdx_congr fun s2 _ => sumIdx_congr fun t2 _ => ?_
        rw [opAmp_append h1 e1.length_eq e2.length_eq 0 0 (by omega), Finset.mul_sum, Finset.sum_mul]
        refine Finset.sum_congr rfl fun k _ => ?_
        rw [opAmp, hd, Finset.mul_sum, Finset.mul_sum, Finset.sum_mul]
        refine Finset.sum_congr rfl fun l _ => ?_
        rw [star_mul']
        ring
    _ = _ := by
        simp only [sumIdx_finset_sum, sumIdx_mul_left, sumIdx_mul_right]

end Xmps.ProjMpo
