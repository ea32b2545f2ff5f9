import Verif.Lemmas.CanonFull

/-! # The mirror image of a chain: sites in reverse order, every tensor replaced by its `hc` -/

namespace Xmps

open Finset Xmps.Spec

/-- reversed list of the conjugate transposed tensors -/
def mirror (As : List (ND ℂ)) : List (ND ℂ) := (As.map ND.hc).reverse

theorem mirror_cons (A : ND ℂ) (As : List (ND ℂ)) : mirror (A :: As) = mirror As ++ [A.hc] := by simp [mirror]
theorem mirror_append (As Bs : List (ND ℂ)) : mirror (As ++ Bs) = mirror Bs ++ mirror As := by simp [mirror]
@[simp] theorem mirror_nil : mirror [] = [] := rfl
@[simp] theorem mirror_length (As : List (ND ℂ)) : (mirror As).length = As.length := by simp [mirror]

theorem hc_hc {A : ND ℂ} {d m n : ℕ} (h : A.shape = [d, m, n]) : A.hc.hc = A := by
  obtain ⟨sh, v⟩ := A
  simp only at h
  subst h
  simp only [ND.hc]
  congr
  funext idx
  split <;> simp

theorem mirror_chain : ∀ {ds : List ℕ} {As : List (ND ℂ)} {l r : ℕ}, MpsChain ds As l r → MpsChain ds.reverse (mirror As) r l
  | [], [], l, r, h => (show l = r from h).symm
  | d :: ds, A :: As, l, r, h => by
    obtain ⟨n, hA, h⟩ := h
    rw [mirror_cons, List.reverse_cons]
    have := mirror_chain h
    exact (mpsChain_append this.length_eq).2 ⟨n, this, l, (hc3 hA).1, rfl⟩
  | [], _ :: _, _, _, h => by simp at h
  | _ :: _, [], _, _, h => by simp at h

theorem InB_reverse : ∀ {ds s : List ℕ}, InB ds s → InB ds.reverse s.reverse
  | [], [], _ => trivial
  | d :: ds, t :: s, h => by
    rw [List.reverse_cons, List.reverse_cons]
    exact InB.append (InB_reverse h.2) ⟨h.1, trivial⟩
  | [], _ :: _, h => by simp at h
  | _ :: _, [], h => by simp at h

theorem mirror_amp : ∀ {ds : List ℕ} {As : List (ND ℂ)} {l r : ℕ} {s : List ℕ}, MpsChain ds As l r → InB ds s →
    ∀ a < l, ∀ b < r, amp (mirror As) s.reverse b a = star (amp As s a b)
  | [], [], l, r, [], h, _, a, _, b, _ => by
    simp only [mirror_nil, List.reverse_nil, amp_nil, eq_comm]
    split <;> simp
  | d :: ds, A :: As, l, r, t :: s, h, hs, a, ha, b, hb => by
    obtain ⟨n, hA, h⟩ := h
    rw [mirror_cons, List.reverse_cons, amp_append (mirror_chain h) (InB_reverse hs.2).length_eq b a hb, amp_cons, dim2 hA, star_sum]
    refine Finset.sum_congr rfl fun c hc => ?_
    have hc : c < n := by simpa using hc
    rw [mirror_amp h hs.2 c hc b hb, amp_single _ _ _ _ (by rw [dim2 (hc3 hA).1]; exact ha), (hc3 hA).2, star_mul', mul_comm]
  | [], _ :: _, _, _, _, h, _, _, _, _, _ => by simp at h
  | _ :: _, [], _, _, _, h, _, _, _, _, _ => by simp at h
  | [], [], _, _, _ :: _, _, h, _, _, _, _ => by simp at h
  | _ :: _, _ :: _, _, _, [], _, h, _, _, _, _ => by simp at h

theorem hc_leftIso {A : ND ℂ} {d l r : ℕ} (hA : A.shape = [d, l, r]) : LeftIso A.hc ↔ RightIso A := by
  obtain ⟨h1, h2⟩ := hc3 hA
  unfold LeftIso RightIso
  rw [dim0 h1, dim1 h1, dim2 h1, dim0 hA, dim1 hA, dim2 hA]
  simp only [h2, star_star]

theorem mirror_iso : ∀ {ds : List ℕ} {As : List (ND ℂ)} {l r : ℕ}, MpsChain ds As l r →
    ((∀ A ∈ mirror As, LeftIso A) ↔ ∀ A ∈ As, RightIso A) ∧ (PosDims (mirror As) ↔ PosDims As) ∧
    ∀ D0, (∀ A ∈ mirror As, A.dim 2 ≤ D0) ↔ ∀ A ∈ As, A.dim 1 ≤ D0
  | [], [], l, r, h => by simp [PosDims]
  | d :: ds, A :: As, l, r, h => by
    obtain ⟨n, hA, h⟩ := h
    obtain ⟨i1, i2, i3⟩ := mirror_iso h
    obtain ⟨h1, h2⟩ := hc3 hA
    rw [mirror_cons]
    refine ⟨?_, ?_, ?_⟩
    · simp only [List.mem_append, List.mem_cons, or_imp, forall_and, forall_eq, i1, hc_leftIso hA]
      simp [and_comm]
    · rw [PosDims.append, PosDims.cons, PosDims.cons, posDims3 h1, posDims3 hA, i2]
      have : PosDims ([] : List (ND ℂ)) := by simp [PosDims]
      tauto
    · intro D0
      simp only [List.mem_append, List.mem_cons, or_imp, forall_and, forall_eq, i3, dim2 h1, dim1 hA]
      simp [and_comm]
  | [], _ :: _, _, _, h => by simp at h
  | _ :: _, [], _, _, h => by simp at h

theorem sumIdx_reverse : ∀ (ds : List ℕ) (f : List ℕ → ℂ), sumIdx ds.reverse f = sumIdx ds fun s => f s.reverse
  | [], f => rfl
  | d :: ds, f => by
    rw [List.reverse_cons, sumIdx_append, sumIdx_reverse ds]
    simp only [sumIdx_cons, sumIdx_nil, List.reverse_cons]
    rw [sumIdx_finset_sum]

/-- the mirror image of a Schmidt decomposition -/
theorem schmidt_mirror {ds1 ds2 : List ℕ} {ψ φ : List ℕ → ℂ} {lam : List ℝ} (h : SchmidtAt ds1 ds2 ψ lam)
    (hφ : ∀ s, InB (ds2.reverse ++ ds1.reverse) s → φ s = star (ψ s.reverse)) : SchmidtAt ds2.reverse ds1.reverse φ lam := by
  obtain ⟨hp, u, v, h1, h2, h3⟩ := h
  refine ⟨hp, fun a s => star (v a s.reverse), fun a s => star (u a s.reverse), ?_, ?_, ?_⟩
  · intro s1 hs1 s2 hs2
    have e1 := InB_reverse hs1
    have e2 := InB_reverse hs2
    rw [List.reverse_reverse] at e1 e2
    rw [hφ _ (InB.append hs1 hs2), List.reverse_append, h1 _ e2 _ e1, star_sum]
    refine Finset.sum_congr rfl fun a _ => ?_
    have : star (Real.sqrt (lam.getD a 0) : ℂ) = (Real.sqrt (lam.getD a 0) : ℂ) := Complex.conj_ofReal _
    rw [star_mul', star_mul', this]
    ring
  · intro a ha b hb
    rw [sumIdx_reverse]
    simp only [List.reverse_reverse, star_star]
    rw [sumIdx_congr (g := fun s => star (v b s) * v a s) fun s _ => mul_comm _ _, h3 b hb a ha]
    simp only [eq_comm]
  · intro a ha b hb
    rw [sumIdx_reverse]
    simp only [List.reverse_reverse, star_star]
    rw [sumIdx_congr (g := fun s => star (u b s) * u a s) fun s _ => mul_comm _ _, h2 b hb a ha]
    simp only [eq_comm]

/-! ### the sweep back of `right_canonicalise` is the one of `left_canonicalise` on the mirror image -/

theorem hc_congr {A B : ND ℂ} {d l r : ℕ} (hA : A.shape = [d, l, r]) (h : A ≈ B) : A.hc ≈ B.hc := by
  have hB : B.shape = [d, l, r] := by rw [← (ND.eqv_def.1 h).1, hA]
  refine eqv3 (hc3 hA).1 (hc3 hB).1 fun s hs a ha c hc => ?_
  rw [(hc3 hA).2, (hc3 hB).2, eqv_val3 h hA hs hc ha]

theorem backRightStep_mirror {eig : Eig} {A V S A'' V' S' : ND ℂ} {d l n : ℕ} (hA : A.shape = [d, l, n]) (hV : V.shape = [l, l])
    (hV' : V'.shape = [n, n]) (hA'' : A''.shape = [d, n, l])
    (hA''v : ∀ s a c, A''.val [s, a, c] = ∑ e ∈ range l, (∑ b ∈ range n, star (V'.val [b, a]) * A.hc.val [s, b, e]) * V.val [e, c])
    (h : FMPS.backLeftStep eig A.hc V S = .ok (A'', V', S')) :
    ∃ A', FMPS.backRightStep eig A V S = .ok (A', V', S') ∧ A'.shape = [d, l, n] ∧ A'.hc ≈ A'' := by
  unfold FMPS.backLeftStep at h
  obtain ⟨t1, e1, h⟩ := bind_eq_ok h
  obtain ⟨t2, e2, h⟩ := bind_eq_ok h
  obtain ⟨t3, e3, h⟩ := bind_eq_ok h
  obtain ⟨t4, e4, h⟩ := bind_eq_ok h
  obtain ⟨M, e5, h⟩ := bind_eq_ok h
  obtain ⟨⟨w', W⟩, e6, h⟩ := bind_eq_ok h
  simp only at h
  obtain ⟨u, e7, h⟩ := bind_eq_ok h
  obtain ⟨u', e8, h⟩ := bind_eq_ok h
  obtain ⟨A3, e9, h⟩ := bind_eq_ok h
  obtain ⟨rfl, rfl, rfl⟩ : A3 = A'' ∧ W = V' ∧ diagND w' = S' := by simpa using Except.ok.inj h
  obtain ⟨hVh, hVhv⟩ := hc2 hV
  obtain ⟨v1, v2, A', f1, f2, f3, hA', hA'v⟩ := gauge_eval hVh hA hV'
  refine ⟨A', ?_, hA', ?_⟩
  · unfold FMPS.backRightStep
    rw [hc_hc hA] at e4
    rw [e1, ok_bind, e2, ok_bind, e3, ok_bind, e4, ok_bind, e5, ok_bind, e6, ok_bind]
    simp only
    rw [f1, ok_bind, f2, ok_bind, f3, ok_bind]
  · refine eqv3 (hc3 hA').1 hA'' fun s _ a _ c _ => ?_
    rw [(hc3 hA').2, hA'v, hA''v]
    simp only [hVhv, (hc3 hA).2, star_sum, star_mul', Finset.sum_mul, star_star]
    rw [Finset.sum_comm]
    exact Finset.sum_congr rfl fun e _ => Finset.sum_congr rfl fun b _ => by ring

theorem backRight_mirror {eig : Eig} (heig : EigOrthoLaw eig) : ∀ (As : List (ND ℂ)) (ds : List ℕ) (l r : ℕ) (V S : ND ℂ)
    (base base' Lb : List (ND ℂ)) (w : List ℂ), MpsChain ds As l r → PosDims As → FMPS.backLeft eig base = .ok (base', V, S, Lb) →
    V.shape = [l, l] → ColsOrtho V → w.length = l → IsDiag S w → NonnegLast w →
    ∃ As' As'' Ls V' S', FMPS.backRight eig V S As = .ok (As', Ls) ∧
      FMPS.backLeft eig (mirror As ++ base) = .ok (As'' ++ base', V', S', Ls.reverse ++ Lb) ∧
      MpsChain ds As' l r ∧ List.Forall₂ (· ≈ ·) As'' (mirror As')
  | [], [], l, r, V, S, base, base', Lb, w, h, _, hb, _, _, _, _, _ =>
    ⟨[], [], [], V, S, rfl, by simpa using hb, h, .nil⟩
  | A :: As, d :: ds, l, r, V, S, base, base', Lb, w, h, hp, hb, hV, hoV, hw, hS, hwn => by
    obtain ⟨n, hA, h⟩ := h
    rw [PosDims.cons, posDims3 hA] at hp
    obtain ⟨⟨hd, hl, hn⟩, hp⟩ := hp
    obtain ⟨B, V', w', e, hwl', hVs', hoV', hwn', -, -, hB, hBv⟩ := backLeftStep_ok heig (hc3 hA).1 hn hV hoV hw hS hwn
    obtain ⟨A', e', hA', hAB⟩ := backRightStep_mirror hA hV hVs' hB hBv e
    obtain ⟨As', As'', Ls, V2, S2, g1, g2, g3, g4⟩ := backRight_mirror heig As ds n r V' (diagND w') (A.hc :: base) (B :: base')
      (diagND w' :: Lb) w' h hp (by simp only [FMPS.backLeft, hb, ok_bind, e]) hVs' hoV' hwl' (isDiag_diagND w') hwn'
    refine ⟨A' :: As', As'' ++ [B], diagND w' :: Ls, V2, S2, ?_, ?_, ⟨n, hA', g3⟩, ?_⟩
    · simp only [FMPS.backRight, e', ok_bind, g1]
    · rw [mirror_cons, List.append_assoc, List.singleton_append, g2]
      simp
    · rw [mirror_cons]
      exact List.rel_append g4 (.cons (ND.Eqv.symm hAB) .nil)
  | [], _ :: _, _, _, _, _, _, _, _, _, h, _, _, _, _, _, _, _ => by simp at h
  | _ :: _, [], _, _, _, _, _, _, _, _, h, _, _, _, _, _, _, _ => by simp at h

end Xmps
