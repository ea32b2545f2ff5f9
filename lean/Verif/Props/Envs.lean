import Verif.Model.Envs
import Verif.Lemmas.Envs
import Verif.Lemmas.CanonBack
import Verif.Props.TwoSite
import Verif.Props.Canonicalise
import Verif.Props.ExpectMore
import Verif.Props.ExpectHistory
import Verif.Lemmas.FmpsExamples

/-!
# Theorems about `get_envs` and `energy` (C41, C55)

`get_envs` returns functions `l`, `r`; `l(n)` is meant to be the left environment of the sites `0..n`, `r(n)` the right
environment of the sites `n+1..`.  The code keeps the real diagonal only.
-/

namespace Xmps

open Finset Spec Xmps.Ncon

theorem ND.matmul33 {K : Type} [AddCommMonoid K] [Mul K] {A B : ND K} {b m k n : ℕ} (hA : A.shape = [b, m, k]) (hB : B.shape = [b, k, n]) :
    ∃ R, A.matmul B = .ok R ∧ R.shape = [b, m, n] ∧ ∀ s < b, ∀ i j, R.val [s, i, j] = ∑ c ∈ range k, A.val [s, i, c] * B.val [s, c, j] := by
  refine ⟨_, by simp [ND.matmul, hA, hB]; rfl, ?_, ?_⟩
  · by_cases h : b = 1 <;> simp [h]
  · intro s hs i j
    by_cases h : b = 1
    · have : s = 0 := by omega
      simp [h, this]
    · simp [h]

theorem leftEnvStep_ok {A l : ND ℂ} {d m n : ℕ} (hA : A.shape = [d, m, n]) (hl : l.shape = [m, m]) :
    ∃ W, FMPS.leftEnvStep A l = .ok W ∧ W.shape = [n, n] ∧ ∀ b b', W.val [b, b'] = if b = b' then
      (((∑ s ∈ range d, ∑ a ∈ range m, ∑ a' ∈ range m, star (A.val [s, a, b]) * l.val [a, a'] * A.val [s, a', b']).re : ℝ) : ℂ) else 0 := by
  obtain ⟨hs, hv⟩ := hc3 hA
  obtain ⟨T, e1, hT, hTv⟩ := ND.matmul32 hs hl
  obtain ⟨U, e2, hU, hUv⟩ := ND.matmul33 hT hA
  refine ⟨⟨[n, n], fun
      | [i, j] => if i = j then ∑ s ∈ range d, ((U.val [s, i, i]).re : ℂ) else 0
      | _ => 0⟩, ?_, rfl, ?_⟩
  · unfold FMPS.leftEnvStep
    rw [e1, ok_bind, e2, ok_bind]
    simp only [ND.sum0, ND.re, hU, ok_bind, ND.diagDiag, min_self]
    rfl
  · intro b b'
    by_cases hb : b = b'
    · subst hb
      simp only [if_true]
      rw [← Complex.ofReal_sum, Complex.re_sum]
      congr 1
      refine Finset.sum_congr rfl fun s hs' => ?_
      rw [hUv s (Finset.mem_range.1 hs')]
      congr 1
      rw [Finset.sum_comm]
      refine Finset.sum_congr rfl fun a _ => ?_
      rw [hTv, Finset.sum_mul]
      exact Finset.sum_congr rfl fun a' _ => by rw [hv]
    · simp [hb]

theorem rightEnvStep_ok {A r : ND ℂ} {d m n : ℕ} (hA : A.shape = [d, m, n]) (hr : r.shape = [n, n]) :
    ∃ W, FMPS.rightEnvStep A r = .ok W ∧ W.shape = [m, m] ∧ ∀ b b', W.val [b, b'] = if b = b' then
      (((∑ s ∈ range d, ∑ c ∈ range n, ∑ c' ∈ range n, A.val [s, b, c] * r.val [c, c'] * star (A.val [s, b', c'])).re : ℝ) : ℂ) else 0 := by
  obtain ⟨hs, hv⟩ := hc3 hA
  obtain ⟨T, e1, hT, hTv⟩ := ND.matmul32 hA hr
  obtain ⟨U, e2, hU, hUv⟩ := ND.matmul33 hT hs
  refine ⟨⟨[m, m], fun
      | [i, j] => if i = j then ∑ s ∈ range d, ((U.val [s, i, i]).re : ℂ) else 0
      | _ => 0⟩, ?_, rfl, ?_⟩
  · unfold FMPS.rightEnvStep
    rw [e1, ok_bind, e2, ok_bind]
    simp only [ND.sum0, ND.re, hU, ok_bind, ND.diagDiag, min_self]
    rfl
  · intro b b'
    by_cases hb : b = b'
    · subst hb
      simp only [if_true]
      rw [← Complex.ofReal_sum, Complex.re_sum]
      congr 1
      refine Finset.sum_congr rfl fun s hs' => ?_
      rw [hUv s (Finset.mem_range.1 hs')]
      congr 1
      rw [Finset.sum_comm]
      refine Finset.sum_congr rfl fun a _ => ?_
      rw [hTv, Finset.sum_mul]
      exact Finset.sum_congr rfl fun a' _ => by rw [hv]
    · simp [hb]

/-- `RealDiag` says that the real diagonal is everything -/
theorem realDiag_eq {n : ℕ} {f : ℕ → ℕ → ℂ} (h : RealDiag n f) {a b : ℕ} (ha : a < n) (hb : b < n) :
    f a b = if a = b then (((f a b).re : ℝ) : ℂ) else 0 := by
  by_cases e : a = b
  · subst e
    rw [if_pos rfl]
    exact Complex.ext (by simp) (by simpa using (h a ha a ha).2)
  · rw [if_neg e, (h a ha b hb).1 e]

theorem leftEnvs_ok : ∀ (Bs : List (ND ℂ)) (es : List ℕ) {As : List (ND ℂ)} {ds : List ℕ} {m r : ℕ} {l : ND ℂ},
    MpsChain ds As 1 m → MpsChain es Bs m r → l.shape = [m, m] → (∀ a < m, ∀ b < m, l.val [a, b] = leftEnv ds As a b) →
    (∀ k ≤ es.length, ∀ p, MpsChain (ds ++ es.take k) (As ++ Bs.take k) 1 p → RealDiag p (leftEnv (ds ++ es.take k) (As ++ Bs.take k))) →
    ∃ ls, FMPS.leftEnvs l Bs = .ok ls ∧ ls.length = es.length + 1 ∧ ∀ k ≤ es.length, ∃ E p, pyGet ls k = .ok E ∧
      MpsChain (ds ++ es.take k) (As ++ Bs.take k) 1 p ∧ E.shape = [p, p] ∧
      ∀ a < p, ∀ b < p, E.val [a, b] = leftEnv (ds ++ es.take k) (As ++ Bs.take k) a b
  | [], [], As, ds, m, r, l, h, _, hl, hv, _ => by
    refine ⟨[l], rfl, rfl, ?_⟩
    intro k hk
    obtain rfl : k = 0 := by simpa using hk
    exact ⟨l, m, rfl, by simpa using h, hl, by simpa using hv⟩
  | B :: Bs, e :: es, As, ds, m, r, l, h, ⟨n, hB, h'⟩, hl, hv, hd => by
    obtain ⟨W, e1, hW, hWv⟩ := leftEnvStep_ok hB hl
    have hc : MpsChain (ds ++ [e]) (As ++ [B]) 1 n := (mpsChain_append h.length_eq).2 ⟨m, h, n, hB, rfl⟩
    have hval : ∀ a < n, ∀ b < n, W.val [a, b] = leftEnv (ds ++ [e]) (As ++ [B]) a b := by
      intro a ha b hb
      have hrd := hd 1 (by simp) n (by simpa using hc)
      simp only [List.take_succ_cons, List.take_zero] at hrd
      rw [hWv, realDiag_eq hrd ha hb, leftEnv_snoc h hB a b ha hb]
      by_cases hab : a = b
      · rw [if_pos hab, if_pos hab]
        congr 2
        exact Finset.sum_congr rfl fun s _ => Finset.sum_congr rfl fun a' ha' => Finset.sum_congr rfl fun b' hb' => by
          rw [hv a' (Finset.mem_range.1 ha') b' (Finset.mem_range.1 hb')]
      · rw [if_neg hab, if_neg hab]
    obtain ⟨ls, e2, hlen, hls⟩ := leftEnvs_ok Bs es hc h' hW hval (by
      intro k hk p hp
      have := hd (k + 1) (by simpa using hk) p (by simpa using hp)
      simpa using this)
    refine ⟨l :: ls, ?_, by simp [hlen], ?_⟩
    · unfold FMPS.leftEnvs
      rw [e1, ok_bind, e2, ok_bind]
    · intro k hk
      match k with
      | 0 => exact ⟨l, m, rfl, by simpa using h, hl, by simpa using hv⟩
      | k + 1 =>
        obtain ⟨E, p, g1, g2, g3, g4⟩ := hls k (by simpa using hk)
        exact ⟨E, p, by simpa using g1, by simpa using g2, g3, by simpa using g4⟩

theorem rightEnvs_ok : ∀ (Bs : List (ND ℂ)) (es : List ℕ) {m : ℕ}, MpsChain es Bs m 1 →
    (∀ k ≤ es.length, ∀ p, MpsChain (es.take k) (Bs.take k) m p → RealDiag p (rightEnv (es.drop k) (Bs.drop k))) →
    ∃ rs, FMPS.rightEnvs Bs = .ok rs ∧ rs.length = es.length + 1 ∧ ∀ k ≤ es.length, ∃ E p, pyGet rs k = .ok E ∧
      MpsChain (es.take k) (Bs.take k) m p ∧ E.shape = [p, p] ∧
      ∀ a < p, ∀ b < p, E.val [a, b] = rightEnv (es.drop k) (Bs.drop k) a b
  | [], [], m, h, _ => by
    have h : m = 1 := h
    subst h
    refine ⟨[onesND [1, 1]], rfl, rfl, ?_⟩
    intro k hk
    obtain rfl : k = 0 := by simpa using hk
    refine ⟨_, 1, rfl, rfl, rfl, ?_⟩
    intro a ha b hb
    obtain rfl : a = 0 := by omega
    obtain rfl : b = 0 := by omega
    simp [rightEnv_nil, onesND]
  | B :: Bs, e :: es, m, h0, hd => by
    obtain ⟨n, hB, h'⟩ := h0
    obtain ⟨rs, e1, hlen, hrs⟩ := rightEnvs_ok Bs es h' (by
      intro k hk p hp
      have := hd (k + 1) (by simpa using hk) p ⟨n, hB, hp⟩
      simpa using this)
    obtain ⟨E, p, g1, g2, g3, g4⟩ := hrs 0 (by omega)
    have hpn : n = p := g2
    subst hpn
    simp only [List.drop_zero] at g4
    obtain ⟨W, e2, hW, hWv⟩ := rightEnvStep_ok hB g3
    have hval : ∀ a < m, ∀ b < m, W.val [a, b] = rightEnv (e :: es) (B :: Bs) a b := by
      intro a ha b hb
      have hrd := hd 0 (by simp) m rfl
      simp only [List.drop_zero] at hrd
      rw [hWv, realDiag_eq hrd ha hb, rightEnv_cons hB a b]
      by_cases hab : a = b
      · rw [if_pos hab, if_pos hab]
        congr 2
        exact Finset.sum_congr rfl fun s _ => Finset.sum_congr rfl fun a' ha' => Finset.sum_congr rfl fun b' hb' => by
          rw [g4 a' (Finset.mem_range.1 ha') b' (Finset.mem_range.1 hb')]
      · rw [if_neg hab, if_neg hab]
    refine ⟨W :: rs, ?_, by simp [hlen], ?_⟩
    · unfold FMPS.rightEnvs
      rw [e1, ok_bind, g1, ok_bind, e2, ok_bind]
    · intro k hk
      match k with
      | 0 => exact ⟨W, m, rfl, rfl, hW, hval⟩
      | k + 1 =>
        obtain ⟨E, p, g1, g2, g3, g4⟩ := hrs k (by simpa using hk)
        exact ⟨E, p, by simpa using g1, ⟨n, hB, g2⟩, g3, g4⟩

/-- every environment of the chain is diagonal and real -/
def Spec.DiagEnvs (ds : List ℕ) (As : List (ND ℂ)) : Prop :=
  ∀ k ≤ ds.length, ∀ p, MpsChain (ds.take k) (As.take k) 1 p →
    RealDiag p (leftEnv (ds.take k) (As.take k)) ∧ RealDiag p (rightEnv (ds.drop k) (As.drop k))

/-- **C41** `l, r = get_envs()` for a chain whose environments are diagonal: `l(n)` is the left environment of the sites `0..n`
and `r(n)` the right environment of the sites after `n`, for every `n` from -1 on.
Partial: without the assumption the off-diagonal entries are lost (`getEnvs_loses`). -/
theorem FMPS.getEnvs_diag_partial {x : FMPS ℂ} {ds : List ℕ} (hx : x.Holds ds) (hd : DiagEnvs ds x.data) :
    ∃ ls rs, x.getEnvs = .ok (ls, rs) ∧ ∀ k ≤ ds.length, ∃ l r p, FMPS.envAt ls ((k : ℤ) - 1) = .ok l ∧
      FMPS.envAt rs ((k : ℤ) - 1) = .ok r ∧ MpsChain (ds.take k) (x.data.take k) 1 p ∧ l.shape = [p, p] ∧ r.shape = [p, p] ∧
      (∀ a < p, ∀ b < p, l.val [a, b] = leftEnv (ds.take k) (x.data.take k) a b) ∧
      ∀ a < p, ∀ b < p, r.val [a, b] = rightEnv (ds.drop k) (x.data.drop k) a b := by
  obtain ⟨ls, e1, -, h1⟩ := leftEnvs_ok x.data ds (As := []) (ds := []) (m := 1) (l := onesND [1, 1]) rfl hx.chain rfl (by
    intro a ha b hb
    obtain rfl : a = 0 := by omega
    obtain rfl : b = 0 := by omega
    simp [leftEnv_nil, onesND]) (by
    intro k hk p hp
    exact (hd k hk p hp).1)
  obtain ⟨rs, e2, -, h2⟩ := rightEnvs_ok x.data ds hx.chain (fun k hk p hp => (hd k hk p hp).2)
  refine ⟨ls, rs, by unfold FMPS.getEnvs; rw [e1, ok_bind, e2, ok_bind], ?_⟩
  intro k hk
  obtain ⟨l, p, a1, a2, a3, a4⟩ := h1 k hk
  obtain ⟨r, q, b1, b2, b3, b4⟩ := h2 k hk
  simp only [List.nil_append] at a2 a4
  obtain rfl := chain_bond_unique a2 b2
  refine ⟨l, r, p, ?_, ?_, a2, a3, b3, a4, b4⟩
  · unfold FMPS.envAt pyGetI
    rw [if_pos (by omega), show ((k : ℤ) - 1 + 1).toNat = k by omega, a1]
  · unfold FMPS.envAt pyGetI
    rw [if_pos (by omega), show ((k : ℤ) - 1 + 1).toNat = k by omega, b1]

/-! ### energy -/

/-- one two-site term, for any Hermitian environments -/
theorem energyTerm_ok (O : SetOrder) {x : FMPS ℂ} {ls rs : List (ND ℂ)} {h A B l r : ND ℂ} {d p q n m : ℕ}
    (hd : x.d = d) (hh : h.shape = [d * d, d * d]) (eA : pyGet x.data m = .ok A) (eB : pyGet x.data (m + 1) = .ok B)
    (hA : A.shape = [d, p, q]) (hB : B.shape = [d, q, n]) (el : FMPS.envAt ls ((m : ℤ) - 1) = .ok l)
    (er : FMPS.envAt rs ((m : ℤ) + 1) = .ok r) (hl : l.shape = [p, p]) (hr : r.shape = [n, n])
    (hlh : ∀ a < p, ∀ b < p, star (l.val [a, b]) = l.val [b, a]) (hrh : ∀ a < n, ∀ b < n, star (r.val [a, b]) = r.val [b, a]) :
    x.energyTerm O ls rs h m = .ok (∑ s1 ∈ range d, ∑ s2 ∈ range d, ∑ t1 ∈ range d, ∑ t2 ∈ range d,
      h.val [s1 * d + s2, t1 * d + t2] * ∑ c ∈ range p, ∑ e ∈ range n, ∑ c' ∈ range p, ∑ e' ∈ range n,
        (star (∑ u ∈ range q, A.val [s1, c, u] * B.val [s2, u, e]) * ∑ u ∈ range q, A.val [t1, c', u] * B.val [t2, u, e']) *
          (l.val [c, c'] * r.val [e', e])) := by
  set h4 := h.reshapeR [d, d, d, d] with hh4
  have s4 : h4.shape = [d, d, d, d] := rfl
  have hv4 : ∀ s1 < d, ∀ s2 < d, ∀ t1 < d, ∀ t2 < d, h4.val [s1, s2, t1, t2] = h.val [s1 * d + s2, t1 * d + t2] := by
    intro s1 h1 s2 h2 t1 h3 t2 h4'
    refine ND.reshapeR_val ?_ ?_
    · rw [hh]
      exact ⟨mul_add_lt h1 h2, mul_add_lt h3 h4', trivial⟩
    · rw [hh]
      simp only [ravel_cons, ravel_nil, List.prod_cons, List.prod_nil]
      ring
  obtain ⟨C, e1, hC, hCv⟩ := nc_eval O (AA := [h4, A, B]) (v := [[-1, -2, 1, 2], [1, -3, 3], [2, 3, -4]])
    (dimOf [(1, d), (2, d), (3, q), (-1, d), (-2, d), (-3, p), (-4, n)]) [1, 2, 3] [-1, -2, -3, -4]
    ⟨by simp, by simp [s4, hA, hB, dimOf, List.lookup], by simp, by simp, by decide, by decide, by decide, by decide, by decide⟩
    (by decide) (by decide)
  have hC' : C.shape = [d, d, p, n] := by rw [hC]; simp [dimOf, List.lookup]
  have hCv' : ∀ s1 s2 c e, C.val [s1, s2, c, e] = ∑ t1 ∈ range d, ∑ t2 ∈ range d, ∑ u ∈ range q,
      h4.val [s1, s2, t1, t2] * (A.val [t1, c, u] * B.val [t2, u, e]) := by
    intro s1 s2 c e
    rw [hCv _ rfl]
    simp [labelSum, netTerm, assign, dimOf, List.lookup, Function.update]
  obtain ⟨a, e2, ha, hav⟩ := ND.matmul23 (A := l.conj) (B := A.conj) (m := p) (k := p) (b := d) (n := q) hl hA
  obtain ⟨b, e3, hb, hbv⟩ := ND.matmul32 (A := B.conj) (B := r.conj) (m := q) (k := n) (b := d) (n := n) hB hr
  obtain ⟨R, e4, hR, hRv⟩ := nc_eval O (AA := [a, b, C]) (v := [[1, 3, 4], [2, 4, 5], [1, 2, 3, 5]])
    (dimOf [(1, d), (2, d), (3, p), (4, q), (5, n)]) [1, 2, 3, 4, 5] []
    ⟨by simp, by simp [ha, hb, hC', dimOf, List.lookup], by simp, by simp, by decide, by decide, by decide, by decide, by decide⟩
    (by decide) (by decide)
  unfold FMPS.energyTerm
  rw [hd, ND.reshape_ok (by rw [hh]; simp [mul_assoc]), ok_bind, eA, ok_bind, eB, ok_bind, ← hh4, e1, ok_bind, el, ok_bind, er, ok_bind,
    e2, ok_bind, e3, ok_bind, e4, ok_bind]
  congr 1
  rw [hRv [] rfl]
  simp only [labelSum, netTerm, dimOf, List.lookup]
  simp
  refine Finset.sum_congr rfl fun s1 h1 => Finset.sum_congr rfl fun s2 h2 => ?_
  simp only [Finset.mem_range] at h1 h2
  have hab : ∀ c < p, ∀ e < n, ∑ u ∈ range q, a.val [s1, c, u] * b.val [s2, u, e] = ∑ c1 ∈ range p, ∑ e1 ∈ range n,
      star (∑ u ∈ range q, A.val [s1, c1, u] * B.val [s2, u, e1]) * (l.val [c1, c] * r.val [e, e1]) := by
    intro c hc e he
    simp only [star_sum, Finset.sum_mul, star_mul']
    rw [Finset.sum_congr rfl fun c1 _ => Finset.sum_comm, Finset.sum_comm]
    refine Finset.sum_congr rfl fun u _ => ?_
    rw [hav, hbv, Finset.sum_mul_sum]
    refine Finset.sum_congr rfl fun c1 hc1 => Finset.sum_congr rfl fun e1 he1 => ?_
    simp only [Finset.mem_range] at hc1 he1
    show star (l.val [c, c1]) * star (A.val [s1, c1, u]) * (star (B.val [s2, u, e1]) * star (r.val [e1, e])) = _
    rw [hlh c hc c1 hc1, hrh e1 he1 e he]
    ring
  have hC2 : ∀ c e, C.val [s1, s2, c, e] = ∑ t1 ∈ range d, ∑ t2 ∈ range d, h.val [s1 * d + s2, t1 * d + t2] *
      ∑ u ∈ range q, A.val [t1, c, u] * B.val [t2, u, e] := by
    intro c e
    rw [hCv']
    refine Finset.sum_congr rfl fun t1 ht1 => Finset.sum_congr rfl fun t2 ht2 => ?_
    simp only [Finset.mem_range] at ht1 ht2
    rw [Finset.mul_sum, hv4 s1 h1 s2 h2 t1 ht1 t2 ht2]
  calc _ = ∑ c ∈ range p, ∑ e ∈ range n, (∑ u ∈ range q, a.val [s1, c, u] * b.val [s2, u, e]) * C.val [s1, s2, c, e] := by
        refine Finset.sum_congr rfl fun c _ => ?_
        rw [Finset.sum_comm]
        refine Finset.sum_congr rfl fun e _ => ?_
        rw [Finset.sum_mul]
        exact Finset.sum_congr rfl fun u _ => by ring
    _ = ∑ c ∈ range p, ∑ e ∈ range n, ∑ t1 ∈ range d, ∑ t2 ∈ range d, ∑ c1 ∈ range p, ∑ e1 ∈ range n,
        h.val [s1 * d + s2, t1 * d + t2] * ((star (∑ u ∈ range q, A.val [s1, c1, u] * B.val [s2, u, e1]) *
          ∑ u ∈ range q, A.val [t1, c, u] * B.val [t2, u, e]) * (l.val [c1, c] * r.val [e, e1])) := by
        refine Finset.sum_congr rfl fun c hc => Finset.sum_congr rfl fun e he => ?_
        rw [hab c (Finset.mem_range.1 hc) e (Finset.mem_range.1 he), hC2, Finset.mul_sum]
        refine Finset.sum_congr rfl fun t1 _ => ?_
        rw [Finset.mul_sum]
        refine Finset.sum_congr rfl fun t2 _ => ?_
        rw [Finset.sum_mul]
        refine Finset.sum_congr rfl fun c1 _ => ?_
        rw [Finset.sum_mul]
        exact Finset.sum_congr rfl fun e1 _ => by ring
    _ = ∑ t1 ∈ range d, ∑ t2 ∈ range d, ∑ c ∈ range p, ∑ e ∈ range n, ∑ c1 ∈ range p, ∑ e1 ∈ range n,
        h.val [s1 * d + s2, t1 * d + t2] * ((star (∑ u ∈ range q, A.val [s1, c1, u] * B.val [s2, u, e1]) *
          ∑ u ∈ range q, A.val [t1, c, u] * B.val [t2, u, e]) * (l.val [c1, c] * r.val [e, e1])) := by
        rw [Finset.sum_congr rfl fun c _ => Finset.sum_comm, Finset.sum_comm]
        refine Finset.sum_congr rfl fun t1 _ => ?_
        rw [Finset.sum_congr rfl fun c _ => Finset.sum_comm, Finset.sum_comm]
    _ = _ := by
        refine Finset.sum_congr rfl fun t1 _ => Finset.sum_congr rfl fun t2 _ => ?_
        rw [Finset.sum_congr rfl fun c _ => Finset.sum_comm, Finset.sum_comm, Finset.mul_sum]
        refine Finset.sum_congr rfl fun c1 _ => ?_
        rw [Finset.sum_congr rfl fun c _ => Finset.sum_comm, Finset.sum_comm, Finset.mul_sum]
        refine Finset.sum_congr rfl fun e1 _ => ?_
        rw [Finset.mul_sum]
        refine Finset.sum_congr rfl fun c _ => ?_
        refine Eq.trans ?_ (Finset.mul_sum _ _ _).symm
        exact Finset.sum_congr rfl fun e _ => by simp

/-- **C55** `energy(H)` of a chain whose environments are diagonal, for a list of at most `L - 1` two-site matrices: the sum of the real
parts of the expectation values, divided by the number of sites.
Partial: without the assumption the value is wrong (`energy_wrong`). -/
theorem FMPS.energy_diag_partial (O : SetOrder) {x : FMPS ℂ} {d L : ℕ} (hx : x.Holds (List.replicate L d))
    (hd : DiagEnvs (List.replicate L d) x.data) {H : List (ND ℂ)} (hL : H.length < L) (hH : ∀ h ∈ H, h.shape = [d * d, d * d]) :
    x.energy O H = .ok ((∑ m ∈ range H.length, (opExpect (List.replicate L d) x.data m 2
      (matElem [d, d] (H.getD m (onesND [])))).re) / L) := by
  obtain ⟨ls, rs, e, henv⟩ := FMPS.getEnvs_diag_partial hx hd
  have hlen := hx.chain.length_eq
  rw [List.length_replicate] at hlen
  have hxd : x.d = d := by
    rw [hx.d]
    obtain ⟨L, rfl⟩ : ∃ L', L = L' + 1 := ⟨L - 1, by omega⟩
    simp [List.replicate_succ]
  have hxL : x.L = L := by rw [hx.len]; simp
  have hterm : ∀ m (hm : m < H.length), x.energyTerm O ls rs H[m] m =
      .ok (opExpect (List.replicate L d) x.data m 2 (matElem [d, d] H[m])) := by
    intro m hm
    obtain ⟨ds1, ds2, As1, A, B, As2, p, q, n, e1, e2, e3, e4, c1, hA, hB, c2⟩ := chain_at2 (k := m) (d := d) (e := d) hx.chain
      (by rw [List.getElem?_replicate, if_pos (by omega)]) (by rw [List.getElem?_replicate, if_pos (by omega)])
    have hds : (List.replicate L d).length = L := by simp
    obtain ⟨l, -, p', el, -, ch, hl, -, hlv, -⟩ := henv m (by omega)
    obtain ⟨-, r, n', -, er, ch', -, hr, -, hrv⟩ := henv (m + 2) (by omega)
    have t1 : (List.replicate L d).take m = ds1 := by rw [e1, List.take_left' e3]
    have t2 : x.data.take m = As1 := by rw [e2, List.take_left' e4]
    have t3 : (List.replicate L d).drop (m + 2) = ds2 := by
      rw [e1, ← List.drop_drop, List.drop_left' e3]
      rfl
    have t4 : x.data.drop (m + 2) = As2 := by
      rw [e2, ← List.drop_drop, List.drop_left' e4]
      rfl
    have t5 : (List.replicate L d).take (m + 2) = ds1 ++ [d, d] := by
      rw [List.take_add, t1, e1, List.drop_left' e3]
      rfl
    have t6 : x.data.take (m + 2) = As1 ++ [A, B] := by
      rw [List.take_add, t2, e2, List.drop_left' e4]
      rfl
    have c3 : MpsChain [d, d] [A, B] p n := ⟨q, hA, n, hB, rfl⟩
    rw [t1, t2] at ch hlv
    rw [t3, t4] at hrv
    rw [t5, t6] at ch'
    obtain rfl := chain_bond_unique c1 ch
    obtain rfl := chain_bond_unique ((mpsChain_append (by omega)).2 ⟨p, c1, c3⟩) ch'
    rw [energyTerm_ok O hxd (hH _ (List.getElem_mem hm)) (A := A) (B := B) (l := l) (r := r) (p := p) (q := q) (n := n)
      (by rw [e2, pyGet_ok (by simp; omega)]; simp [List.getElem_append_right, e4])
      (by rw [e2, pyGet_ok (by simp; omega)]; simp [List.getElem_append_right, e4]) hA hB el
      (by rw [show (m : ℤ) + 1 = ((m + 2 : ℕ) : ℤ) - 1 by push_cast; ring]; exact er) hl hr
      (by intro a ha b hb; rw [hlv a ha b hb, hlv b hb a ha, leftEnv_star])
      (by intro a ha b hb; rw [hrv a ha b hb, hrv b hb a ha, rightEnv_star])]
    congr 1
    have := opExpect_env (ds2 := ds2) (As2 := As2) c1 c3 c2 (by simp) (matElem [d, d] H[m])
    simp only [List.cons_append, List.nil_append, e3, List.length_cons, List.length_nil] at this
    rw [e1, e2, this]
    simp only [sumIdx_cons, sumIdx_nil]
    refine Finset.sum_congr rfl fun s1 _ => Finset.sum_congr rfl fun s2 _ => Finset.sum_congr rfl fun t1 _ => Finset.sum_congr rfl fun t2 _ => ?_
    refine congrArg₂ (· * ·) ?_ ?_
    · simp [matElem]
    · refine Finset.sum_congr rfl fun c hc => Finset.sum_congr rfl fun e he => Finset.sum_congr rfl fun c' hc' => Finset.sum_congr rfl fun e' he' => ?_
      simp only [Finset.mem_range] at hc he hc' he'
      rw [hlv c hc c' hc', hrv e' he' e he]
      refine congrArg₂ (· * ·) (congrArg₂ (· * ·) (congrArg star ?_) ?_) rfl
      · simp only [amp_cons, amp_nil, dim2 hA, dim2 hB]
        simp [he]
      · simp only [amp_cons, amp_nil, dim2 hA, dim2 hB]
        simp [he']
  unfold FMPS.energy
  rw [e, ok_bind]
  simp only
  rw [mapM_ok (g := fun p : ND ℂ × ℕ => opExpect (List.replicate L d) x.data p.2 2 (matElem [d, d] p.1)) (by
    rintro ⟨h, m⟩ hp
    obtain ⟨hm, he⟩ := List.mem_zipIdx' hp
    have := hterm m hm
    rw [← he] at this
    exact this), ok_bind, hxL]
  congr 2
  rw [← Complex.re_sum]
  congr 1
  have : H.zipIdx = (List.range H.length).map fun m => (H.getD m (onesND []), m) := by
    apply List.ext_getElem
    · simp
    · intro i h1 h2
      simp at h1
      simp [h1]
  rw [this, List.map_map, Finset.sum_range]
  rw [← List.sum_ofFn]
  congr 1
  apply List.ext_getElem
  · simp
  · intro i h1 h2
    simp at h1
    simp [h1]

/-! ### after canonicalisation -/

/-- the environments of a chain of left isometries whose right environments are diagonal -/
theorem diagEnvs_left {ds : List ℕ} {As : List (ND ℂ)} (h : MpsChain ds As 1 1) (hi : ∀ A ∈ As, LeftIso A)
    (hr : ∀ m < ds.length, ∀ p, MpsChain (ds.take m) (As.take m) 1 p → RealDiag p (rightEnv (ds.drop m) (As.drop m))) : DiagEnvs ds As := by
  have hlen := h.length_eq
  intro k hk p hp
  constructor
  · intro a ha b hb
    rw [leftEnv_iso hp (fun A hA => hi A (List.mem_of_mem_take hA)) a ha b hb, leftEnv_iso hp (fun A hA => hi A (List.mem_of_mem_take hA)) a ha a ha]
    exact ⟨fun e => if_neg e, by simp⟩
  · rcases Nat.lt_or_ge k ds.length with hk' | hk'
    · exact hr k hk' p hp
    · have e1 : As.drop k = [] := List.drop_eq_nil_of_le (by omega)
      have e2 : ds.drop k = [] := List.drop_eq_nil_of_le (by omega)
      rw [List.take_of_length_le (by omega), List.take_of_length_le (by omega)] at hp
      obtain rfl := chain_bond_unique h hp
      intro a ha b hb
      obtain rfl : a = 0 := by omega
      obtain rfl : b = 0 := by omega
      rw [e1, e2]
      simp [rightEnv_nil]

theorem diagEnvs_right {ds : List ℕ} {As : List (ND ℂ)} (h : MpsChain ds As 1 1) (hi : ∀ A ∈ As, RightIso A)
    (hl : ∀ m < ds.length, ∀ p, MpsChain (ds.take m) (As.take m) 1 p → RealDiag p (leftEnv (ds.take m) (As.take m)))
    (hone : (leftEnv ds As 0 0).im = 0) : DiagEnvs ds As := by
  have hlen := h.length_eq
  intro k hk p hp
  constructor
  · rcases Nat.lt_or_ge k ds.length with hk' | hk'
    · exact hl k hk' p hp
    · rw [List.take_of_length_le (by omega), List.take_of_length_le (by omega)] at hp ⊢
      obtain rfl := chain_bond_unique h hp
      intro a ha b hb
      obtain rfl : a = 0 := by omega
      obtain rfl : b = 0 := by omega
      exact ⟨fun e => absurd rfl e, hone⟩
  · obtain ⟨p', h1, h2⟩ := chain_cut h k
    obtain rfl := chain_bond_unique h1 hp
    intro a ha b hb
    rw [rightEnv_iso h2 (fun A hA => hi A (List.mem_of_mem_drop hA)) a ha b hb,
      rightEnv_iso h2 (fun A hA => hi A (List.mem_of_mem_drop hA)) a ha a ha]
    exact ⟨fun e => if_neg e, by simp⟩

/-- the two-site expectation values of the normalised state, per site -/
noncomputable def Spec.energyPerSite (ds : List ℕ) (As : List (ND ℂ)) (d : ℕ) (H : List (ND ℂ)) : ℝ :=
  (∑ m ∈ range H.length, (opExpect ds As m 2 (matElem [d, d] (H.getD m (onesND []))) / braket ds As As).re) / ds.length

/-- **C55** after `left_canonicalise()` or `right_canonicalise()` the environments are diagonal, and `energy(H)` is the expectation value
of `Σ_m H[m]` in the state the object held before, divided by its norm and by the number of sites. -/
theorem FMPS.energy_leftCanonicalise {svd : Svd} {eig : Eig} (hsvd : SVDLaw svd) (heig : EigOrthoLaw eig) (O : SetOrder) {x : FMPS ℂ} {d L : ℕ}
    (hx : x.Holds (List.replicate L d)) (hp : PosDims x.data) (hnz : ∃ s, InB (List.replicate L d) s ∧ psi x.data s ≠ 0)
    {H : List (ND ℂ)} (hL : H.length < L) (hH : ∀ h ∈ H, h.shape = [d * d, d * d]) :
    ∃ y Ls, x.leftCanonicalise svd eig none = .ok (y, some Ls) ∧ DiagEnvs (List.replicate L d) y.data ∧
      y.energy O H = .ok (energyPerSite (List.replicate L d) x.data d H) := by
  obtain ⟨y, Ls, R, z, e, hy, -, hi, hb, -, -, -, hz, hov, hpsi, -, hm, -⟩ := FMPS.leftCanonicalise_spec hsvd heig hx
    (by intro t ht; rw [hx.d]; exact replicate_headI ht) hp none (by simp) (fun _ => hnz)
  have hlen := hy.chain.length_eq
  have hde : DiagEnvs (List.replicate L d) y.data := by
    refine diagEnvs_left hy.chain hi ?_
    intro m hm' p hp'
    obtain ⟨-, lam, -, -, -, h1, h2⟩ := hm m hm'.le
    have hpl : p = lam.length := by
      rw [← h1 _ (pyGet_ok (by omega))]
      obtain ⟨q, c1, c2⟩ := chain_cut hy.chain m
      obtain rfl := chain_bond_unique c1 hp'
      rw [List.drop_eq_getElem_cons hm', List.drop_eq_getElem_cons (show m < y.data.length by omega)] at c2
      obtain ⟨r, c3, -⟩ := c2
      rw [dim1 c3]
    subst hpl
    intro a ha b hb
    rw [h2 a ha b hb, h2 a ha a ha]
    exact ⟨fun e => if_neg e, by simp⟩
  have hray : SameRay (List.replicate L d) x.data y.data := by
    refine ⟨z * R.val [0, 0], ?_, hpsi rfl⟩
    intro h0
    obtain ⟨s, hs, hne⟩ := hnz
    exact hne (by rw [hpsi rfl s hs, h0, zero_mul])
  refine ⟨y, Ls, e, hde, ?_⟩
  rw [FMPS.energy_diag_partial O hy hde hL hH]
  unfold energyPerSite
  congr 2
  · refine Finset.sum_congr rfl fun m hm => ?_
    have hm' := Finset.mem_range.1 hm
    rw [hray.opExpect (by rw [List.length_replicate]; omega) hb]
  · simp

/-- **C55** the same after `right_canonicalise()`. -/
theorem FMPS.energy_rightCanonicalise {svd : Svd} {eig : Eig} (hsvd : SVDLaw svd) (heig : EigOrthoLaw eig) (O : SetOrder) {x : FMPS ℂ} {d L : ℕ}
    (hx : x.Holds (List.replicate L d)) (hp : PosDims x.data) (hnz : ∃ s, InB (List.replicate L d) s ∧ psi x.data s ≠ 0)
    {H : List (ND ℂ)} (hL : H.length < L) (hH : ∀ h ∈ H, h.shape = [d * d, d * d]) :
    ∃ y Ls, x.rightCanonicalise svd eig none = .ok (y, some Ls) ∧ DiagEnvs (List.replicate L d) y.data ∧
      y.energy O H = .ok (energyPerSite (List.replicate L d) x.data d H) := by
  obtain ⟨y, Ls, e, hy, -, hi, hb, -, hpsi, -, hm, -⟩ := FMPS.rightCanonicalise_spec hsvd heig hx
    (by intro t ht; rw [hx.d]; exact replicate_headI ht) hp none (by simp) (fun _ => hnz)
  have hlen := hy.chain.length_eq
  have hde : DiagEnvs (List.replicate L d) y.data := by
    refine diagEnvs_right hy.chain hi ?_ ?_
    · intro m hm' p hp'
      obtain ⟨-, lam, -, -, -, h1, h2⟩ := hm m hm'.le
      have hpl : p = lam.length := by
        rw [← h1 _ (pyGet_ok (by omega))]
        obtain ⟨q, c1, c2⟩ := chain_cut hy.chain m
        obtain rfl := chain_bond_unique c1 hp'
        rw [List.drop_eq_getElem_cons hm', List.drop_eq_getElem_cons (show m < y.data.length by omega)] at c2
        obtain ⟨r, c3, -⟩ := c2
        rw [dim1 c3]
      subst hpl
      intro a ha b hb
      rw [h2 a ha b hb, h2 a ha a ha]
      exact ⟨fun e => if_neg e, by simp⟩
    · have := leftEnv_star (List.replicate L d) y.data 0 0
      exact Complex.conj_eq_iff_im.1 this
  obtain ⟨c, hc, hpsi⟩ := hpsi rfl
  have hray : SameRay (List.replicate L d) x.data y.data := ⟨c, hc, hpsi⟩
  refine ⟨y, Ls, e, hde, ?_⟩
  rw [FMPS.energy_diag_partial O hy hde hL hH]
  unfold energyPerSite
  congr 2
  · refine Finset.sum_congr rfl fun m hm => ?_
    have hm' := Finset.mem_range.1 hm
    rw [hray.opExpect (by rw [List.length_replicate]; omega) hb]
  · simp

/-! ### without diagonal environments -/

/-- the state |000⟩ with a bond that carries a superposition -/
noncomputable def exBond : FMPS ℂ :=
  { data := [⟨[2, 1, 1], fun | [0, 0, 0] => 1 | _ => 0⟩, ⟨[2, 1, 2], fun | 0 :: _ => 1 | _ => 0⟩,
      ⟨[2, 2, 1], fun | 0 :: _ => 1 / 2 | _ => 0⟩], L := 3, d := 2, D := 2 }

theorem exBond_holds : exBond.Holds (List.replicate 3 2) := ⟨⟨1, rfl, 2, rfl, 1, rfl, rfl⟩, by simp, rfl, rfl⟩

theorem exBond_psi (s t u : ℕ) : psi exBond.data [s, t, u] = if s = 0 ∧ t = 0 ∧ u = 0 then 1 else 0 := by
  simp only [exBond, psi]
  match s, t, u with
  | 0, 0, 0 => simp [pathProd, ND.dim]
  | 0, 0, u + 1 => simp [pathProd, ND.dim]
  | 0, t + 1, _ => simp [pathProd, ND.dim]
  | s + 1, _, _ => simp [pathProd, ND.dim]

theorem exBond_envs : ∃ ls rs r1, exBond.getEnvs = .ok (ls, rs) ∧ FMPS.envAt rs 1 = .ok r1 ∧ r1.shape = [2, 2] ∧
    (∀ a b, r1.val [a, b] = if a = b then 1 / 4 else 0) ∧ ∃ l, FMPS.envAt ls (-1) = .ok l ∧ l = onesND [1, 1] := by
  obtain ⟨l0, e0, s0, -⟩ := leftEnvStep_ok (A := ⟨[2, 1, 1], fun | [0, 0, 0] => 1 | _ => 0⟩) (l := onesND [1, 1]) (d := 2) (m := 1) (n := 1) rfl rfl
  obtain ⟨l1, e1, s1, -⟩ := leftEnvStep_ok (A := ⟨[2, 1, 2], fun | 0 :: _ => 1 | _ => 0⟩) (l := l0) (d := 2) (m := 1) (n := 2) rfl s0
  obtain ⟨l2, e2, s2, -⟩ := leftEnvStep_ok (A := ⟨[2, 2, 1], fun | 0 :: _ => 1 / 2 | _ => 0⟩) (l := l1) (d := 2) (m := 2) (n := 1) rfl s1
  obtain ⟨r2, f2, t2, v2⟩ := rightEnvStep_ok (A := ⟨[2, 2, 1], fun | 0 :: _ => 1 / 2 | _ => 0⟩) (r := onesND [1, 1]) (d := 2) (m := 2) (n := 1) rfl rfl
  obtain ⟨r1, f1, t1, -⟩ := rightEnvStep_ok (A := ⟨[2, 1, 2], fun | 0 :: _ => 1 | _ => 0⟩) (r := r2) (d := 2) (m := 1) (n := 2) rfl t2
  obtain ⟨r0, f0, t0, -⟩ := rightEnvStep_ok (A := ⟨[2, 1, 1], fun | [0, 0, 0] => 1 | _ => 0⟩) (r := r1) (d := 2) (m := 1) (n := 1) rfl t1
  refine ⟨[onesND [1, 1], l0, l1, l2], [r0, r1, r2, onesND [1, 1]], r2, ?_, rfl, t2, ?_, _, rfl, rfl⟩
  · unfold FMPS.getEnvs exBond
    simp only [FMPS.leftEnvs, FMPS.rightEnvs, e0, e1, e2, f0, f1, f2, ok_bind, pyGet_cons_zero]
  · intro a b
    rw [v2]
    by_cases h : a = b
    · rw [if_pos h, if_pos h]
      simp [onesND, Finset.sum_range_succ]
      norm_num
    · rw [if_neg h, if_neg h]

/-- **C41 fails for `get_envs`**: the environment of the last site has an off-diagonal entry 1/4, the code returns 0. -/
theorem FMPS.getEnvs_loses : ∃ ls rs r, exBond.getEnvs = .ok (ls, rs) ∧ FMPS.envAt rs 1 = .ok r ∧ r.val [0, 1] = 0 ∧
    rightEnv [2] (exBond.data.drop 2) 0 1 = 1 / 4 := by
  obtain ⟨ls, rs, r, e, er, -, hv, -⟩ := exBond_envs
  refine ⟨ls, rs, r, e, er, by rw [hv]; simp, ?_⟩
  simp only [exBond, List.drop_succ_cons, List.drop_zero]
  rw [rightEnv_cons (d := 2) (l := 2) (m := 1) rfl]
  simp [rightEnv_nil, Finset.sum_range_succ, map_ofNat]
  norm_num

/-- **C55 fails for a state that has not been canonicalised**: the state is |000⟩ with norm 1, the expectation value of the identity on the first two
sites is 1, so the result should be 1/3; it is 1/6. -/
theorem FMPS.energy_wrong (O : SetOrder) : braket (List.replicate 3 2) exBond.data exBond.data = 1 ∧
    energyPerSite (List.replicate 3 2) exBond.data 2 [eyeND 4] = 1 / 3 ∧ exBond.energy O [eyeND 4] = .ok (1 / 6) := by
  obtain ⟨ls, rs, r, e, er, hr, hv, l, el, hl⟩ := exBond_envs
  have hb : braket (List.replicate 3 2) exBond.data exBond.data = 1 := by
    unfold braket
    simp only [List.replicate, sumIdx_cons, sumIdx_nil, Finset.sum_range_succ, Finset.sum_range_zero, zero_add, exBond_psi]
    simp
  refine ⟨hb, ?_, ?_⟩
  · unfold energyPerSite
    rw [hb]
    simp only [List.length_cons, List.length_nil, Finset.sum_range_succ, Finset.sum_range_zero, zero_add, opExpect,
      List.replicate, sumIdx_cons, sumIdx_nil, List.drop_zero, List.take_succ_cons, List.take_zero, List.nil_append, List.cons_append,
      List.drop_succ_cons, exBond_psi, matElem]
    simp [eyeND]
  · unfold FMPS.energy
    rw [e, ok_bind]
    simp only [List.zipIdx_cons, List.zipIdx_nil, List.mapM_cons, List.mapM_nil]
    rw [energyTerm_ok O (d := 2) (m := 0) (p := 1) (q := 1) (n := 2) (A := ⟨[2, 1, 1], fun | [0, 0, 0] => 1 | _ => 0⟩)
      (B := ⟨[2, 1, 2], fun | 0 :: _ => 1 | _ => 0⟩) (l := l) (r := r) rfl rfl rfl rfl rfl rfl (by simpa using el) (by simpa using er)
      (by rw [hl]; rfl) hr (by simp [hl, onesND]) (by
        intro a _ b _
        rw [hv, hv]
        by_cases h : a = b
        · simp [h]
        · rw [if_neg h, if_neg (Ne.symm h)]; simp)]
    simp [hl, hv, onesND, eyeND, Finset.sum_range_succ]
    norm_num [exBond]

/-! ### the hypotheses can be met -/

/-- a product state has diagonal environments -/
theorem exProd_diag : DiagEnvs (List.replicate 2 2) exProd.data := by
  have hone : ∀ (f : ℕ → ℕ → ℂ), star (f 0 0) = f 0 0 → RealDiag 1 f := by
    intro f hf a ha b hb
    obtain rfl : a = 0 := by omega
    obtain rfl : b = 0 := by omega
    exact ⟨fun e => absurd rfl e, Complex.conj_eq_iff_im.1 hf⟩
  intro k hk p hp
  have : p = 1 := by
    match k, hk with
    | 0, _ => exact (chain_bond_unique hp rfl)
    | 1, _ => exact (chain_bond_unique hp ⟨1, rfl, rfl⟩)
    | 2, _ => exact (chain_bond_unique hp ⟨1, rfl, 1, rfl, rfl⟩)
  subst this
  exact ⟨hone _ (leftEnv_star _ _ _ _), hone _ (rightEnv_star _ _ _ _)⟩

example := FMPS.getEnvs_diag_partial exProd_holds exProd_diag
example (O : SetOrder) := FMPS.energy_diag_partial O (d := 2) (L := 2) exProd_holds exProd_diag (H := [eyeND 4]) (by simp) (by simp [eyeND])
example {svd : Svd} {eig : Eig} (hsvd : SVDLaw svd) (heig : EigOrthoLaw eig) (O : SetOrder) := FMPS.energy_leftCanonicalise hsvd heig O
  (exTwo_holds 2) (exTwo_pos 2) exTwo_nonzero (H := [eyeND 4]) (by simp) (by simp [eyeND])
example {svd : Svd} {eig : Eig} (hsvd : SVDLaw svd) (heig : EigOrthoLaw eig) (O : SetOrder) := FMPS.energy_rightCanonicalise hsvd heig O
  (exTwo_holds 2) (exTwo_pos 2) exTwo_nonzero (H := [eyeND 4]) (by simp) (by simp [eyeND])

end Xmps
