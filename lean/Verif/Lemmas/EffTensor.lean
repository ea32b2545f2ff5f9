import Verif.Lemmas.MpoEnv
import Verif.Model.ProjFmpo
import Verif.Lemmas.CanonBack

/-!
# The contractions of `effH`
-/

namespace Xmps.ProjMpo

open Finset Xmps.Spec

variable {d m n p q : ℕ}

theorem td_r1 {a L : ND ℂ} (ha : a.shape = [d, m, n]) (hL : L.shape = [p, m, m]) : ∃ x, a.hc.tensordot L [2] [1] = .ok x ∧ x.shape = [d, n, p, m] ∧
    ∀ s b' k c, x.val [s, b', k, c] = ∑ a' ∈ range m, star (a.val [s, a', b']) * L.val [k, a', c] := by
  obtain ⟨c1, c2⟩ := hc3 ha
  refine ⟨a.hc.tensordotR L [2] [1], by simp [ND.tensordot, ND.rank, ND.dim, c1, hL], ?_, fun s b' k c => ?_⟩ <;>
  simp [ND.tensordotR, ND.transposeR, ND.rank, ND.others, ND.dim, c1, hL, List.range_succ, c2]

theorem td_r2 {x w : ND ℂ} (hx : x.shape = [d, n, p, m]) (hw : w.shape = [d, d, p, q]) : ∃ y, x.tensordot w [0, 2] [0, 2] = .ok y ∧ y.shape = [n, m, d, q] ∧
    ∀ b' c t l, y.val [b', c, t, l] = ∑ s ∈ range d, ∑ k ∈ range p, x.val [s, b', k, c] * w.val [s, t, k, l] := by
  refine ⟨x.tensordotR w [0, 2] [0, 2], by simp [ND.tensordot, ND.rank, ND.dim, hx, hw], ?_, fun b' c t l => ?_⟩ <;>
  simp [ND.tensordotR, ND.transposeR, ND.rank, ND.others, ND.dim, hx, hw, List.range_succ, sumIdx]

theorem td_r3 {y a : ND ℂ} (hy : y.shape = [n, m, d, q]) (ha : a.shape = [d, m, n]) : ∃ z, y.tensordot a [2, 1] [0, 1] = .ok z ∧ z.shape = [n, q, n] ∧
    ∀ b' l b, z.val [b', l, b] = ∑ t ∈ range d, ∑ c ∈ range m, y.val [b', c, t, l] * a.val [t, c, b] := by
  refine ⟨y.tensordotR a [2, 1] [0, 1], by simp [ND.tensordot, ND.rank, ND.dim, hy, ha], ?_, fun b' c t => ?_⟩ <;>
  simp [ND.tensordotR, ND.transposeR, ND.rank, ND.others, ND.dim, hy, ha, List.range_succ, sumIdx]

theorem tr_102 {z : ND ℂ} {e f g : ℕ} (hz : z.shape = [e, f, g]) : ∃ X, z.transpose [1, 0, 2] = .ok X ∧ X.shape = [f, e, g] ∧
    ∀ i j k, X.val [i, j, k] = z.val [j, i, k] := by
  refine ⟨z.transposeR [1, 0, 2], by simp [ND.transpose, ND.isPerm, ND.rank, hz], ?_, fun i j k => ?_⟩ <;>
  simp [ND.transposeR, ND.rank, ND.dim, hz, List.range_succ]

theorem td_l1 {a R : ND ℂ} (ha : a.shape = [d, m, n]) (hR : R.shape = [q, n, n]) : ∃ x, R.tensordot a.hc [2] [1] = .ok x ∧ x.shape = [q, n, d, m] ∧
    ∀ l c s a', x.val [l, c, s, a'] = ∑ b' ∈ range n, R.val [l, c, b'] * star (a.val [s, a', b']) := by
  obtain ⟨c1, c2⟩ := hc3 ha
  refine ⟨R.tensordotR a.hc [2] [1], by simp [ND.tensordot, ND.rank, ND.dim, c1, hR], ?_, fun s b' k c => ?_⟩ <;>
  simp [ND.tensordotR, ND.transposeR, ND.rank, ND.others, ND.dim, c1, hR, List.range_succ, c2]

theorem td_l2 {x w : ND ℂ} (hx : x.shape = [q, n, d, m]) (hw : w.shape = [d, d, p, q]) : ∃ y, w.tensordot x [0, 3] [2, 0] = .ok y ∧ y.shape = [d, p, n, m] ∧
    ∀ t k c a', y.val [t, k, c, a'] = ∑ s ∈ range d, ∑ l ∈ range q, w.val [s, t, k, l] * x.val [l, c, s, a'] := by
  refine ⟨w.tensordotR x [0, 3] [2, 0], by simp [ND.tensordot, ND.rank, ND.dim, hx, hw], ?_, fun b' c t l => ?_⟩ <;>
  simp [ND.tensordotR, ND.transposeR, ND.rank, ND.others, ND.dim, hx, hw, List.range_succ, sumIdx]

theorem td_l3 {y a : ND ℂ} (hy : y.shape = [d, p, n, m]) (ha : a.shape = [d, m, n]) : ∃ z, a.tensordot y [0, 2] [0, 2] = .ok z ∧ z.shape = [m, p, m] ∧
    ∀ e k a', z.val [e, k, a'] = ∑ t ∈ range d, ∑ c ∈ range n, a.val [t, e, c] * y.val [t, k, c, a'] := by
  refine ⟨a.tensordotR y [0, 2] [0, 2], by simp [ND.tensordot, ND.rank, ND.dim, hy, ha], ?_, fun b' c t => ?_⟩ <;>
  simp [ND.tensordotR, ND.transposeR, ND.rank, ND.others, ND.dim, hy, ha, List.range_succ, sumIdx]

theorem td_m1 {x R : ND ℂ} (hx : x.shape = [d, m, n]) (hR : R.shape = [q, n, n]) : ∃ y, R.tensordot x [2] [2] = .ok y ∧ y.shape = [q, n, d, m] ∧
    ∀ l b' i a, y.val [l, b', i, a] = ∑ b ∈ range n, R.val [l, b', b] * x.val [i, a, b] := by
  refine ⟨R.tensordotR x [2] [2], by simp [ND.tensordot, ND.rank, ND.dim, hx, hR], ?_, fun s b' k c => ?_⟩ <;>
  simp [ND.tensordotR, ND.transposeR, ND.rank, ND.others, ND.dim, hx, hR, List.range_succ]

theorem td_m2 {x w : ND ℂ} (hx : x.shape = [q, n, d, m]) (hw : w.shape = [d, d, p, q]) : ∃ y, w.tensordot x [1, 3] [2, 0] = .ok y ∧ y.shape = [d, p, n, m] ∧
    ∀ s k b' a, y.val [s, k, b', a] = ∑ i ∈ range d, ∑ l ∈ range q, w.val [s, i, k, l] * x.val [l, b', i, a] := by
  refine ⟨w.tensordotR x [1, 3] [2, 0], by simp [ND.tensordot, ND.rank, ND.dim, hx, hw], ?_, fun b' c t l => ?_⟩ <;>
  simp [ND.tensordotR, ND.transposeR, ND.rank, ND.others, ND.dim, hx, hw, List.range_succ, sumIdx]

theorem td_m3 {y L : ND ℂ} (hy : y.shape = [d, p, n, m]) (hL : L.shape = [p, m, m]) : ∃ z, L.tensordot y [0, 2] [1, 3] = .ok z ∧ z.shape = [m, d, n] ∧
    ∀ a' s b', z.val [a', s, b'] = ∑ k ∈ range p, ∑ a ∈ range m, L.val [k, a', a] * y.val [s, k, b', a] := by
  refine ⟨L.tensordotR y [0, 2] [1, 3], by simp [ND.tensordot, ND.rank, ND.dim, hy, hL], ?_, fun b' c t => ?_⟩ <;>
  simp [ND.tensordotR, ND.transposeR, ND.rank, ND.others, ND.dim, hy, hL, List.range_succ, sumIdx]

theorem td_a1 {w R : ND ℂ} (hw : w.shape = [d, d, p, q]) (hR : R.shape = [q, n, n]) : ∃ y, w.tensordot R [3] [0] = .ok y ∧ y.shape = [d, d, p, n, n] ∧
    ∀ s t k b' b, y.val [s, t, k, b', b] = ∑ l ∈ range q, w.val [s, t, k, l] * R.val [l, b', b] := by
  refine ⟨w.tensordotR R [3] [0], by simp [ND.tensordot, ND.rank, ND.dim, hw, hR], ?_, fun s t k b' b => ?_⟩ <;>
  simp [ND.tensordotR, ND.transposeR, ND.rank, ND.others, ND.dim, hw, hR, List.range_succ]

theorem td_a2 {y L : ND ℂ} (hy : y.shape = [d, d, p, n, n]) (hL : L.shape = [p, m, m]) : ∃ z, L.tensordot y [0] [2] = .ok z ∧ z.shape = [m, m, d, d, n, n] ∧
    ∀ a' a s t b' b, z.val [a', a, s, t, b', b] = ∑ k ∈ range p, L.val [k, a', a] * y.val [s, t, k, b', b] := by
  refine ⟨L.tensordotR y [0] [2], by simp [ND.tensordot, ND.rank, ND.dim, hy, hL], ?_, fun a' a s t b' b => ?_⟩ <;>
  simp [ND.tensordotR, ND.transposeR, ND.rank, ND.others, ND.dim, hy, hL, List.range_succ]

theorem tr_a {z : ND ℂ} (hz : z.shape = [m, m, d, d, n, n]) : ∃ X, z.transpose [2, 0, 4, 3, 1, 5] = .ok X ∧ X.shape = [d, m, n, d, m, n] ∧
    ∀ s a' b' t a b, X.val [s, a', b', t, a, b] = z.val [a', a, s, t, b', b] := by
  refine ⟨z.transposeR [2, 0, 4, 3, 1, 5], by simp [ND.transpose, ND.isPerm, ND.rank, hz], ?_, fun s a' b' t a b => ?_⟩ <;>
  simp [ND.transposeR, ND.rank, ND.dim, hz, List.range_succ]

/-- one round of `env_right` -/
theorem envRight_val {a w L : ND ℂ} (ha : a.shape = [d, m, n]) (hw : w.shape = [d, d, p, q]) (hL : L.shape = [p, m, m]) {W A : List (ND ℂ)} {k : ℕ}
    (hA : pyGetI A ((k : ℤ) - 1) = .ok a) (hW : pyGetI W ((k : ℤ) - 1) = .ok w) :
    ∃ X, envRight W A L k = .ok X ∧ X.shape = [q, n, n] ∧ ∀ l b' b, X.val [l, b', b] =
        ∑ s ∈ range d, ∑ t ∈ range d, ∑ k ∈ range p, ∑ a' ∈ range m, ∑ c ∈ range m,
          star (a.val [s, a', b']) * w.val [s, t, k, l] * L.val [k, a', c] * a.val [t, c, b] := by
  obtain ⟨x, x1, x2, x3⟩ := td_r1 ha hL
  obtain ⟨y, y1, y2, y3⟩ := td_r2 x2 hw
  obtain ⟨z, z1, z2, z3⟩ := td_r3 y2 ha
  obtain ⟨X, e1, e2, e3⟩ := tr_102 z2
  refine ⟨X, by rw [envRight, hA, ok_bind, hW, ok_bind, x1, ok_bind, y1, ok_bind, z1, ok_bind, e1], e2, fun l b' b => ?_⟩
  rw [e3, z3]
  simp only [y3, x3, Finset.sum_mul]
  rw [Finset.sum_congr rfl fun t _ => Finset.sum_comm, Finset.sum_comm]
  refine Finset.sum_congr rfl fun s _ => Finset.sum_congr rfl fun t _ => ?_
  rw [Finset.sum_comm]
  refine Finset.sum_congr rfl fun k _ => ?_
  rw [Finset.sum_comm]
  exact Finset.sum_congr rfl fun a' _ => Finset.sum_congr rfl fun c _ => by ring

/-- one round of `env_left`: the ket index comes first -/
theorem envLeft_val {a w R : ND ℂ} (ha : a.shape = [d, m, n]) (hw : w.shape = [d, d, p, q]) (hR : R.shape = [q, n, n]) {W A : List (ND ℂ)} {k : ℕ}
    (hA : pyGetI A ((k : ℤ) - 1) = .ok a) (hW : pyGetI W ((k : ℤ) - 1) = .ok w) :
    ∃ X, envLeft W A R k = .ok X ∧ X.shape = [p, m, m] ∧ ∀ k e a', X.val [k, e, a'] =
        ∑ s ∈ range d, ∑ t ∈ range d, ∑ l ∈ range q, ∑ b' ∈ range n, ∑ b ∈ range n,
          star (a.val [s, a', b']) * w.val [s, t, k, l] * R.val [l, b, b'] * a.val [t, e, b] := by
  obtain ⟨x, x1, x2, x3⟩ := td_l1 ha hR
  obtain ⟨y, y1, y2, y3⟩ := td_l2 x2 hw
  obtain ⟨z, z1, z2, z3⟩ := td_l3 y2 ha
  obtain ⟨X, e1, e2, e3⟩ := tr_102 z2
  refine ⟨X, by rw [envLeft, hA, ok_bind, hW, ok_bind, x1, ok_bind, y1, ok_bind, z1, ok_bind, e1], e2, fun k e a' => ?_⟩
  rw [e3, z3]
  simp only [y3, x3, Finset.mul_sum]
  rw [Finset.sum_congr rfl fun t _ => Finset.sum_comm, Finset.sum_comm]
  refine Finset.sum_congr rfl fun s _ => Finset.sum_congr rfl fun t _ => ?_
  rw [Finset.sum_comm]
  refine Finset.sum_congr rfl fun k _ => ?_
  rw [Finset.sum_comm]
  exact Finset.sum_congr rfl fun a' _ => Finset.sum_congr rfl fun c _ => by ring

theorem getI_mid {α : Type} (xs ys : List α) (x : α) (k : ℕ) (hk : k = xs.length + 1) : pyGetI (xs ++ x :: ys) ((k : ℤ) - 1) = .ok x := by
  subst hk
  rw [pyGetI, if_pos (by push_cast; omega)]
  have : (((xs.length + 1 : ℕ) : ℤ) - 1).toNat = xs.length := by omega
  rw [this, pyGet_ok (by simp)]
  simp

/-- the left environment of the first sites -/
theorem leftEnvs_ok : ∀ (As1 : List (ND ℂ)) {As2 Ws1 Ws2 : List (ND ℂ)} {ds1 : List ℕ} {m p : ℕ}, MpsChain ds1 As1 1 m → OpChain ds1 Ws1 1 p →
    ∃ L xs, leftEnvs (Ws1 ++ Ws2) (As1 ++ As2) As1.length = .ok (L, xs) ∧ L.shape = [p, m, m] ∧
      ∀ k < p, ∀ a' < m, ∀ a < m, L.val [k, a', a] = opLeft ds1 As1 Ws1 k a' a := by
  intro As1
  induction As1 using List.reverseRecOn with
  | nil =>
    intro As2 Ws1 Ws2 ds1 m p h1 h2
    have e1 : ds1 = [] := List.eq_nil_of_length_eq_zero (by simpa using h1.length_eq.symm)
    subst e1
    have e2 : Ws1 = [] := List.eq_nil_of_length_eq_zero (by simpa using opChain_length h2)
    subst e2
    have e3 : 1 = m := h1
    have e4 : 1 = p := h2
    subst e3 e4
    refine ⟨one3, [], rfl, rfl, fun k hk a' ha' a ha => ?_⟩
    obtain rfl : k = 0 := by omega
    obtain rfl : a' = 0 := by omega
    obtain rfl : a = 0 := by omega
    simp [opLeft, one3, opAmp]
  | append_singleton As1 A ih =>
    intro As2 Ws1 Ws2 ds1 m p h1 h2
    have hl := h1.length_eq
    have hl2 := opChain_length h2
    rw [List.length_append, List.length_singleton] at hl
    obtain ⟨ds0, d, rfl⟩ : ∃ x y, ds1 = x ++ [y] := ⟨ds1.dropLast, ds1.getLast (by intro e; rw [e] at hl; simp at hl), (List.dropLast_append_getLast _).symm⟩
    obtain ⟨Ws0, w, rfl⟩ : ∃ x y, Ws1 = x ++ [y] :=
      ⟨Ws1.dropLast, Ws1.getLast (by intro e; rw [e] at hl2; simp at hl2), (List.dropLast_append_getLast _).symm⟩
    have g1 : As1.length = ds0.length := by simpa using hl
    have g2 : Ws0.length = ds0.length := by simpa using hl2
    obtain ⟨m0, c1, n1, hA, hn⟩ := (mpsChain_append g1).1 h1
    obtain ⟨p0, c2, n2, hw, hn2⟩ := (opChain_append g2).1 h2
    have hn : n1 = m := hn
    have hn2 : n2 = p := hn2
    subst hn hn2
    obtain ⟨L, xs, l1, l2, l3⟩ := ih (As2 := A :: As2) (Ws2 := w :: Ws2) c1 c2
    obtain ⟨X, e1, e2, e3⟩ := envRight_val hA hw l2 (getI_mid As1 As2 A (As1.length + 1) rfl) (getI_mid Ws0 Ws2 w (As1.length + 1) (by omega))
    refine ⟨X, L :: xs, ?_, e2, fun k hk a' ha' a ha => ?_⟩
    · rw [List.length_append, List.length_singleton, leftEnvs]
      simp only [List.append_assoc, List.singleton_append]
      rw [l1, ok_bind]
      simp only
      rw [e1, ok_bind]
    · rw [e3, opLeft_snoc c1 c2 hA hw k a' a hk ha' ha]
      refine Finset.sum_congr rfl fun s _ => Finset.sum_congr rfl fun t _ => Finset.sum_congr rfl fun k hk => Finset.sum_congr rfl fun a' ha' =>
        Finset.sum_congr rfl fun c hc => ?_
      rw [l3 k (mem_range.1 hk) a' (mem_range.1 ha') c (mem_range.1 hc)]

/-- the right environment of the last sites: **ket first** -/
theorem rightEnvs_ok : ∀ (As2 : List (ND ℂ)) {As1 Ws1 Ws2 : List (ND ℂ)} {ds2 : List ℕ} {n q : ℕ}, As1.length = Ws1.length → MpsChain ds2 As2 n 1 → OpChain ds2 Ws2 q 1 →
    ∃ R xs, rightEnvs (Ws1 ++ Ws2) (As1 ++ As2) As2.length = .ok (R, xs) ∧ R.shape = [q, n, n] ∧
      ∀ l < q, ∀ b < n, ∀ b' < n, R.val [l, b, b'] = opRight ds2 As2 Ws2 l b' b
  | [], As1, Ws1, Ws2, ds2, n, q, _, h1, h2 => by
    have e1 : ds2 = [] := List.eq_nil_of_length_eq_zero (by simpa using h1.length_eq.symm)
    subst e1
    have e2 : Ws2 = [] := List.eq_nil_of_length_eq_zero (by simpa using opChain_length h2)
    subst e2
    have e3 : n = 1 := h1
    have e4 : q = 1 := h2
    subst e3 e4
    refine ⟨one3, [], rfl, rfl, fun k hk a' ha' a ha => ?_⟩
    obtain rfl : k = 0 := by omega
    obtain rfl : a' = 0 := by omega
    obtain rfl : a = 0 := by omega
    simp [opRight, one3, opAmp]
  | A :: As2, As1, Ws1, Ws2, ds2, n, q, hl, h1, h2 => by
    have g1 := h1.length_eq
    have g2 := opChain_length h2
    match ds2, Ws2, h1, h2, g1, g2 with
    | d :: ds2, w :: Ws2, ⟨n1, hA, h1⟩, ⟨q1, hw, h2⟩, _, _ =>
      obtain ⟨R, xs, r1, r2, r3⟩ := rightEnvs_ok As2 (As1 := As1 ++ [A]) (Ws1 := Ws1 ++ [w]) (by simpa using hl) h1 h2
      simp only [List.append_assoc, List.singleton_append] at r1
      obtain ⟨X, e1, e2, e3⟩ := envLeft_val hA hw r2 (getI_mid As1 As2 A (As1.length + 1) rfl) (getI_mid Ws1 Ws2 w (As1.length + 1) (by omega))
      refine ⟨X, R :: xs, ?_, e2, fun k hk a' ha' a ha => ?_⟩
      · rw [List.length_cons, rightEnvs, r1, ok_bind]
        simp only
        have : (As1 ++ A :: As2).length - As2.length = As1.length + 1 := by simp; omega
        rw [this, e1, ok_bind]
      · rw [e3, opRight_cons hA hw]
        refine Finset.sum_congr rfl fun s _ => Finset.sum_congr rfl fun t _ => Finset.sum_congr rfl fun k hk => Finset.sum_congr rfl fun a' ha' =>
          Finset.sum_congr rfl fun c hc => ?_
        rw [r3 k (mem_range.1 hk) c (mem_range.1 hc) a' (mem_range.1 ha')]

end Xmps.ProjMpo
