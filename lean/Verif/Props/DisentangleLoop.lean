import Verif.Props.Disentangle
import Verif.Props.LapackExists

/-!
# Property C127: `renyi_2_disentangler`
-/

namespace Xmps.Disent

open Finset Xmps.Spec Xmps.Ncon

variable {O : SetOrder} {d1 d2 Xl Xr : ℕ} {psi : ND ℂ}

/-- a unitary matrix with both indices split -/
noncomputable def split4 (d1 d2 : ℕ) (U : ND ℂ) : ND ℂ := U.reshapeR [d1, d2, d1, d2]

theorem split4_val {U : ND ℂ} (hU : U.shape = [d1 * d2, d1 * d2]) {a b i j : ℕ} (ha : a < d1) (hb : b < d2) (hi : i < d1) (hj : j < d2) :
    (split4 d1 d2 U).val [a, b, i, j] = U.val [a * d2 + b, i * d2 + j] := by
  refine ND.reshapeR_val ?_ ?_
  · rw [hU]
    exact ⟨by nlinarith, by nlinarith, trivial⟩
  · rw [hU]
    simp only [ravel_cons, ravel_nil, List.prod_cons, List.prod_nil]
    ring

theorem flat_inj {a b a' b' n : ℕ} (hb : b < n) (hb' : b' < n) : a * n + b = a' * n + b' ↔ a = a' ∧ b = b' := by
  constructor
  · intro h
    have h1 : (a * n + b) % n = (a' * n + b') % n := by rw [h]
    rw [Nat.mul_comm a, Nat.mul_comm a', Nat.mul_add_mod, Nat.mul_add_mod, Nat.mod_eq_of_lt hb, Nat.mod_eq_of_lt hb'] at h1
    refine ⟨?_, h1⟩
    subst h1
    have : a * n = a' * n := by omega
    exact Nat.eq_of_mul_eq_mul_right (by omega) this
  · rintro ⟨rfl, rfl⟩
    rfl

theorem gate_of_unitary {U : ND ℂ} (hU : IsUnitary U (d1 * d2)) : Gate d1 d2 (split4 d1 d2 U) := by
  have c := hU.cols
  have r := hU.rows
  simp only [ColsOrtho, RowsOrtho, ND.dim, hU.shape, List.getD_cons_zero, List.getD_cons_succ] at c r
  have lt : ∀ {a b : ℕ}, a < d1 → b < d2 → a * d2 + b < d1 * d2 := fun ha hb => by nlinarith
  refine ⟨rfl, fun a ha b hb a' ha' b' hb' => ?_, fun i hi j hj i' hi' j' hj' => ?_⟩
  · rw [sum_congr rfl fun i hi => sum_congr rfl fun j hj => by
      rw [split4_val hU.shape ha hb (mem_range.1 hi) (mem_range.1 hj), split4_val hU.shape ha' hb' (mem_range.1 hi) (mem_range.1 hj)]]
    rw [← sum_range_mul d1 d2 (fun k => U.val [a * d2 + b, k] * star (U.val [a' * d2 + b', k])), r _ (lt ha hb) _ (lt ha' hb')]
    simp only [flat_inj hb hb']
  · rw [sum_congr rfl fun a ha => sum_congr rfl fun b hb => by
      rw [split4_val hU.shape (mem_range.1 ha) (mem_range.1 hb) hi hj, split4_val hU.shape (mem_range.1 ha) (mem_range.1 hb) hi' hj']]
    rw [← sum_range_mul d1 d2 (fun k => star (U.val [k, i * d2 + j]) * U.val [k, i' * d2 + j']), c _ (lt hi hj) _ (lt hi' hj')]
    simp only [flat_inj hj hj']

/-- the entropy of `psi` after the gate `U` given as a matrix -/
noncomputable def entropyOf (d1 d2 Xl Xr : ℕ) (psi U : ND ℂ) : ℝ := -Real.log (trSq d1 d2 Xl Xr (gated d1 d2 (split4 d1 d2 U) psi))

variable {polar qr : ND ℂ → Py (ND ℂ × ND ℂ)} {rnd : ℕ → ND ℂ}

theorem split4_ok {U : ND ℂ} (hU : U.shape = [d1 * d2, d1 * d2]) : U.reshape [d1, d2, d1, d2] = .ok (split4 d1 d2 U) :=
  ND.reshape_ok (by rw [hU]; simp [mul_assoc])

theorem polarStep_ok (hp : PolarLaw polar) (hs : psi.shape = [d1, d2, Xl, Xr]) (h1 : 0 < d1) (h2 : 0 < d2) {U : ND ℂ} (hU : IsUnitary U (d1 * d2)) :
    ∃ U', polarStep O polar psi U = .ok U' ∧ IsUnitary U' (d1 * d2) := by
  obtain ⟨E, e1, hE, -⟩ := E2_ok (U := split4 d1 d2 U) (θ := psi) O rfl hs
  obtain ⟨U', P, e2, s1, -, c, r, -⟩ := hp (E.reshapeR [d1 * d2, d1 * d2]) (d1 * d2) rfl (Nat.mul_pos h1 h2)
  have g0 : psi.dim 0 = d1 := by simp [ND.dim, hs]
  have g1 : psi.dim 1 = d2 := by simp [ND.dim, hs]
  refine ⟨U', ?_, s1, c, r⟩
  unfold polarStep
  rw [g0, g1, split4_ok hU.shape, ok_bind, e1, ok_bind, ND.reshape_ok (by rw [hE]; simp [mul_assoc]), ok_bind, e2]
  rfl

theorem innerRound_ok (hp : PolarLaw polar) (hs : psi.shape = [d1, d2, Xl, Xr]) (h1 : 0 < d1) (h2 : 0 < d2) (eps : ℝ) {s : St}
    (hU : IsUnitary s.U (d1 * d2)) : ∃ U', IsUnitary U' (d1 * d2) ∧ innerRound O polar psi eps s = .ok
      { U := U', Ss := s.Ss ++ [entropyOf d1 d2 Xl Xr psi U'], m := s.m + 1,
        go := newGo eps s.m s.go (s.Ss ++ [entropyOf d1 d2 Xl Xr psi U']), draws := s.draws } := by
  obtain ⟨U1, e1, u1⟩ := polarStep_ok (O := O) hp hs h1 h2 hU
  obtain ⟨U2, e2, u2⟩ := polarStep_ok (O := O) hp hs h1 h2 u1
  have g0 : psi.dim 0 = d1 := by simp [ND.dim, hs]
  have g1 : psi.dim 1 = d2 := by simp [ND.dim, hs]
  refine ⟨U2, u2, ?_⟩
  unfold innerRound
  rw [e1, ok_bind, e2, ok_bind, g0, g1, split4_ok u2.shape, ok_bind, renyi_value O (gate_of_unitary u2) hs, ok_bind]
  rfl

theorem restart_ok (hq : QRLaw qr) {n : ℕ} (hn : 0 < n) (hr : ∀ k, (rnd k).shape = [n, n]) (s : St) :
    ∃ Q, IsUnitary Q n ∧ restart qr rnd s = .ok { s with U := Q, m := 0, draws := s.draws + 1 } := by
  obtain ⟨Q, R, e, s1, -, c, -⟩ := hq (addHc (rnd s.draws)) n n (hr _) hn hn
  rw [Nat.min_self] at s1
  refine ⟨Q, ⟨s1, c, ColsOrtho.rows s1 hn c⟩, ?_⟩
  unfold restart
  rw [e]
  rfl

theorem eye_unitary (n : ℕ) : IsUnitary (eyeND n : ND ℂ) n := by
  refine ⟨rfl, ?_, ?_⟩
  · intro k hk k' hk'
    have hk : k < n := hk
    have : ∀ i ∈ range n, star ((eyeND n : ND ℂ).val [i, k]) * (eyeND n : ND ℂ).val [i, k'] = if i = k then (if k = k' then 1 else 0) else 0 := by
      intro i _
      by_cases h : i = k <;> simp [eyeND, h]
    show ∑ i ∈ range n, _ = _
    rw [sum_congr rfl this]
    simp [hk]
  · intro k hk k' hk'
    have hk : k < n := hk
    have : ∀ i ∈ range n, (eyeND n : ND ℂ).val [k, i] * star ((eyeND n : ND ℂ).val [k', i]) = if k = i then (if k = k' then 1 else 0) else 0 := by
      intro i _
      by_cases h : k = i
      · subst h
        by_cases h' : k' = k
        · simp [eyeND, h']
        · simp [eyeND, h', Ne.symm h']
      · simp [eyeND, h]
    show ∑ i ∈ range n, _ = _
    rw [sum_congr rfl this]
    simp [hk]

/-- While `go` cannot become false the loop goes on. -/
theorem loop_diverges (hp : PolarLaw polar) (hq : QRLaw qr) (hr : ∀ k, (rnd k).shape = [d1 * d2, d1 * d2]) (hs : psi.shape = [d1, d2, Xl, Xr])
    (h1 : 0 < d1) (h2 : 0 < d2) {eps : ℝ} {maxIter : ℕ} (h : maxIter ≤ 2 ∨ eps < 0) : ∀ (fuel : ℕ) (s : St), IsUnitary s.U (d1 * d2) → s.go = true →
      loop O polar qr rnd psi eps maxIter fuel s = .error .diverges
  | 0, _, _, _ => rfl
  | fuel + 1, s, hU, hg => by
    unfold loop
    by_cases hm : s.m < maxIter
    · rw [if_pos ⟨hm, hg⟩]
      obtain ⟨U', u', e⟩ := innerRound_ok (O := O) hp hs h1 h2 eps hU
      rw [e, ok_bind]
      refine loop_diverges hp hq hr hs h1 h2 h fuel _ u' ?_
      show newGo eps s.m s.go _ = true
      unfold newGo
      by_cases h' : s.m > 1
      · rcases h with h | h
        · omega
        · rw [if_pos h', decide_eq_true_iff]
          exact lt_of_lt_of_le h (abs_nonneg _)
      · rw [if_neg h', hg]
    · rw [if_neg (by tauto), if_pos hg]
      obtain ⟨Q, u', e⟩ := restart_ok hq (Nat.mul_pos h1 h2) hr s
      rw [e, ok_bind]
      exact loop_diverges hp hq hr hs h1 h2 h fuel _ u' hg

/-- **C127 fails**: with `max_iter` at most 2, or a negative `eps`, `renyi_2_disentangler` never returns, for every state and all outcomes of the random
numbers: the test that clears `go` is not reached. -/
theorem disentangler_diverges (hp : PolarLaw polar) (hq : QRLaw qr) (hr : ∀ k, (rnd k).shape = [d1 * d2, d1 * d2])
    (hs : psi.shape = [d1, d2, Xl, Xr]) (h1 : 0 < d1) (h2 : 0 < d2) {eps : ℝ} {maxIter : ℕ} (h : maxIter ≤ 2 ∨ eps < 0) (fuel : ℕ) :
    disentangler O polar qr rnd psi eps maxIter fuel = .error .diverges := by
  have g0 : psi.dim 0 = d1 := by simp [ND.dim, hs]
  have g1 : psi.dim 1 = d2 := by simp [ND.dim, hs]
  unfold disentangler
  rw [show (psi.shape.length == 4) = true by simp [hs], guardPy_true, ok_bind, g0, g1]
  exact loop_diverges hp hq hr hs h1 h2 h fuel _ (eye_unitary _) rfl

/-- what is known when the loop stops -/
structure Stopped (d1 d2 Xl Xr : ℕ) (psi : ND ℂ) (eps : ℝ) (U : ND ℂ) (Ss : List ℝ) : Prop where
  unitary : IsUnitary U (d1 * d2)
  long : 3 ≤ Ss.length
  last : Ss.getLast? = some (entropyOf d1 d2 Xl Xr psi U)
  close : |Ss.getD (Ss.length - 2) 0 - Ss.getD (Ss.length - 1) 0| ≤ eps
  each : ∀ S ∈ Ss, ∃ V, IsUnitary V (d1 * d2) ∧ S = entropyOf d1 d2 Xl Xr psi V

theorem loop_spec (hp : PolarLaw polar) (hq : QRLaw qr) (hr : ∀ k, (rnd k).shape = [d1 * d2, d1 * d2]) (hs : psi.shape = [d1, d2, Xl, Xr])
    (h1 : 0 < d1) (h2 : 0 < d2) {eps : ℝ} {maxIter : ℕ} : ∀ (fuel : ℕ) (s : St), IsUnitary s.U (d1 * d2) → s.m ≤ s.Ss.length →
      (∀ S ∈ s.Ss, ∃ V, IsUnitary V (d1 * d2) ∧ S = entropyOf d1 d2 Xl Xr psi V) → (s.go = false → Stopped d1 d2 Xl Xr psi eps s.U s.Ss) →
      loop O polar qr rnd psi eps maxIter fuel s = .error .diverges ∨
        ∃ U Ss, loop O polar qr rnd psi eps maxIter fuel s = .ok (U, Ss) ∧ Stopped d1 d2 Xl Xr psi eps U Ss
  | 0, _, _, _, _, _ => .inl rfl
  | fuel + 1, s, hU, hl, he, hst => by
    unfold loop
    by_cases hg : s.go = true
    · by_cases hm : s.m < maxIter
      · rw [if_pos ⟨hm, hg⟩]
        obtain ⟨U', u', e⟩ := innerRound_ok (O := O) hp hs h1 h2 eps hU
        rw [e, ok_bind]
        have he' : ∀ S ∈ s.Ss ++ [entropyOf d1 d2 Xl Xr psi U'], ∃ V, IsUnitary V (d1 * d2) ∧ S = entropyOf d1 d2 Xl Xr psi V := by
          intro S hS
          rcases List.mem_append.1 hS with h | h
          · exact he S h
          · exact ⟨U', u', by simpa using h⟩
        refine loop_spec hp hq hr hs h1 h2 fuel _ u' (by simpa using hl) he' ?_
        intro hgo
        have hgo : newGo eps s.m s.go (s.Ss ++ [entropyOf d1 d2 Xl Xr psi U']) = false := hgo
        unfold newGo at hgo
        by_cases h' : s.m > 1
        · rw [if_pos h', decide_eq_false_iff_not, not_lt] at hgo
          exact ⟨u', by simp; omega, by simp, hgo, he'⟩
        · rw [if_neg h', hg] at hgo
          exact absurd hgo (by decide)
      · rw [if_neg (by tauto), if_pos hg]
        obtain ⟨Q, u', e⟩ := restart_ok hq (Nat.mul_pos h1 h2) hr s
        rw [e, ok_bind]
        exact loop_spec hp hq hr hs h1 h2 fuel _ u' (Nat.zero_le _) he (fun h => absurd (h.symm.trans hg) (by decide))
    · rw [if_neg (by tauto), if_neg hg]
      exact .inr ⟨_, _, rfl, hst (by simpa using hg)⟩

/-- **C127**, the part that holds: `renyi_2_disentangler` never raises; if it returns `(U, Ss)` then `U` is unitary, the last entry of `Ss` is the entropy
after `U`, the last two entries differ by at most `eps`, there are at least three, and each is the entropy after some unitary. -/
theorem disentangler_partial (hp : PolarLaw polar) (hq : QRLaw qr) (hr : ∀ k, (rnd k).shape = [d1 * d2, d1 * d2])
    (hs : psi.shape = [d1, d2, Xl, Xr]) (h1 : 0 < d1) (h2 : 0 < d2) (eps : ℝ) (maxIter fuel : ℕ) :
    disentangler O polar qr rnd psi eps maxIter fuel = .error .diverges ∨
      ∃ U Ss, disentangler O polar qr rnd psi eps maxIter fuel = .ok (U, Ss) ∧ Stopped d1 d2 Xl Xr psi eps U Ss := by
  have g0 : psi.dim 0 = d1 := by simp [ND.dim, hs]
  have g1 : psi.dim 1 = d2 := by simp [ND.dim, hs]
  unfold disentangler
  rw [show (psi.shape.length == 4) = true by simp [hs], guardPy_true, ok_bind, g0, g1]
  exact loop_spec hp hq hr hs h1 h2 fuel _ (eye_unitary _) le_rfl (by simp) (fun h => absurd h (by simp))

end Xmps.Disent
