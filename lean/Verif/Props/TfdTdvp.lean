import Verif.Model.TfdTdvp
import Verif.Spec.TfdAct
import Verif.Props.TdvpExact

/-!
# C113: `fTFD.dA_dt`

The two matrices of `kron(eye, h) + kron(h, eye)` stand for the two sites the super class applies them to, not for the two copies on a site.
-/

namespace Xmps

open Spec Finset Xmps.Ncon

namespace TFD

variable {n : ℕ} {h : ND ℂ}

/-- the entries of `kron(eye, h) + kron(h, eye)` -/
theorem doubled_ok (hn : 0 < n) (hh : h.shape = [n, n]) : ∃ g, doubled h = .ok g ∧ g.shape = [n * n, n * n] ∧
    ∀ t u p q, u < n → q < n → g.val [t * n + u, p * n + q] =
      (if t = p then 1 else 0) * h.val [u, q] + h.val [t, p] * (if u = q then 1 else 0) := by
  refine ⟨_, by simp [doubled, ND.zipNd, kron, eyeND, ND.dim, hh]; rfl, by simp, ?_⟩
  intro t u p q hu hq
  have h1 : ∀ a b, b < n → (a * n + b) / n = a := fun a b hb => by
    rw [mul_comm, Nat.mul_add_div hn, Nat.div_eq_of_lt hb, add_zero]
  have h2 : ∀ a b, b < n → (a * n + b) % n = b := fun a b hb => by rw [mul_comm, Nat.mul_add_mod, Nat.mod_eq_of_lt hb]
  simp [h1, h2, hu, hq]

/-- on two neighbouring sites the matrix is `h` on the one plus `h` on the other -/
theorem doubled_gate {g : ND ℂ} (hg : ∀ t u p q, u < n → q < n → g.val [t * n + u, p * n + q] =
      (if t = p then 1 else 0) * h.val [u, q] + h.val [t, p] * (if u = q then 1 else 0)) {L m : ℕ} (hm : m + 1 < L) (f : List ℕ → ℂ) {s : List ℕ}
    (hs : InB (List.replicate L n) s) : gateAct n g m (m + 1) f s = siteAct n h m f s + siteAct n h (m + 1) f s := by
  have hl := hs.length_eq
  rw [List.length_replicate] at hl
  have hb : ∀ i, i < L → s.getD i 0 < n := by
    intro i hi
    exact InB.getD_lt hs (by simp [List.getElem?_replicate, hi])
  have e1 : s.set m (s.getD m 0) = s := by
    rw [List.getD_eq_getElem _ _ (by omega : m < s.length), List.set_getElem_self]
  have e2 : ∀ p, (s.set m p).set (m + 1) (s.getD (m + 1) 0) = s.set m p := by
    intro p
    rw [List.set_comm _ _ (by omega), List.getD_eq_getElem _ _ (by omega : m + 1 < s.length), List.set_getElem_self]
  have hq := hb (m + 1) hm
  have hp := hb m (by omega)
  unfold gateAct siteAct
  calc _ = ∑ p ∈ range n, ∑ q ∈ range n, ((if s.getD m 0 = p then h.val [s.getD (m + 1) 0, q] * f ((s.set m p).set (m + 1) q) else 0) +
        if s.getD (m + 1) 0 = q then h.val [s.getD m 0, p] * f ((s.set m p).set (m + 1) q) else 0) := by
        refine sum_congr rfl fun p _ => sum_congr rfl fun q hq' => ?_
        rw [hg _ _ _ _ hq (mem_range.1 hq')]
        split_ifs <;> ring
    _ = ∑ q ∈ range n, h.val [s.getD (m + 1) 0, q] * f ((s.set m (s.getD m 0)).set (m + 1) q) +
        ∑ p ∈ range n, h.val [s.getD m 0, p] * f ((s.set m p).set (m + 1) (s.getD (m + 1) 0)) := by
        simp only [sum_add_distrib]
        congr 1
        · rw [sum_comm]
          refine sum_congr rfl fun q _ => ?_
          rw [sum_ite_eq, if_pos (mem_range.2 hp)]
        · refine sum_congr rfl fun p _ => ?_
          rw [sum_ite_eq, if_pos (mem_range.2 hq)]
    _ = _ := by
        rw [e1, add_comm]
        simp only [e2]

/-- `h` on one site takes a matrix product state to a tangent vector -/
theorem doubled_tangent {g A B : ND ℂ} {p q r : ℕ} (hg : ∀ t u p q, u < n → q < n → g.val [t * n + u, p * n + q] =
      (if t = p then 1 else 0) * h.val [u, q] + h.val [t, p] * (if u = q then 1 else 0)) :
    TwoTangent n p q r A B (hAA n q g A B) := by
  refine ⟨⟨[n, q, r], fun idx => ∑ j ∈ range n, h.val [idx.getD 0 0, j] * B.val [j, idx.getD 1 0, idx.getD 2 0]⟩,
    ⟨[n, p, q], fun idx => ∑ j ∈ range n, h.val [idx.getD 0 0, j] * A.val [j, idx.getD 1 0, idx.getD 2 0]⟩, rfl, rfl, ?_⟩
  intro t ht u hu a _ b _
  simp only [List.getD_cons_zero, List.getD_cons_succ]
  unfold hAA
  calc _ = ∑ p1 ∈ range n, ∑ p2 ∈ range n, ((if t = p1 then h.val [u, p2] * ∑ k ∈ range q, A.val [p1, a, k] * B.val [p2, k, b] else 0) +
        if u = p2 then h.val [t, p1] * ∑ k ∈ range q, A.val [p1, a, k] * B.val [p2, k, b] else 0) := by
        refine sum_congr rfl fun p1 _ => sum_congr rfl fun p2 hp2 => ?_
        rw [hg _ _ _ _ hu (mem_range.1 hp2)]
        split_ifs <;> ring
    _ = ∑ p2 ∈ range n, h.val [u, p2] * ∑ k ∈ range q, A.val [t, a, k] * B.val [p2, k, b] +
        ∑ p1 ∈ range n, h.val [t, p1] * ∑ k ∈ range q, A.val [p1, a, k] * B.val [u, k, b] := by
        simp only [sum_add_distrib]
        congr 1
        · rw [sum_comm]
          refine sum_congr rfl fun q _ => ?_
          rw [sum_ite_eq, if_pos (mem_range.2 ht)]
        · refine sum_congr rfl fun p _ => ?_
          rw [sum_ite_eq, if_pos (mem_range.2 hu)]
    _ = _ := by
        simp only [mul_sum, sum_mul]
        congr 1
        · rw [sum_comm]
          exact sum_congr rfl fun _ _ => sum_congr rfl fun _ _ => by ring
        · rw [sum_comm]
          exact sum_congr rfl fun _ _ => sum_congr rfl fun _ _ => by ring

variable {chol inv null : ND ℂ → Py (ND ℂ)}

/-- **C113** `fTFD.dA_dt(H)` is exactly `-i (K - ⟨K⟩) ψ` where `K` has every matrix of `H` on each of two sites by itself: `Σ_m (h_m on the site m plus
h_m on the site m + 1)`.  No term couples two sites. -/
theorem dAdt_eq (hchol : CholTriLaw chol) (hinv : InvLaw inv) (hnull : NullLaw null) (O : SetOrder) {x : FMPS ℂ} {L : ℕ} {H : List (ND ℂ)}
    (hn : 0 < n) (hx : x.Holds (List.replicate L n)) (hf : FullEnvs (List.replicate L n) x.data) (hL : H.length < L) (hH : ∀ h ∈ H, h.shape = [n, n]) :
    ∃ y, dAdt chol inv null O x H = .ok y ∧ ∀ s, InB (List.replicate L n) s →
      tangentPsi x.data y.data s = -Complex.I * (sitesAct n H (psi x.data) s -
        pairing (List.replicate L n) (psi x.data) (sitesAct n H (psi x.data)) / pairing (List.replicate L n) (psi x.data) (psi x.data) * psi x.data s) := by
  have hex : ∀ h : ND ℂ, ∃ g, h ∈ H → doubled h = .ok g ∧ g.shape = [n * n, n * n] ∧
      ∀ t u p q, u < n → q < n → g.val [t * n + u, p * n + q] =
      (if t = p then 1 else 0) * h.val [u, q] + h.val [t, p] * (if u = q then 1 else 0) := by
    intro h
    by_cases hh : h ∈ H
    · obtain ⟨g, h1⟩ := doubled_ok hn (hH h hh)
      exact ⟨g, fun _ => h1⟩
    · exact ⟨h, fun h' => absurd h' hh⟩
  choose G hG using hex
  have hlen := hx.chain.length_eq
  rw [List.length_replicate] at hlen
  have hs4 : ∀ g ∈ H.map G, g.shape = [n * n, n * n] := by
    intro g hg
    obtain ⟨h, hh, rfl⟩ := List.mem_map.1 hg
    exact (hG h hh).2.1
  have hL' : (H.map G).length < L := by simpa using hL
  obtain ⟨y, e, -, -⟩ := FMPS.dAdt_gauge hchol hinv hnull O hn hx hf hL' hs4
  have hT : HamTangent L n (H.map G) x.data := by
    refine ham_tangent hx.chain hL' ?_
    intro m hm h1
    have hm' : m < H.length := by simpa using hm
    obtain ⟨p, q, -, sA, c2, -⟩ := chain_site hx.chain (i := m) (by omega)
    obtain ⟨q', r, c2', sB, -, -⟩ := chain_site hx.chain h1
    obtain rfl := chain_bond_unique c2 c2'
    refine ⟨p, q, r, by simpa using sA, by simpa using sB, ?_⟩
    rw [List.getElem_map]
    exact doubled_tangent (hG _ (List.getElem_mem hm')).2.2
  have ham : ∀ s, InB (List.replicate L n) s → hamAct n (H.map G) (psi x.data) s = sitesAct n H (psi x.data) s := by
    intro s hs
    unfold hamAct sitesAct
    rw [List.length_map]
    refine sum_congr rfl fun m hm => ?_
    have hm := mem_range.1 hm
    rw [List.getD_eq_getElem _ _ (by simpa using hm : m < (H.map G).length), List.getElem_map, List.getD_eq_getElem _ _ hm]
    exact doubled_gate (hG _ (List.getElem_mem hm)).2.2 (by omega) _ hs
  refine ⟨y, ?_, ?_⟩
  · unfold dAdt
    rw [mapM_ok (g := G) fun h hh => (hG h hh).1]
    exact e
  · intro s hs
    rw [(FMPS.dAdt_exact hchol hinv hnull O hn hx hf hL' hs4 e).2 hT s hs]
    unfold flowH meanH
    rw [ham s hs, pairing_congr (f' := psi x.data) (g' := sitesAct n H (psi x.data)) (fun _ _ => rfl) ham]

end TFD

/-! ### The double of `|00⟩` under `X ⊗ 1` -/

/-- `X` on the first of two sites -/
def exXI : ND ℂ := ⟨[4, 4], fun
  | [i, j] => if i = j + 2 ∨ j = i + 2 then 1 else 0
  | _ => 0⟩

/-- the thermofield double of `|00⟩` -/
def exTT : FMPS ℂ := ⟨[⟨[4, 1, 1], fun
  | [s, i, j] => exZZ.data[0].val [s / 2, i / 1, j / 1] * exZZ.data[0].val [s % 2, i % 1, j % 1]
  | idx => exZZ.data[0].val idx⟩, ⟨[4, 1, 1], fun
  | [s, i, j] => exZZ.data[0].val [s / 2, i / 1, j / 1] * exZZ.data[0].val [s % 2, i % 1, j % 1]
  | idx => exZZ.data[0].val idx⟩], 2, 4, 1, false, false, none, none⟩

theorem exTT_eq : TFD.fromFMPS exZZ = .ok exTT := rfl

theorem exTT_holds : exTT.Holds (List.replicate 2 4) := ⟨⟨1, rfl, 1, rfl, rfl⟩, by simp, rfl, rfl⟩

theorem exTT_full : FullEnvs (List.replicate 2 4) exTT.data := by
  intro k hk p hp
  have hone : p = 1 := by
    match k, hk with
    | 0, _ => exact chain_bond_unique hp rfl
    | 1, _ => exact chain_bond_unique hp ⟨1, rfl, rfl⟩
    | 2, _ => exact chain_bond_unique hp ⟨1, rfl, 1, rfl, rfl⟩
  subst hone
  refine ⟨fun _ => 1, fun _ => 1, by simp, ?_⟩
  intro a ha b hb
  obtain rfl : a = 0 := by omega
  obtain rfl : b = 0 := by omega
  match k, hk with
  | 0, _ => simp [leftEnv, rightEnv, exTT, exZZ, amp, ND.dim, Finset.sum_range_succ]
  | 1, _ => simp [leftEnv, rightEnv, exTT, exZZ, amp, ND.dim, Finset.sum_range_succ]
  | 2, _ => simp [leftEnv, rightEnv, exTT, exZZ, amp, ND.dim, Finset.sum_range_succ]

theorem exTT_psi {s t : ℕ} (hs : s < 4) (ht : t < 4) : psi exTT.data [s, t] = if s = 0 ∧ t = 0 then 1 else 0 := by
  interval_cases s <;> interval_cases t <;> simp [psi, exTT, exZZ, ND.dim, pathProd, sumIdx]

/-- **C113** the flow of `fTFD.dA_dt` is not that of `H` on both copies: for the double of `|00⟩` and `H = X ⊗ 1` both copies of the first site should
flip, `fTFD.dA_dt` flips the first copies of both sites. -/
theorem TFD.dAdt_wrong {chol inv null : ND ℂ → Py (ND ℂ)} (hchol : CholTriLaw chol) (hinv : InvLaw inv) (hnull : NullLaw null) (O : SetOrder) :
    ∃ x y, TFD.fromFMPS exZZ = .ok x ∧ TFD.dAdt chol inv null O x [exXI] = .ok y ∧
      tangentPsi x.data y.data (pairIdx [2, 2] [0, 1] [0, 0]) = -Complex.I ∧ copiesAct 2 [2, 2] [exXI] (psi x.data) [0, 1] [0, 0] = 0 ∧
      tangentPsi x.data y.data (pairIdx [2, 2] [0, 0] [1, 0]) = 0 ∧ copiesAct 2 [2, 2] [exXI] (psi x.data) [0, 0] [1, 0] = 1 := by
  obtain ⟨y, e, hy⟩ := TFD.dAdt_eq hchol hinv hnull O (n := 4) (L := 2) (H := [exXI]) (by omega) exTT_holds exTT_full (by simp) (by simp [exXI])
  have hK : ∀ s t, s < 4 → t < 4 → sitesAct 4 [exXI] (psi exTT.data) [s, t] =
      (if s = 2 ∧ t = 0 then 1 else 0) + if s = 0 ∧ t = 2 then 1 else 0 := by
    intro s t hs ht
    have h4 : ∀ p < 4, ∀ q < 4, psi exTT.data [p, q] = if p = 0 ∧ q = 0 then 1 else 0 := fun p hp q hq => exTT_psi hp hq
    simp only [sitesAct, siteAct, List.length_singleton, sum_range_succ, sum_range_zero, zero_add, List.getD_cons_zero, List.getD_cons_succ,
      List.set_cons_zero, List.set_cons_succ, h4 _ hs, h4 _ (by omega : (0 : ℕ) < 4), h4 _ (by omega : (1 : ℕ) < 4),
      h4 _ (by omega : (2 : ℕ) < 4), h4 _ (by omega : (3 : ℕ) < 4), ht, (by omega : (0 : ℕ) < 4), (by omega : (1 : ℕ) < 4), (by omega : (2 : ℕ) < 4),
      (by omega : (3 : ℕ) < 4)]
    interval_cases s <;> interval_cases t <;> simp [exXI]
  have h0 : pairing (List.replicate 2 4) (psi exTT.data) (sitesAct 4 [exXI] (psi exTT.data)) = 0 := by
    unfold pairing
    refine (sumIdx_congr fun s hs => ?_).trans (sumIdx_zero _)
    match s, hs with
    | [s, t], hs =>
      have hs' := hs.1
      have ht' := hs.2.1
      rw [hK s t hs' ht', exTT_psi hs' ht']
      by_cases h1 : s = 0 <;> by_cases h2 : t = 0 <;> simp [h1, h2]
  have hv : ∀ s t, s < 4 → t < 4 → tangentPsi exTT.data y.data [s, t] = -Complex.I * ((if s = 2 ∧ t = 0 then 1 else 0) + if s = 0 ∧ t = 2 then 1 else 0) := by
    intro s t hs ht
    rw [hy [s, t] ⟨hs, ht, trivial⟩, h0, hK s t hs ht, zero_div, zero_mul, sub_zero]
  refine ⟨exTT, y, exTT_eq, e, ?_, ?_, ?_, ?_⟩
  · simp [pairIdx, hv]
  · simp [copiesAct, hamAct, gateAct, sum_range_succ, pairIdx, exXI, exTT_psi]
  · simp [pairIdx, hv]
  · simp [copiesAct, hamAct, gateAct, sum_range_succ, pairIdx, exXI, exTT_psi]

/-- the laws can be met together -/
example (O : SetOrder) : ∃ chol inv null, CholTriLaw chol ∧ InvLaw inv ∧ NullLaw null ∧ ∃ y, TFD.dAdt chol inv null O exTT [exXI] = .ok y := by
  obtain ⟨chol, hchol⟩ := cholTriLaw_exists
  obtain ⟨inv, hinv⟩ := invLaw_exists
  obtain ⟨null, hnull⟩ := nullLaw_exists
  refine ⟨chol, inv, null, hchol, hinv, hnull, ?_⟩
  obtain ⟨y, e, -⟩ := TFD.dAdt_eq hchol hinv hnull O (n := 4) (L := 2) (H := [exXI]) (by omega) exTT_holds exTT_full (by simp) (by simp [exXI])
  exact ⟨y, e⟩

end Xmps
