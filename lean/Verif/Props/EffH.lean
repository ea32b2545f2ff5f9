import Verif.Lemmas.EffTensor
import Verif.Props.ProjFmpo
import Verif.Lemmas.TangentHam

/-!
# C111: `effH` of `projects/fMPO.py`
-/

namespace Xmps.ProjMpo

open Finset Xmps.Spec

/-- a chain of tensors and operators cut at one site -/
structure Cut (ds1 ds2 : List ℕ) (As1 As2 Ws1 Ws2 : List (ND ℂ)) (A W : ND ℂ) (d m n p q : ℕ) : Prop where
  left : MpsChain ds1 As1 1 m
  right : MpsChain ds2 As2 n 1
  opl : OpChain ds1 Ws1 1 p
  opr : OpChain ds2 Ws2 q 1
  site : A.shape = [d, m, n]
  op : W.shape = [d, d, p, q]

section
variable {ds1 ds2 : List ℕ} {As1 As2 Ws1 Ws2 : List (ND ℂ)} {A W : ND ℂ} {d m n p q : ℕ} (c : Cut ds1 ds2 As1 As2 Ws1 Ws2 A W d m n p q)
include c

theorem getEnvs_ok : ∃ e, getEnvs (Ws1 ++ W :: Ws2) (As1 ++ A :: As2) As1.length = .ok e ∧ pyGet e.W e.k = .ok W ∧ pyGet e.A e.k = .ok A ∧
    e.L.shape = [p, m, m] ∧ e.R.shape = [q, n, n] ∧ (∀ k < p, ∀ a' < m, ∀ a < m, e.L.val [k, a', a] = opLeft ds1 As1 Ws1 k a' a) ∧
    ∀ l < q, ∀ b < n, ∀ b' < n, e.R.val [l, b, b'] = opRight ds2 As2 Ws2 l b' b := by
  have hl : As1.length = Ws1.length := by rw [c.left.length_eq, opChain_length c.opl]
  obtain ⟨L, xs, l1, l2, l3⟩ := leftEnvs_ok As1 (As2 := A :: As2) (Ws2 := W :: Ws2) c.left c.opl
  obtain ⟨R, ys, r1, r2, r3⟩ := rightEnvs_ok As2 (As1 := As1 ++ [A]) (Ws1 := Ws1 ++ [W]) (by simpa using hl) c.right c.opr
  simp only [List.append_assoc, List.singleton_append] at r1
  have hA : pyGet (As1 ++ A :: As2) As1.length = .ok A := by rw [pyGet_ok (by simp)]; simp
  have hW : pyGet (Ws1 ++ W :: Ws2) As1.length = .ok W := by rw [pyGet_ok (by simp [hl])]; simp [hl]
  refine ⟨⟨Ws1 ++ W :: Ws2, As1 ++ A :: As2, As1.length, L, R⟩, ?_, hW, hA, l2, r2, l3, r3⟩
  have hN : (As1 ++ A :: As2).length - (As1.length + 1) = As2.length := by simp; omega
  rw [getEnvs, l1, ok_bind]
  simp only
  rw [hN, r1, ok_bind]
  simp only
  rw [hW, ok_bind, hA, ok_bind]

/-- **C111** the matrix of `effH`: the effective Hamiltonian, but with the right bond index of bra and ket exchanged -/
theorem asmatrix_spec : ∃ e M, getEnvs (Ws1 ++ W :: Ws2) (As1 ++ A :: As2) As1.length = .ok e ∧ e.asmatrix = .ok M ∧
    M.shape = [[d, m, n].prod, [d, m, n].prod] ∧ ∀ s < d, ∀ a' < m, ∀ b' < n, ∀ t < d, ∀ a < m, ∀ b < n,
      M.val [ravel [d, m, n] [s, a', b'], ravel [d, m, n] [t, a, b]] = effElemT ds1 ds2 As1 As2 (Ws1 ++ W :: Ws2) s a' b' t a b := by
  obtain ⟨e, e1, eW, _, eL, eR, vL, vR⟩ := getEnvs_ok c
  obtain ⟨y, y1, y2, y3⟩ := td_a1 c.op eR
  obtain ⟨z, z1, z2, z3⟩ := td_a2 y2 eL
  obtain ⟨X, x1, x2, x3⟩ := tr_a z2
  have hsz : X.size = [[d, m, n].prod, [d, m, n].prod].prod := by simp [ND.size, x2]; ring
  refine ⟨e, X.reshapeR [[d, m, n].prod, [d, m, n].prod], e1, ?_, rfl, ?_⟩
  · rw [EffH.asmatrix, eW, ok_bind, y1, ok_bind, z1, ok_bind, x1, ok_bind]
    have h3 : (X.shape.take 3).prod = [d, m, n].prod := by rw [x2]; rfl
    have h4 : (X.shape.drop 3).prod = [d, m, n].prod := by rw [x2]; rfl
    rw [h3, h4, ND.reshape, if_pos (by rw [hsz]; simp)]
  · intro s hs a' ha' b' hb' t ht a ha b hb
    have hin : InB [d, m, n, d, m, n] [s, a', b', t, a, b] := ⟨hs, ha', hb', ht, ha, hb, trivial⟩
    have hr : ravel [[d, m, n].prod, [d, m, n].prod] [ravel [d, m, n] [s, a', b'], ravel [d, m, n] [t, a, b]] =
        ravel [d, m, n, d, m, n] [s, a', b', t, a, b] := by
      have := ravel_append (s := [d, m, n]) (is := [s, a', b']) [d, m, n] [t, a, b] rfl
      refine Eq.trans ?_ this.symm
      rw [ravel_cons, ravel_cons]
      simp
    show X.val (unravel X.shape _) = _
    rw [hr, x2, unravel_ravel hin, x3, z3, effElemT, effElem_eq c.opl c.op]
    refine Finset.sum_congr rfl fun k hk => ?_
    rw [y3, Finset.mul_sum]
    refine Finset.sum_congr rfl fun l hl => ?_
    rw [vL k (mem_range.1 hk) a' ha' a ha, vR l (mem_range.1 hl) b' hb' b hb]
    ring

/-- **C111** `mv` applies the same operator, but its result has the axes (left bond, site, right bond) -/
theorem mv_spec {x : ND ℂ} (hx : x.shape = [[d, m, n].prod]) : ∃ e Y, getEnvs (Ws1 ++ W :: Ws2) (As1 ++ A :: As2) As1.length = .ok e ∧ e.mv x = .ok Y ∧
    Y.shape = [m, d, n] ∧ ∀ s < d, ∀ a' < m, ∀ b' < n, Y.val [a', s, b'] = ∑ t ∈ range d, ∑ a ∈ range m, ∑ b ∈ range n,
      effElemT ds1 ds2 As1 As2 (Ws1 ++ W :: Ws2) s a' b' t a b * x.val [ravel [d, m, n] [t, a, b]] := by
  obtain ⟨e, e1, eW, eA, eL, eR, vL, vR⟩ := getEnvs_ok c
  have hx' : (x.reshapeR [d, m, n]).shape = [d, m, n] := rfl
  obtain ⟨y, y1, y2, y3⟩ := td_m1 hx' eR
  obtain ⟨z, z1, z2, z3⟩ := td_m2 y2 c.op
  obtain ⟨X, x1, x2, x3⟩ := td_m3 z2 eL
  have hv : ∀ t a b, (x.reshapeR [d, m, n]).val [t, a, b] = x.val [ravel [d, m, n] [t, a, b]] := by
    intro t a b
    show x.val (unravel x.shape _) = _
    rw [hx]
    simp
  refine ⟨e, X, e1, ?_, x2, ?_⟩
  · rw [EffH.mv, eA, ok_bind, c.site, ND.reshape, if_pos (by simp [ND.size, hx]), ok_bind, eW, ok_bind]
    have r1 : e.R.rank - 1 = 2 := by simp [ND.rank, eR]
    have r2 : (x.reshapeR [d, m, n]).rank - 1 = 2 := by simp [ND.rank]
    rw [r1, r2, y1, ok_bind, z1, ok_bind, x1]
  · intro s hs a' ha' b' hb'
    rw [x3]
    simp only [z3, y3, hv]
    have : ∀ t ∈ range d, ∀ a ∈ range m, ∀ b ∈ range n,
        effElemT ds1 ds2 As1 As2 (Ws1 ++ W :: Ws2) s a' b' t a b * x.val [ravel [d, m, n] [t, a, b]] =
          ∑ k ∈ range p, ∑ l ∈ range q, e.L.val [k, a', a] * (W.val [s, t, k, l] * (e.R.val [l, b', b] * x.val [ravel [d, m, n] [t, a, b]])) := by
      intro t ht a ha b hb
      rw [effElemT, effElem_eq c.opl c.op, Finset.sum_mul]
      refine Finset.sum_congr rfl fun k hk => ?_
      rw [Finset.sum_mul]
      refine Finset.sum_congr rfl fun l hl => ?_
      rw [vL k (mem_range.1 hk) a' ha' a (mem_range.1 ha), vR l (mem_range.1 hl) b' hb' b (mem_range.1 hb)]
      ring
    rw [Finset.sum_congr rfl fun t ht => Finset.sum_congr rfl fun a ha => Finset.sum_congr rfl fun b hb => this t ht a ha b hb]
    simp only [Finset.mul_sum]
    symm
    rw [sum_swap3]
    refine Finset.sum_congr rfl fun k _ => ?_
    symm
    rw [Finset.sum_comm]
    refine Finset.sum_congr rfl fun t _ => ?_
    refine Finset.sum_congr rfl fun a _ => ?_
    rw [Finset.sum_comm]

end

/-- **C111** at the last site the matrix is the effective Hamiltonian -/
theorem asmatrix_last {ds1 : List ℕ} {As1 Ws1 : List (ND ℂ)} {A W : ND ℂ} {d m n p q : ℕ} (c : Cut ds1 [] As1 [] Ws1 [] A W d m n p q) :
    n = 1 ∧ ∃ e M, getEnvs (Ws1 ++ [W]) (As1 ++ [A]) As1.length = .ok e ∧ e.asmatrix = .ok M ∧
    ∀ s < d, ∀ a' < m, ∀ t < d, ∀ a < m,
      M.val [ravel [d, m, 1] [s, a', 0], ravel [d, m, 1] [t, a, 0]] = effElem ds1 [] As1 [] (Ws1 ++ [W]) s a' 0 t a 0 := by
  have hn : n = 1 := c.right
  subst hn
  obtain ⟨e, M, h1, h2, _, h4⟩ := asmatrix_spec c
  exact ⟨rfl, e, M, h1, h2, fun s hs a' ha' t ht a ha => h4 s hs a' ha' 0 (by omega) t ht a ha 0 (by omega)⟩

/-- **C111** at the first site `mv` is the product with the matrix -/
theorem mv_first {ds2 : List ℕ} {As2 Ws2 : List (ND ℂ)} {A W : ND ℂ} {d m n p q : ℕ} (c : Cut [] ds2 [] As2 [] Ws2 A W d m n p q)
    {x : ND ℂ} (hx : x.shape = [[d, m, n].prod]) : ∃ e M Y, getEnvs (W :: Ws2) (A :: As2) 0 = .ok e ∧ e.asmatrix = .ok M ∧ e.mv x = .ok Y ∧
      Y.size = [d, m, n].prod ∧ ∀ s < d, ∀ b' < n, Y.val (unravel Y.shape (ravel [d, m, n] [s, 0, b'])) = ∑ t ∈ range d, ∑ a ∈ range m, ∑ b ∈ range n,
        M.val [ravel [d, m, n] [s, 0, b'], ravel [d, m, n] [t, a, b]] * x.val [ravel [d, m, n] [t, a, b]] := by
  have hm : 1 = m := c.left
  subst hm
  obtain ⟨e, M, h1, h2, _, h4⟩ := asmatrix_spec c
  obtain ⟨e', Y, g1, g2, g3, g4⟩ := mv_spec c hx
  simp only [List.nil_append, List.length_nil] at h1 g1 h4 g4
  rw [h1] at g1
  cases g1
  refine ⟨e, M, Y, h1, h2, g2, by simp [ND.size, g3], fun s hs b' hb' => ?_⟩
  have hr : ravel [d, 1, n] [s, 0, b'] = ravel [1, d, n] [0, s, b'] := by simp
  have hin : InB [1, d, n] [0, s, b'] := ⟨by omega, hs, hb', trivial⟩
  rw [g3, hr, unravel_ravel hin, g4 s hs 0 (by omega) b' hb', ← hr]
  refine Finset.sum_congr rfl fun t ht => Finset.sum_congr rfl fun a ha => Finset.sum_congr rfl fun b hb => ?_
  rw [h4 s hs 0 (by omega) b' hb' t (mem_range.1 ht) a (mem_range.1 ha) b (mem_range.1 hb)]

/-! ### the chain of two sites -/

/-- the tensor that sends the right bond value to the site value -/
def exDelta : ND ℂ := ⟨[2, 2, 1], fun | [s, a, _] => if s = a then 1 else 0 | _ => 0⟩

/-- the tensor that sends the left bond value to the site value -/
def exDeltaL : ND ℂ := ⟨[2, 1, 2], fun | [s, _, b] => if s = b then 1 else 0 | _ => 0⟩

theorem aniso_two (h J Jz : ℂ) : anisotropicHeisenberg 2 h J Jz = [swapBoth (first h J Jz), swapBoth (last h)] := rfl

theorem exCut0 (h J Jz : ℂ) (A : ND ℂ) (hA : A.shape = [2, 1, 2]) :
    Cut [] [2] [] [exDelta] [] [swapBoth (last h)] A (swapBoth (first h J Jz)) 2 1 2 1 5 where
  left := rfl
  right := ⟨1, rfl, rfl⟩
  opl := rfl
  opr := ⟨1, (swapBoth_ok (last_shape h)).1, rfl⟩
  site := hA
  op := (swapBoth_ok (first_shape h J Jz)).1

theorem exCut1 (h J Jz : ℂ) (A : ND ℂ) (hA : A.shape = [2, 2, 1]) :
    Cut [2] [] [exDeltaL] [] [swapBoth (first h J Jz)] [] A (swapBoth (last h)) 2 2 1 5 1 where
  left := ⟨2, rfl, rfl⟩
  right := rfl
  opl := ⟨5, (swapBoth_ok (first_shape h J Jz)).1, rfl⟩
  opr := rfl
  site := hA
  op := (swapBoth_ok (last_shape h)).1

example (h J Jz : ℂ) := asmatrix_spec (exCut0 h J Jz ⟨[2, 1, 2], fun _ => 1⟩ rfl)
example (h J Jz : ℂ) := asmatrix_last (exCut1 h J Jz ⟨[2, 2, 1], fun _ => 1⟩ rfl)
example (h J Jz : ℂ) := mv_first (exCut0 h J Jz ⟨[2, 1, 2], fun _ => 1⟩ rfl) (x := ⟨[4], fun _ => 1⟩) rfl

theorem amp_delta {s b : ℕ} : amp [exDelta] [s] b 0 = if s = b then 1 else 0 := by
  rw [amp_single _ _ _ _ (by simp [exDelta, ND.dim])]
  rfl

theorem amp_deltaL {s b : ℕ} (hb : b < 2) : amp [exDeltaL] [s] 0 b = if s = b then 1 else 0 := by
  rw [amp_single _ _ _ _ (by simpa [exDeltaL, ND.dim] using hb)]
  rfl

/-- at the first of two sites the effective Hamiltonian is the Hamiltonian -/
theorem eff_two0 (h J Jz : ℂ) {i' b' i b : ℕ} (hi' : i' < 2) (hb' : b' < 2) (hi : i < 2) (hb : b < 2) :
    effElem [] [2] [] [exDelta] (anisotropicHeisenberg 2 h J Jz) i' 0 b' i 0 b = hamElem (anisoDict h J Jz) 2 [i', b'] [i, b] := by
  rw [← (anisotropicHeisenberg_spec h J Jz (L := 2) le_rfl).2.2 [i', b'] [i, b] ⟨hi', hb', trivial⟩ ⟨hi, hb, trivial⟩]
  simp only [effElem, sumIdx_nil, sumIdx_cons, amp_delta, amp_nil, List.nil_append, Finset.sum_range_succ, Finset.sum_range_zero]
  interval_cases b' <;> interval_cases b <;> simp

theorem eff_two1 (h J Jz : ℂ) {i' a' i a : ℕ} (hi' : i' < 2) (ha' : a' < 2) (hi : i < 2) (ha : a < 2) :
    effElem [2] [] [exDeltaL] [] (anisotropicHeisenberg 2 h J Jz) i' a' 0 i a 0 = hamElem (anisoDict h J Jz) 2 [a', i'] [a, i] := by
  rw [← (anisotropicHeisenberg_spec h J Jz (L := 2) le_rfl).2.2 [a', i'] [a, i] ⟨ha', hi', trivial⟩ ⟨ha, hi, trivial⟩]
  simp only [effElem, sumIdx_nil, sumIdx_cons, amp_deltaL ha, amp_deltaL ha', amp_nil, List.nil_append, Finset.sum_range_succ, Finset.sum_range_zero]
  interval_cases a' <;> interval_cases a <;> simp

theorem ham_two (J Jz : ℂ) {i' b' i b : ℕ} (hi' : i' < 2) (hb' : b' < 2) (hi : i < 2) (hb : b < 2) :
    hamElem (anisoDict 0 J Jz) 2 [i', b'] [i, b] =
      if i' = i ∧ b' = b then (if i = b then Jz else -Jz) else if i' = b ∧ b' = i then J / 2 else 0 := by
  rw [aniso_elem]
  interval_cases i' <;> interval_cases b' <;> interval_cases i <;> interval_cases b <;>
    simp [bondElem, pauli] <;> ring

/-- **C111, negation** two sites, first site: the matrix of `effH` has no eigenvalue below −1, while the effective Hamiltonian (here the
Hamiltonian itself, `J = 2`, `Jz = 1`) has expectation value −2 in the singlet -/
theorem asmatrix_wrong (A : ND ℂ) (hA : A.shape = [2, 1, 2]) : ∃ e M, getEnvs (anisotropicHeisenberg 2 0 2 1) [A, exDelta] 0 = .ok e ∧
    e.asmatrix = .ok M ∧ M.shape = [4, 4] ∧
    (∀ v : ℕ → ℂ, -(∑ x ∈ range 4, ‖v x‖ ^ 2) ≤ (∑ x ∈ range 4, ∑ y ∈ range 4, star (v x) * M.val [x, y] * v y).re) ∧
    ∃ v : ℕ → ℕ → ℂ, ∑ i ∈ range 2, ∑ b ∈ range 2, ‖v i b‖ ^ 2 = 1 ∧
      ∑ i' ∈ range 2, ∑ b' ∈ range 2, ∑ i ∈ range 2, ∑ b ∈ range 2,
        star (v i' b') * effElem [] [2] [] [exDelta] (anisotropicHeisenberg 2 0 2 1) i' 0 b' i 0 b * v i b = -2 := by
  obtain ⟨e, M, h1, h2, h3, h4⟩ := asmatrix_spec (exCut0 0 2 1 A hA)
  have hM : ∀ i' < 2, ∀ b' < 2, ∀ i < 2, ∀ b < 2, M.val [i' * 2 + b', i * 2 + b] =
      if i' = i ∧ b = b' then (if i = b' then 1 else -1) else if i' = b' ∧ b = i then 1 else 0 := by
    intro i' hi' b' hb' i hi b hb
    have := h4 i' hi' 0 (by omega) b' hb' i hi 0 (by omega) b hb
    simp only [ravel_cons, ravel_nil, List.prod_cons, List.prod_nil, List.nil_append] at this
    norm_num at this
    rw [this, effElemT]
    have e2 := eff_two0 0 2 1 hi' hb hi hb'
    rw [aniso_two] at e2
    rw [e2, ham_two 2 1 hi' hb hi hb']
    norm_num
  refine ⟨e, M, h1, h2, h3, ?_, ?_⟩
  · intro v
    have hM' : ∀ x y, x < 4 → y < 4 → M.val [x, y] =
        if x / 2 = y / 2 ∧ y % 2 = x % 2 then (if y / 2 = x % 2 then 1 else -1) else if x / 2 = x % 2 ∧ y % 2 = y / 2 then 1 else 0 := by
      intro x y hx hy
      have := hM (x / 2) (by omega) (x % 2) (by omega) (y / 2) (by omega) (y % 2) (by omega)
      rwa [Nat.div_add_mod', Nat.div_add_mod'] at this
    have e : ∑ x ∈ range 4, ∑ y ∈ range 4, star (v x) * M.val [x, y] * v y =
        star (v 0) * v 0 + star (v 0) * v 3 + star (v 3) * v 0 + star (v 3) * v 3 - star (v 1) * v 1 - star (v 2) * v 2 := by
      rw [Finset.sum_congr rfl fun x hx => Finset.sum_congr rfl fun y hy => by rw [hM' x y (mem_range.1 hx) (mem_range.1 hy)]]
      simp [Finset.sum_range_succ]
      ring
    rw [e]
    simp only [Finset.sum_range_succ, Finset.sum_range_zero, Complex.sq_norm, Complex.normSq_apply, Complex.add_re, Complex.sub_re, Complex.mul_re,
      Complex.star_def, Complex.conj_re, Complex.conj_im]
    nlinarith [sq_nonneg ((v 0).re + (v 3).re), sq_nonneg ((v 0).im + (v 3).im), sq_nonneg (v 0).re, sq_nonneg (v 0).im, sq_nonneg (v 3).re, sq_nonneg (v 3).im]
  · have h2 : ((Real.sqrt 2 / 2 : ℝ) : ℂ) * ((Real.sqrt 2 / 2 : ℝ) : ℂ) = 1 / 2 := by
      rw [← Complex.ofReal_mul]
      have : Real.sqrt 2 / 2 * (Real.sqrt 2 / 2) = 1 / 2 := by
        have := Real.mul_self_sqrt (show (0 : ℝ) ≤ 2 by norm_num)
        nlinarith
      rw [this]; norm_num
    have h3 : ‖((Real.sqrt 2 / 2 : ℝ) : ℂ)‖ ^ 2 = 1 / 2 := by
      rw [Complex.norm_real, Real.norm_eq_abs, sq_abs, div_pow, Real.sq_sqrt (by norm_num)]; norm_num
    have hc : star ((Real.sqrt 2 / 2 : ℝ) : ℂ) = ((Real.sqrt 2 / 2 : ℝ) : ℂ) := Complex.conj_ofReal _
    generalize ((Real.sqrt 2 / 2 : ℝ) : ℂ) = r at h2 h3 hc
    refine ⟨fun i b => if i = b then 0 else if i = 0 then r else -r, ?_, ?_⟩
    · simp only [Finset.sum_range_succ, Finset.sum_range_zero]
      norm_num
      rw [h3]; norm_num
    · rw [Finset.sum_congr rfl fun i' hi' => Finset.sum_congr rfl fun b' hb' => Finset.sum_congr rfl fun i hi => Finset.sum_congr rfl fun b hb => by
        rw [eff_two0 0 2 1 (mem_range.1 hi') (mem_range.1 hb') (mem_range.1 hi) (mem_range.1 hb),
          ham_two 2 1 (mem_range.1 hi') (mem_range.1 hb') (mem_range.1 hi) (mem_range.1 hb)]]
      simp only [Finset.sum_range_succ, Finset.sum_range_zero]
      simp [-Complex.star_def, hc]
      linear_combination (-4 : ℂ) * h2

/-- **C111, negation** two sites, second site (the case of the test class in the file): `mv` is not the product with the matrix -/
theorem mv_wrong (A : ND ℂ) (hA : A.shape = [2, 2, 1]) : ∃ e M x Y, getEnvs (anisotropicHeisenberg 2 0 1 1) [exDeltaL, A] 1 = .ok e ∧
    e.asmatrix = .ok M ∧ x.shape = [4] ∧ e.mv x = .ok Y ∧ Y.size = 4 ∧ Y.val (unravel Y.shape 2) = -1 ∧
      ∑ y ∈ range 4, M.val [2, y] * x.val [y] = 1 / 2 := by
  have hx : (⟨[4], fun | [y] => if y = 1 then 1 else 0 | _ => 0⟩ : ND ℂ).shape = [[2, 2, 1].prod] := rfl
  obtain ⟨e, M, h1, h2, h3, h4⟩ := asmatrix_spec (exCut1 0 1 1 A hA)
  obtain ⟨e', Y, g1, g2, g3, g4⟩ := mv_spec (exCut1 0 1 1 A hA) hx
  rw [h1] at g1
  cases g1
  refine ⟨e, M, _, Y, h1, h2, rfl, g2, by simp [ND.size, g3], ?_, ?_⟩
  · have e2 := eff_two1 0 1 1 (i' := 0) (a' := 1) (i := 0) (a := 1) (by omega) (by omega) (by omega) (by omega)
    rw [aniso_two, ham_two 1 1 (by omega) (by omega) (by omega) (by omega)] at e2
    have := g4 0 (by omega) 1 (by omega) 0 (by omega)
    rw [g3]
    have hu : unravel [2, 2, 1] 2 = [1, 0, 0] := by decide
    rw [hu, this]
    simp only [Finset.sum_range_succ, Finset.sum_range_zero]
    simp [effElemT] at e2 ⊢
    exact e2
  · have e2 := eff_two1 0 1 1 (i' := 1) (a' := 0) (i := 0) (a := 1) (by omega) (by omega) (by omega) (by omega)
    rw [aniso_two, ham_two 1 1 (by omega) (by omega) (by omega) (by omega)] at e2
    have := h4 1 (by omega) 0 (by omega) 0 (by omega) 0 (by omega) 1 (by omega) 0 (by omega)
    simp [effElemT] at this e2
    simp [Finset.sum_range_succ]
    rw [this, e2]

end Xmps.ProjMpo
