import Verif.Lemmas.ChristoffelVal

/-!
# `christoffel`: overlaps of second tangent vectors with tangent vectors (C91)
-/

namespace Xmps

open Finset Spec Xmps.Ncon

theorem transpose_pairs {G : ND ℂ} {a b c a' b' c' a2 b2 c2 : ℕ} (hG : G.shape = [a, b, c, a', b', c', a2, b2, c2]) :
    ∃ G', G.transpose [3, 4, 5, 0, 1, 2, 6, 7, 8] = .ok G' ∧ G'.shape = [a', b', c', a, b, c, a2, b2, c2] ∧
      ∀ s t u s' t' u' s2 t2 u2, G'.val [s', t', u', s, t, u, s2, t2, u2] = G.val [s, t, u, s', t', u', s2, t2, u2] := by
  rw [ND.transpose_ok (by rw [ND.rank, hG]; exact (by decide : List.Perm [3, 4, 5, 0, 1, 2, 6, 7, 8] (List.range 9)))]
  refine ⟨_, rfl, by simp [ND.transposeR, ND.dim, hG], ?_⟩
  intro s t u s' t' u' s2 t2 u2
  have : (List.range 9).map (fun p => [s', t', u', s, t, u, s2, t2, u2].getD (List.idxOf p [3, 4, 5, 0, 1, 2, 6, 7, 8]) 0) = [s, t, u, s', t', u', s2, t2, u2] := by
    simp [List.range_succ, List.idxOf_cons]
  simp only [ND.transposeR, ND.rank, hG]
  exact congrArg G.val this

theorem transpose_pairs2 {G : ND ℂ} {a b c a' b' c' : ℕ} (hG : G.shape = [a, b, c, a', b', c']) :
    ∃ G', G.transpose [3, 4, 5, 0, 1, 2] = .ok G' ∧ G'.shape = [a', b', c', a, b, c] ∧
      ∀ s t u s' t' u', G'.val [s', t', u', s, t, u] = G.val [s, t, u, s', t', u'] := by
  rw [ND.transpose_ok (by rw [ND.rank, hG]; exact (by decide : List.Perm [3, 4, 5, 0, 1, 2] (List.range 6)))]
  refine ⟨_, rfl, by simp [ND.transposeR, ND.dim, hG], ?_⟩
  intro s t u s' t' u'
  have : (List.range 6).map (fun p => [s', t', u', s, t, u].getD (List.idxOf p [3, 4, 5, 0, 1, 2]) 0) = [s, t, u, s', t', u'] := by
    simp [List.range_succ, List.idxOf_cons]
  simp only [ND.transposeR, ND.rank, hG]
  exact congrArg G.val this

theorem sumIdx_neg (s : List ℕ) (f : List ℕ → ℂ) : sumIdx s (fun i => -f i) = -sumIdx s f := by
  have := sumIdx_mul_left (-1 : ℂ) s f
  simpa using this

theorem inB3 {a b c : ℕ} {u : List ℕ} (h : InB [a, b, c] u) : ∃ s t e, u = [s, t, e] := by
  match u, h with
  | [s, t, e], _ => exact ⟨s, t, e, rfl⟩

section
variable {L d : ℕ} {x : FMPS ℂ} {ls rs : List (ND ℂ)} {E : FMPS.InvEnvs} {N : ℝ} {vL l r : ℕ → ND ℂ} {p q k : ℕ → ℕ} {lam rho : ℕ → ℕ → ℝ} {i j n : ℕ}

/-- a tensor of coordinates: contracting it with the coordinates of two tangent tensors -/
theorem F2Ctx.coords (c : F2Ctx L d x ls rs E N vL l r p q k lam rho) (hij : i ≠ j) (hi : i < L) (hj : j < L) {G : ND ℂ} {z : ℂ} {f : List ℕ → ℂ}
    (hGv : ∀ a < k i, ∀ b < q i, ∀ a' < k j, ∀ e < q j, G.val [a, b, a', e] =
        z * pairing (List.replicate L d) (psi ((x.data.set i (c.unit i a b)).set j (c.unit j a' e))) f)
    {Bi Bj : ND ℂ} (hBi : c.Tan i Bi) (hBj : c.Tan j Bj) :
    ∑ a ∈ range (k i), ∑ b ∈ range (q i), ∑ a' ∈ range (k j), ∑ e ∈ range (q j), star (siteCoord d (p i) (vL i) (lam i) (rho i) Bi a b) *
      star (siteCoord d (p j) (vL j) (lam j) (rho j) Bj a' e) * G.val [a, b, a', e] =
          z * pairing (List.replicate L d) (psi ((x.data.set i Bi).set j Bj)) f := by
  have hl := c.len
  have si := c.site i (by omega)
  have sj := c.site j (by omega)
  have hc1 : MpsChain (List.replicate L d) (x.data.set j Bj) 1 1 := chain_set (by omega) c.hx.chain (by rw [hBj.1, sj.hA])
  have h1 := pairing_set_linear (j := i) (k := k i) (k' := q i) hc1 (by simp; omega) (by rw [List.getElem_set_ne (by omega)]; exact si.hA) hBi.1
    (U := fun a b => c.unit i a b) (fun _ _ => rfl) (X := siteCoord d (p i) (vL i) (lam i) (rho i) Bi)
    (fun s hs a ha b hb => by rw [← si.tensor_coord (hBi.2 (by omega)) hs ha hb, c.unit_sum _ hb]) f
  rw [List.set_comm _ _ hij, h1, Finset.mul_sum]
  refine Finset.sum_congr rfl fun a ha => ?_
  rw [Finset.mul_sum]
  refine Finset.sum_congr rfl fun b hb => ?_
  have hc2 : MpsChain (List.replicate L d) (x.data.set i (c.unit i a b)) 1 1 := chain_set (by omega) c.hx.chain (by rw [si.hA]; rfl)
  have h2 := pairing_set_linear (j := j) (k := k j) (k' := q j) hc2 (by simp; omega) (by rw [List.getElem_set_ne (by omega)]; exact sj.hA) hBj.1
    (U := fun a b => c.unit j a b) (fun _ _ => rfl) (X := siteCoord d (p j) (vL j) (lam j) (rho j) Bj)
    (fun s hs a ha b hb => by rw [← sj.tensor_coord (hBj.2 (by omega)) hs ha hb, c.unit_sum _ hb]) f
  rw [List.set_comm _ _ (Ne.symm hij), h2, Finset.mul_sum, Finset.mul_sum]
  refine Finset.sum_congr rfl fun c1 hc1 => ?_
  rw [Finset.mul_sum, Finset.mul_sum]
  refine Finset.sum_congr rfl fun e1 he1 => ?_
  rw [hGv a (Finset.mem_range.1 ha) b (Finset.mem_range.1 hb) c1 (Finset.mem_range.1 hc1) e1 (Finset.mem_range.1 he1)]
  ring

/-- `G` with the sign of line 1889, in coordinates -/
theorem F2Ctx.closedCoords (c : F2Ctx L d x ls rs E N vL l r p q k lam rho) {chol : ND ℂ → Py (ND ℂ)} (hchol : CholTriLaw chol) (O : SetOrder)
    (hij : i ≠ j) (hi : i < L) (hj : j < L) {G C : ND ℂ} {z : ℂ} (hG : G.shape = [d, p i, q i] ++ [d, p j, q j]) (hv : c.Pairs2 G i j n C z) :
    ∃ R, FMPS.ungauge chol O ls rs ((List.range L).map vL) (G.smul (-1)) i j = .ok R ∧ R.shape = [k i, q i, k j, q j] ∧
      ∀ Bi Bj : ND ℂ, c.Tan i Bi → c.Tan j Bj → ∑ a ∈ range (k i), ∑ b ∈ range (q i), ∑ a' ∈ range (k j), ∑ e ∈ range (q j),
        star (siteCoord d (p i) (vL i) (lam i) (rho i) Bi a b) * star (siteCoord d (p j) (vL j) (lam j) (rho j) Bj a' e) * R.val [a, b, a', e] =
          -z * pairing (List.replicate L d) (psi ((x.data.set i Bi).set j Bj)) (psi (x.data.set n C)) := by
  obtain ⟨R, r1, r2, r3⟩ := c.ungauge hchol O hi hj (G := G.smul (-1)) (C := C) (z := -z) hG (by
    intro U W Di Dj hU hW hDi hDj
    rw [neg_mul, ← hv U W Di Dj hU hW hDi hDj, ← sumIdx_neg]
    refine sumIdx_congr fun u _ => ?_
    rw [← sumIdx_neg]
    exact sumIdx_congr fun v _ => by simp [ND.smul])
  exact ⟨R, r1, r2, fun Bi Bj hBi hBj => c.coords hij hi hj r3 hBi hBj⟩

/-- the list `dA_dt` stores for a site -/
theorem F2Ctx.chTransfer_ok (c : F2Ctx L d x ls rs E N vL l r p q k lam rho) (O : SetOrder) (hj : j < x.data.length)
    {prs : List (ND ℂ)} {pr : ND ℂ} (epr : pyGet prs j = .ok pr) (hp : PrFix d (p j) (q j) x.data[j] (lam j) pr) :
    ∃ Rs, FMPS.chTransfer O x prs 0 j = .ok Rs := by
  have hl := c.len
  have hs := c.site j hj
  obtain ⟨R, e5, hR, hRv⟩ := nc_eval O (AA := [pr, x.data[j]]) (v := [[-3, -4, 1, -2], [1, -1, -5]])
    (dimOf [(1, d), (-1, p j), (-2, p j), (-3, d), (-4, p j), (-5, q j)]) [1] [-1, -2, -3, -4, -5]
    ⟨by simp, by simp [hp.shape, hs.hA, dimOf, List.lookup], by simp, by simp, by decide, by decide, by decide, by decide, by decide⟩
    (by decide) (by decide)
  have hR : R.shape = p j :: p j :: [d, p j, q j] := by rw [hR]; simp [dimOf, List.lookup]
  obtain ⟨Rs, e6, hRs⟩ := FMPS.leftTransfer_spec c.hx (j := 0) (i := j) (by omega) (by simp; omega) hs.hp hR
  refine ⟨Rs, ?_⟩
  unfold FMPS.chTransfer
  rw [epr, ok_bind, pyGet_ok hj, ok_bind, e5, ok_bind, e6]

theorem mapM_getElem {α β : Type} {f : α → Py β} : ∀ {l : List α} {m : List β}, l.mapM f = .ok m → ∀ i (hi : i < m.length) (hi' : i < l.length), f l[i] = .ok m[i]
  | [], m, h, i, hi, hi' => by simp at hi'
  | a :: l, m, h, i, hi, hi' => by
    rw [List.mapM_cons] at h
    obtain ⟨b, hb, h⟩ := bind_eq_ok h
    obtain ⟨m', hm', h⟩ := bind_eq_ok h
    obtain rfl : b :: m' = m := by simpa using h
    match i with
    | 0 => exact hb
    | i + 1 => exact mapM_getElem hm' i (by simpa using hi) (by simpa using hi')

theorem F2Ctx.dACacheWith (c : F2Ctx L d x ls rs E N vL l r p q k lam rho) (O : SetOrder) {pr : ℕ → ND ℂ} {prs : List (ND ℂ)}
    (hprs : ∀ m < L, pyGet prs m = .ok (pr m)) (hP : ∀ i (hi : i < x.data.length), PrFix d (p i) (q i) x.data[i] (lam i) (pr i)) :
    ∃ cache, FMPS.dACacheWith O x prs = .ok cache ∧
      (∀ j Rs, cache j = some Rs → FMPS.chTransfer O x prs 0 j = .ok Rs) ∧
      ∀ j < L, d * p j ≠ q j → ∃ Rs, cache j = some Rs := by
  have hl := c.len
  have hd : 0 < L → x.d = d := by
    intro h
    have := c.hx.d
    rw [this]
    obtain ⟨L', rfl⟩ : ∃ L', L = L' + 1 := ⟨L - 1, by omega⟩
    rfl
  have hL : x.L = L := by simpa using c.hx.len
  choose! T hT using fun j (hj : j < L) => c.chTransfer_ok O (by omega) (hprs j hj) (hP j (by omega))
  refine ⟨fun j => if j < L ∧ d * p j ≠ q j then some (T j) else none, ?_, ?_, ?_⟩
  · unfold FMPS.dACacheWith
    rw [mapM_ok (g := fun j => if d * p j = q j then none else some (T j)), ok_bind]
    · congr 1
      funext j
      by_cases hj : j < L
      · rw [hL, List.getElem?_map, List.getElem?_range hj]
        by_cases h : d * p j = q j <;> simp [hj, h]
      · rw [hL, List.getElem?_eq_none (by simpa using hj)]
        simp [hj]
    · intro j hj
      rw [hL, List.mem_range] at hj
      rw [pyGet_ok (by omega), ok_bind]
      have s := (c.site j (by omega)).hA
      rw [dim1 s, dim2 s, hd (by omega)]
      by_cases h : d * p j = q j
      · rw [if_pos h, if_pos h]
      · rw [if_neg h, if_neg h, hT j hj]
        rfl
  · intro j Rs h
    by_cases h' : j < L ∧ d * p j ≠ q j
    · simp only [if_pos h', Option.some.injEq] at h
      rw [← h]
      exact hT j h'.1
    · simp [if_neg h'] at h
  · intro j hj h
    exact ⟨T j, if_pos ⟨hj, h⟩⟩

theorem F2Ctx.dACache (c : F2Ctx L d x ls rs E N vL l r p q k lam rho) {chol inv null : ND ℂ → Py (ND ℂ)} (O : SetOrder) {pr : ℕ → ND ℂ}
    (e : x.getEnvs = .ok (ls, rs)) (epr : (List.range x.L).mapM (fun n => FMPS.leftNull chol inv null O x ls n) = .ok ((List.range L).map fun n => (pr n, vL n)))
    (hP : ∀ i (hi : i < x.data.length), PrFix d (p i) (q i) x.data[i] (lam i) (pr i)) :
    ∃ cache, FMPS.dACache chol inv null O x = .ok cache ∧
      (∀ j Rs, cache j = some Rs → FMPS.chTransfer O x (((List.range L).map fun n => (pr n, vL n)).map Prod.fst) 0 j = .ok Rs) ∧
      ∀ j < L, d * p j ≠ q j → ∃ Rs, cache j = some Rs := by
  obtain ⟨cache, h⟩ := c.dACacheWith O (prs := ((List.range L).map fun n => (pr n, vL n)).map Prod.fst) (by
    intro m hm
    rw [pyGet_ok (by simpa using hm)]
    simp) hP
  refine ⟨cache, ?_, h.2⟩
  unfold FMPS.dACache
  rw [e, ok_bind]
  simp only
  rw [epr, ok_bind]
  exact h.1

/-- `christoffel` with a tensor for the third index, contracted with coordinates -/
theorem F2Ctx.christoffelWith (c : F2Ctx L d x ls rs E N vL l r p q k lam rho) {chol inv : ND ℂ → Py (ND ℂ)} (hchol : CholTriLaw chol) (hinv : InvLaw inv)
    (O : SetOrder) {pr : ℕ → ND ℂ} {prs : List (ND ℂ)} (hprs : ∀ m < L, pyGet prs m = .ok (pr m))
    (hP : ∀ i (hi : i < x.data.length), PrFix d (p i) (q i) x.data[i] (lam i) (pr i)) {cache : FMPS.DACache}
    (hcache : ∀ j Rs, cache j = some Rs → FMPS.chTransfer O x prs 0 j = .ok Rs) (hi : i < x.data.length) (hj : j < x.data.length) (hn : n < x.data.length)
    {C M : ND ℂ} (tC : c.Tan n C) (m2 : M.shape = [d, p n, q n]) (m3 : c.Wt n C M) :
    ∃ G, FMPS.christoffelWith chol inv O x cache ls rs prs ((List.range L).map vL) i j n M = .ok G ∧ G.shape = [k i, q i, k j, q j] ∧
      ∀ Bi Bj : ND ℂ, c.Tan i Bi → c.Tan j Bj → ∑ a ∈ range (k i), ∑ b ∈ range (q i), ∑ a' ∈ range (k j), ∑ e ∈ range (q j),
        star (siteCoord d (p i) (vL i) (lam i) (rho i) Bi a b) * star (siteCoord d (p j) (vL j) (lam j) (rho j) Bj a' e) * G.val [a, b, a', e] =
          if i = j then 0 else -pairing (List.replicate L d) (psi ((x.data.set i Bi).set j Bj)) (psi (x.data.set n C)) := by
  have hl := c.len
  unfold FMPS.christoffelWith
  rcases Nat.lt_trichotomy i j with h | h | h
  · obtain ⟨G, g1, g2, g3⟩ := c.chClosed hinv O hprs hP hcache h (by omega) (by omega : n < L) tC m2 m3
    obtain ⟨R, r1, r2, r3⟩ := c.closedCoords hchol O (by omega) (by omega) (by omega) g2 g3
    rw [if_neg (by omega), g1, ok_bind]
    refine ⟨R, r1, r2, ?_⟩
    intro Bi Bj hBi hBj
    rw [if_neg (by omega), r3 _ _ hBi hBj, neg_one_mul]
  · subst h
    obtain ⟨R, r1, r2, r3⟩ := c.ungauge hchol O (i := i) (j := i) (n := n) (G := (zerosND ([d, p i, q i] ++ [d, p i, q i])).smul (-1)) (C := C) (z := 0)
      (by omega) (by omega) rfl (by
        intro U W Di Dj _ _ _ _
        rw [zero_mul]
        refine (sumIdx_congr fun u _ => (sumIdx_congr fun v _ => ?_).trans (sumIdx_zero _)).trans (sumIdx_zero _)
        simp [zerosND, ND.smul])
    refine ⟨R, ?_, r2, ?_⟩
    · unfold FMPS.chClosed
      rw [if_neg (by omega), pyGet_ok hi, ok_bind, ok_bind, if_pos (Or.inl rfl), ok_bind, (c.site i hi).hA]
      exact r1
    · intro Bi Bj _ _
      rw [if_pos rfl]
      refine Finset.sum_eq_zero fun a ha => Finset.sum_eq_zero fun b hb => Finset.sum_eq_zero fun a' ha' => Finset.sum_eq_zero fun e' he' => ?_
      simp only [Finset.mem_range] at ha hb ha' he'
      rw [r3 a ha b hb a' ha' e' he', zero_mul, mul_zero]
  · obtain ⟨G, g1, g2, g3⟩ := c.chClosed hinv O hprs hP hcache h (by omega) (by omega : n < L) tC m2 m3
    obtain ⟨G', t1, t2, t3⟩ := transpose_pairs2 g2
    obtain ⟨R, r1, r2, r3⟩ := c.closedCoords hchol O (by omega) (by omega) (by omega) (i := i) (j := j) (G := G') (C := C) (n := n) (z := 1) t2 (by
      intro U W Di Dj hU hW hDi hDj
      rw [List.set_comm _ _ (by omega : i ≠ j), ← g3 W U Dj Di hW hU hDj hDi, sumIdx_comm]
      refine sumIdx_congr fun u hu => sumIdx_congr fun v hv => ?_
      obtain ⟨s, t, u, rfl⟩ := inB3 hu
      obtain ⟨s', t', u', rfl⟩ := inB3 hv
      simp only [List.cons_append, List.nil_append, t3]
      ring)
    rw [if_pos h, g1, ok_bind, t1, ok_bind]
    refine ⟨R, r1, r2, ?_⟩
    intro Bi Bj hBi hBj
    rw [if_neg (by omega), r3 _ _ hBi hBj, neg_one_mul]

end

section main
variable {chol inv null : ND ℂ → Py (ND ℂ)} (hchol : CholTriLaw chol) (hinv : InvLaw inv) (hnull : NullLaw null) (O : SetOrder)
  {x : FMPS ℂ} {L d : ℕ} (hd : 0 < d) (hx : x.Holds (List.replicate L d)) (hf : FullEnvs (List.replicate L d) x.data)
include hchol hinv hnull hd hx hf

/-- `christoffel(i, j, k)`: contracted with `l(i-1)@c(U)@r(i)`, `l(j-1)@c(W)@r(j)`, `l(k-1)@C@r(k)` for tensors in the left gauge it is
minus the overlap of the state with `U`, `W` at the sites `i`, `j` and the state with `C` at site `k`; it is zero for `i = j`. -/
theorem FMPS.christoffel_spec {i j n : ℕ} (hi : i < x.data.length) (hj : j < x.data.length) (hn : n < x.data.length) {pi qi pj qj pn qn : ℕ}
    (hsi : x.data[i].shape = [d, pi, qi]) (hsj : x.data[j].shape = [d, pj, qj]) (hsn : x.data[n].shape = [d, pn, qn]) :
    ∃ ls rs G, x.getEnvs = .ok (ls, rs) ∧ FMPS.christoffel chol inv null O x i j n = .ok G ∧
      G.shape = x.data[i].shape ++ x.data[j].shape ++ x.data[n].shape ∧
      ∀ U W C : ND ℂ, U.shape = x.data[i].shape → W.shape = x.data[j].shape → C.shape = x.data[n].shape →
        LeftGauge d pi qi (leftEnv ((List.replicate L d).take i) (x.data.take i)) x.data[i] U →
        LeftGauge d pj qj (leftEnv ((List.replicate L d).take j) (x.data.take j)) x.data[j] W →
        LeftGauge d pn qn (leftEnv ((List.replicate L d).take n) (x.data.take n)) x.data[n] C →
        ∃ Di Dj Dn, FMPS.weighted ls rs i U.conj = .ok Di ∧ FMPS.weighted ls rs j W.conj = .ok Dj ∧ FMPS.weighted ls rs n C = .ok Dn ∧
          sumIdx x.data[i].shape (fun u => sumIdx x.data[j].shape fun v => sumIdx x.data[n].shape fun w => G.val (u ++ v ++ w) * Di.val u * Dj.val v * Dn.val w) =
            if i = j then 0 else -pairing (List.replicate L d) (psi ((x.data.set i U).set j W)) (psi (x.data.set n C)) := by
  obtain ⟨ls, rs, E, e, eE, pr, vL, l, r, p, q, k, lam, rho, hnl, epr, c⟩ := f2Ctx_exists hchol hinv hnull O hd hx hf
  have hl := c.len
  obtain ⟨rfl, rfl⟩ : p i = pi ∧ q i = qi := by simpa using (c.site i hi).hA.symm.trans hsi
  obtain ⟨rfl, rfl⟩ : p j = pj ∧ q j = qj := by simpa using (c.site j hj).hA.symm.trans hsj
  obtain ⟨rfl, rfl⟩ : p n = pn ∧ q n = qn := by simpa using (c.site n hn).hA.symm.trans hsn
  have hprs : ∀ m < L, pyGet (((List.range L).map fun n => (pr n, vL n)).map Prod.fst) m = .ok (pr m) := by
    intro m hm
    rw [pyGet_ok (by simpa using hm)]
    simp
  have hP : ∀ m (hm : m < x.data.length), PrFix d (p m) (q m) x.data[m] (lam m) (pr m) := fun m hm => c.prFix hchol hinv O hm (hnl m (by omega))
  simp only [hsi, hsj, hsn]
  unfold FMPS.christoffel
  rw [e]
  simp only [ok_bind]
  rw [epr]
  simp only [ok_bind]
  -- the three tensors the result is contracted with
  have key : ∀ {G : ND ℂ}, (∀ U W C Di Dj Dn : ND ℂ, c.Tan i U → c.Tan j W → c.Tan n C → c.Dual i U Di → c.Dual j W Dj → c.Wt n C Dn →
      sumIdx [d, p i, q i] (fun u => sumIdx [d, p j, q j] fun v => sumIdx [d, p n, q n] fun w => G.val (u ++ v ++ w) * Di.val u * Dj.val v * Dn.val w) =
        if i = j then 0 else -pairing (List.replicate L d) (psi ((x.data.set i U).set j W)) (psi (x.data.set n C))) →
      ∀ U W C : ND ℂ, U.shape = [d, p i, q i] → W.shape = [d, p j, q j] → C.shape = [d, p n, q n] →
        LeftGauge d (p i) (q i) (leftEnv ((List.replicate L d).take i) (x.data.take i)) x.data[i] U →
        LeftGauge d (p j) (q j) (leftEnv ((List.replicate L d).take j) (x.data.take j)) x.data[j] W →
        LeftGauge d (p n) (q n) (leftEnv ((List.replicate L d).take n) (x.data.take n)) x.data[n] C →
        ∃ Di Dj Dn, FMPS.weighted ls rs i U.conj = .ok Di ∧ FMPS.weighted ls rs j W.conj = .ok Dj ∧ FMPS.weighted ls rs n C = .ok Dn ∧
          sumIdx [d, p i, q i] (fun u => sumIdx [d, p j, q j] fun v => sumIdx [d, p n, q n] fun w => G.val (u ++ v ++ w) * Di.val u * Dj.val v * Dn.val w) =
            if i = j then 0 else -pairing (List.replicate L d) (psi ((x.data.set i U).set j W)) (psi (x.data.set n C)) := by
    intro G h U W C hU hW hC gU gW gC
    obtain ⟨Di, a1, -, a2⟩ := c.dual_ok hi hU
    obtain ⟨Dj, b1, -, b2⟩ := c.dual_ok hj hW
    obtain ⟨Dn, c1, -, c2⟩ := c.wt_ok hn hC
    exact ⟨Di, Dj, Dn, a1, b1, c1, h U W C Di Dj Dn ⟨hU, fun _ => gU⟩ ⟨hW, fun _ => gW⟩ ⟨hC, fun _ => gC⟩ a2 b2 c2⟩
  rcases Nat.lt_trichotomy i j with h | h | h
  · rw [if_neg (by omega)]
    obtain ⟨G, g1, g2, g3⟩ := c.chOpen hinv O hprs hP h (by omega) (by omega : n < L)
    refine ⟨ls, rs, G.smul (-1), rfl, by rw [g1]; rfl, g2, ?_⟩
    refine key ?_
    intro U W C Di Dj Dn hU hW hC hDi hDj hDn
    have := g3 U W C Di Dj Dn hU hW hC hDi hDj hDn
    rw [one_mul] at this
    rw [if_neg (by omega), ← this, ← sumIdx_neg]
    refine sumIdx_congr fun u _ => ?_
    rw [← sumIdx_neg]
    refine sumIdx_congr fun v _ => ?_
    rw [← sumIdx_neg]
    exact sumIdx_congr fun w _ => by simp [ND.smul]
  · subst h
    have hdx : x.d = d := by
      have := c.hx.d
      rw [this]
      obtain ⟨L', rfl⟩ : ∃ L', L = L' + 1 := ⟨L - 1, by omega⟩
      rfl
    rw [if_neg (by omega)]
    refine ⟨ls, rs, (zerosND ([d, p i, q i] ++ [d, p i, q i] ++ [d, p n, q n])).smul (-1), rfl, ?_, rfl, ?_⟩
    · unfold FMPS.chOpen
      rw [pyGet_ok hi, ok_bind, ok_bind, pyGet_ok hn, ok_bind, if_pos (Or.inl rfl), hsi, hsn]
      rfl
    · refine key ?_
      intros
      simp [zerosND, ND.smul, sumIdx_zero]
  · rw [if_pos h]
    obtain ⟨G, g1, g2, g3⟩ := c.chOpen hinv O hprs hP h (by omega) (by omega : n < L)
    obtain ⟨G', t1, t2, t3⟩ := transpose_pairs g2
    refine ⟨ls, rs, G'.smul (-1), rfl, by simp only [g1, ok_bind, t1], t2, ?_⟩
    refine key ?_
    intro U W C Di Dj Dn hU hW hC hDi hDj hDn
    have := g3 W U C Dj Di Dn hW hU hC hDj hDi hDn
    rw [one_mul, List.set_comm _ _ (by omega : j ≠ i)] at this
    rw [if_neg (by omega), ← this, sumIdx_comm, ← sumIdx_neg]
    refine sumIdx_congr fun u hu => ?_
    rw [← sumIdx_neg]
    refine sumIdx_congr fun v hv => ?_
    rw [← sumIdx_neg]
    refine sumIdx_congr fun w hw => ?_
    obtain ⟨s, t, u, rfl⟩ := inB3 hu
    obtain ⟨s', t', u', rfl⟩ := inB3 hv
    obtain ⟨s2, t2, u2, rfl⟩ := inB3 hw
    simp only [ND.smul, List.cons_append, List.nil_append, t3]
    ring

/-- `christoffel(i, j, k, closed=(None, None, l(k-1)@C@r(k)))`: contracted with the coordinates of tangent tensors in the left gauge, as
`extract_tangent_vector` computes them, it is minus the overlap of the state with these tensors at the sites `i`, `j` and the state with `C` at
site `k`; the attribute `dA_cache` is unset or was written by `dA_dt` for the same state. -/
theorem FMPS.christoffel_closed {cache : FMPS.DACache} (hc : cache = (fun _ => none) ∨ FMPS.dACache chol inv null O x = .ok cache)
    {i j n : ℕ} (hi : i < x.data.length) (hj : j < x.data.length) (hn : n < x.data.length) {dA : List (ND ℂ)}
    (hAi : i < dA.length) (hAj : j < dA.length) {pi qi pj qj pn qn : ℕ}
    (hsi : x.data[i].shape = [d, pi, qi]) (hsj : x.data[j].shape = [d, pj, qj]) (hsn : x.data[n].shape = [d, pn, qn])
    (hBi : dA[i].shape = [d, pi, qi]) (hBj : dA[j].shape = [d, pj, qj]) {C : ND ℂ} (hC : C.shape = [d, pn, qn])
    (hgi : LeftGauge d pi qi (leftEnv ((List.replicate L d).take i) (x.data.take i)) x.data[i] dA[i])
    (hgj : LeftGauge d pj qj (leftEnv ((List.replicate L d).take j) (x.data.take j)) x.data[j] dA[j])
    (hgn : LeftGauge d pn qn (leftEnv ((List.replicate L d).take n) (x.data.take n)) x.data[n] C) :
    ∃ ls rs, x.getEnvs = .ok (ls, rs) ∧ ∃ (M X Y G : ND ℂ) (ki kj : ℕ), FMPS.weighted ls rs n C = .ok M ∧
      X.shape = [ki, qi] ∧ Y.shape = [kj, qj] ∧ G.shape = [ki, qi, kj, qj] ∧
      FMPS.extractSite chol inv null O x ls rs dA i = .ok X.flat ∧ FMPS.extractSite chol inv null O x ls rs dA j = .ok Y.flat ∧
      FMPS.christoffelClosed chol inv null O x cache i j n M = .ok G ∧
      ∑ a ∈ range ki, ∑ b ∈ range qi, ∑ c ∈ range kj, ∑ e ∈ range qj, star (X.val [a, b]) * star (Y.val [c, e]) * G.val [a, b, c, e] =
        if i = j then 0 else -pairing (List.replicate L d) (psi ((x.data.set i dA[i]).set j dA[j])) (psi (x.data.set n C)) := by
  obtain ⟨ls, rs, E, e, eE, pr, vL, l, r, p, q, k, lam, rho, hnl, epr, c⟩ := f2Ctx_exists hchol hinv hnull O hd hx hf
  have hl := c.len
  have si := c.site i hi
  have sj := c.site j hj
  obtain ⟨rfl, rfl⟩ : p i = pi ∧ q i = qi := by simpa using si.hA.symm.trans hsi
  obtain ⟨rfl, rfl⟩ : p j = pj ∧ q j = qj := by simpa using sj.hA.symm.trans hsj
  obtain ⟨rfl, rfl⟩ : p n = pn ∧ q n = qn := by simpa using (c.site n hn).hA.symm.trans hsn
  have hprs : ∀ m < L, pyGet (((List.range L).map fun n => (pr n, vL n)).map Prod.fst) m = .ok (pr m) := by
    intro m hm
    rw [pyGet_ok (by simpa using hm)]
    simp
  have hP : ∀ m (hm : m < x.data.length), PrFix d (p m) (q m) x.data[m] (lam m) (pr m) := fun m hm => c.prFix hchol hinv O hm (hnl m (by omega))
  obtain ⟨cache', d1, d2, -⟩ := c.dACache O e epr hP
  have hcache : ∀ j Rs, cache j = some Rs → FMPS.chTransfer O x (((List.range L).map fun n => (pr n, vL n)).map Prod.fst) 0 j = .ok Rs := by
    rcases hc with rfl | hc
    · simp
    · obtain rfl : cache' = cache := by simpa using d1.symm.trans hc
      exact d2
  obtain ⟨M, m1, m2, m3⟩ := c.wt_ok hn hC
  obtain ⟨X, x1, x2, x3⟩ := si.extract hchol O (hnl i (by omega)) (pyGet_ok hAi) hBi
  obtain ⟨Y, y1, y2, y3⟩ := sj.extract hchol O (hnl j (by omega)) (pyGet_ok hAj) hBj
  have tC : c.Tan n C := ⟨hC, fun _ => hgn⟩
  obtain ⟨G, g1, g2, g3⟩ := c.christoffelWith hchol hinv O hprs hP hcache hi hj hn tC m2 m3
  have g3 := g3 _ _ ⟨hBi, fun _ => hgi⟩ ⟨hBj, fun _ => hgj⟩
  have g1 : FMPS.christoffelClosed chol inv null O x cache i j n M = .ok G := by
    unfold FMPS.christoffelClosed
    rw [e]
    simp only [ok_bind]
    rw [epr]
    simp only [ok_bind]
    rw [show (((List.range L).map fun n => (pr n, vL n)).map Prod.snd) = (List.range L).map vL by rw [List.map_map]; rfl]
    exact g1
  refine ⟨ls, rs, e, M, X, Y, G, k i, k j, m1, x2, y2, g2, x1, y1, g1, ?_⟩
  rw [← g3]
  refine Finset.sum_congr rfl fun a ha => Finset.sum_congr rfl fun b hb => Finset.sum_congr rfl fun c1 hc1 => Finset.sum_congr rfl fun e1 he1 => ?_
  simp only [Finset.mem_range] at ha hb hc1 he1
  rw [x3 a ha b hb, y3 c1 hc1 e1 he1]
  rfl

end main

/-! ### the hypotheses can be met, and a stale `dA_cache` enters -/

/-- `|00⟩ + |11⟩` of two qutrits, times `c` -/
def exQ (c : ℂ) : FMPS ℂ := ⟨[⟨[3, 1, 2], fun
  | [s, _, e] => if s = e then 1 else 0
  | _ => 0⟩, ⟨[3, 2, 1], fun
  | [s, a, _] => if s = a then c else 0
  | _ => 0⟩], 2, 3, 2, false, false, none, none⟩

theorem exQ_holds (c : ℂ) : (exQ c).Holds (List.replicate 2 3) := ⟨⟨2, rfl, 1, rfl, rfl⟩, by simp, rfl, rfl⟩

theorem exQ_full (c : ℝ) (hc : c ≠ 0) : FullEnvs (List.replicate 2 3) (exQ c).data := by
  intro k hk p hp
  have h2 : 0 < c * c := by rcases lt_or_gt_of_ne hc with h | h <;> nlinarith
  match k, hk with
  | 0, _ =>
    obtain rfl := chain_bond_unique hp rfl
    refine ⟨fun _ => 1, fun _ => 2 * (c * c), by simp [h2], ?_⟩
    intro a ha b hb
    obtain rfl : a = 0 := by omega
    obtain rfl : b = 0 := by omega
    simp [leftEnv, rightEnv, exQ, amp, ND.dim, Finset.sum_range_succ]
    ring
  | 1, _ =>
    obtain rfl := chain_bond_unique hp ⟨2, rfl, rfl⟩
    refine ⟨fun _ => 1, fun _ => c * c, by simp [h2], ?_⟩
    intro a ha b hb
    interval_cases a <;> interval_cases b <;> simp [leftEnv, rightEnv, exQ, amp, ND.dim, Finset.sum_range_succ]
  | 2, _ =>
    obtain rfl := chain_bond_unique hp ⟨2, rfl, 1, rfl, rfl⟩
    refine ⟨fun _ => 2 * (c * c), fun _ => 1, by simp [h2], ?_⟩
    intro a ha b hb
    obtain rfl : a = 0 := by omega
    obtain rfl : b = 0 := by omega
    simp [leftEnv, rightEnv, exQ, amp, ND.dim, Finset.sum_range_succ]
    ring

/-- tangent tensors: `|2⟩` for one bond index at the first site -/
def exQU (m : ℕ) : ND ℂ := ⟨[3, 1, 2], fun
  | [s, _, e] => if s = 2 ∧ e = m then 1 else 0
  | _ => 0⟩

/-- a tangent tensor of the second site -/
def exQW : ND ℂ := ⟨[3, 2, 1], fun
  | [s, a, _] => if s = 1 ∧ a = 0 then 1 else 0
  | _ => 0⟩

theorem exQU_gauge (c : ℂ) (m : ℕ) : LeftGauge 3 1 2 (leftEnv ((List.replicate 2 3).take 0) ((exQ c).data.take 0)) ((exQ c).data[0]'(by simp [exQ])) (exQU m) := by
  intro a ha b hb
  interval_cases a <;> interval_cases b <;> simp [Finset.sum_range_succ, leftEnv, exQ, exQU, amp]

theorem exQW_gauge (c : ℂ) : LeftGauge 3 2 1 (leftEnv ((List.replicate 2 3).take 1) ((exQ c).data.take 1)) ((exQ c).data[1]'(by simp [exQ])) exQW := by
  intro a ha b hb
  obtain rfl : a = 0 := by omega
  obtain rfl : b = 0 := by omega
  simp [Finset.sum_range_succ, leftEnv, exQ, exQW, amp, ND.dim]

theorem exQ_element (c : ℝ) : pairing (List.replicate 2 3) (psi (((exQ c).data.set 0 (exQU 0)).set 1 exQW)) (psi ((exQ c).data.set 0 (exQU 1))) = c := by
  have h1 : ∀ a < 3, ∀ b < 3, psi (((exQ c).data.set 0 (exQU 0)).set 1 exQW) [a, b] = if a = 2 ∧ b = 1 then 1 else 0 := by
    intro a ha b hb
    have hch : MpsChain (List.replicate 2 3) (((exQ c).data.set 0 (exQU 0)).set 1 exQW) 1 1 := ⟨2, rfl, 1, rfl, rfl⟩
    rw [psi_eq_amp (ss := [a, b]) hch (by simp [exQ]) rfl]
    interval_cases a <;> interval_cases b <;> simp [exQ, exQU, exQW, amp, ND.dim, Finset.sum_range_succ]
  have h2 : ∀ a < 3, ∀ b < 3, psi ((exQ c).data.set 0 (exQU 1)) [a, b] = if a = 2 ∧ b = 1 then (c : ℂ) else 0 := by
    intro a ha b hb
    have hch : MpsChain (List.replicate 2 3) ((exQ c).data.set 0 (exQU 1)) 1 1 := ⟨2, rfl, 1, rfl, rfl⟩
    rw [psi_eq_amp (ss := [a, b]) hch (by simp [exQ]) rfl]
    interval_cases a <;> interval_cases b <;> simp [exQ, exQU, amp, ND.dim, Finset.sum_range_succ]
  generalize psi (((exQ c).data.set 0 (exQU 0)).set 1 exQW) = f at h1
  generalize psi ((exQ c).data.set 0 (exQU 1)) = g at h2
  unfold pairing
  simp [List.replicate, sumIdx_cons, sumIdx_nil, Finset.sum_range_succ, h1, h2]

theorem exQ_scale_gauge {W : ND ℂ} (h : LeftGauge 3 2 1 (leftEnv ((List.replicate 2 3).take 1) ((exQ 1).data.take 1)) ((exQ 1).data[1]'(by simp [exQ])) W) :
    LeftGauge 3 2 1 (leftEnv ((List.replicate 2 3).take 1) ((exQ 2).data.take 1)) ((exQ 2).data[1]'(by simp [exQ])) W := by
  intro a ha b hb
  have := h a ha b hb
  obtain rfl : a = 0 := by omega
  obtain rfl : b = 0 := by omega
  simp [Finset.sum_range_succ, leftEnv, exQ, amp, ND.dim] at this ⊢
  linear_combination (starRingEnd ℂ) 2 * this

section ex
variable {chol inv null : ND ℂ → Py (ND ℂ)} (hchol : CholTriLaw chol) (hinv : InvLaw inv) (hnull : NullLaw null) (O : SetOrder)
include hchol hinv hnull

/-- the hypotheses of `christoffel_spec` are met by `c(|00⟩ + |11⟩)`, where the value is `-c` -/
example (c : ℝ) (hc : c ≠ 0) :
    ∃ ls rs G Di Dj Dn, (exQ c).getEnvs = .ok (ls, rs) ∧ FMPS.christoffel chol inv null O (exQ c) 0 1 0 = .ok G ∧
      FMPS.weighted ls rs 0 (exQU 0).conj = .ok Di ∧ FMPS.weighted ls rs 1 exQW.conj = .ok Dj ∧ FMPS.weighted ls rs 0 (exQU 1) = .ok Dn ∧
      sumIdx [3, 1, 2] (fun u => sumIdx [3, 2, 1] fun v => sumIdx [3, 1, 2] fun w => G.val (u ++ v ++ w) * Di.val u * Dj.val v * Dn.val w) = -c := by
  obtain ⟨ls, rs, G, e, g1, g2, g3⟩ := FMPS.christoffel_spec hchol hinv hnull O (by omega) (exQ_holds c) (exQ_full c hc) (i := 0) (j := 1) (n := 0)
    (by simp [exQ]) (by simp [exQ]) (by simp [exQ]) rfl rfl rfl
  obtain ⟨Di, Dj, Dn, h1, h2, h3, h4⟩ := g3 (exQU 0) exQW (exQU 1) rfl rfl rfl (exQU_gauge c 0) (exQW_gauge c) (exQU_gauge c 1)
  refine ⟨ls, rs, G, Di, Dj, Dn, e, g1, h1, h2, h3, ?_⟩
  rw [if_neg (by omega), exQ_element] at h4
  exact h4

/-- the hypotheses of `christoffel_closed` are met, with the cache written by `dA_dt` -/
theorem exQ_closed (c : ℝ) (hc : c ≠ 0) :
    ∃ (cache : FMPS.DACache) (ls rs : List (ND ℂ)) (M X Y G : ND ℂ) (ki kj : ℕ), FMPS.dACache chol inv null O (exQ c) = .ok cache ∧ (∃ Rs, cache 1 = some Rs) ∧
      (exQ c).getEnvs = .ok (ls, rs) ∧ FMPS.weighted ls rs 0 (exQU 1) = .ok M ∧
      X.shape = [ki, 2] ∧ Y.shape = [kj, 1] ∧ G.shape = [ki, 2, kj, 1] ∧
      FMPS.extractSite chol inv null O (exQ c) ls rs [exQU 0, exQW] 0 = .ok X.flat ∧ FMPS.extractSite chol inv null O (exQ c) ls rs [exQU 0, exQW] 1 = .ok Y.flat ∧
      FMPS.christoffelClosed chol inv null O (exQ c) cache 0 1 0 M = .ok G ∧
      ∑ a ∈ range ki, ∑ b ∈ range 2, ∑ c ∈ range kj, ∑ e ∈ range 1, star (X.val [a, b]) * star (Y.val [c, e]) * G.val [a, b, c, e] = -c := by
  obtain ⟨ls, rs, E, e, eE, pr, vL, l, r, p, q, k, lam, rho, hnl, epr, ctx⟩ :=
    f2Ctx_exists hchol hinv hnull O (by omega) (exQ_holds c) (exQ_full c hc)
  obtain ⟨cache, d1, -, d3⟩ := ctx.dACache O e epr fun m hm => ctx.prFix hchol hinv O hm (hnl m (by have := ctx.len; omega))
  obtain ⟨p1, q1⟩ : p 1 = 2 ∧ q 1 = 1 := by simpa using (ctx.site 1 (by simp [exQ])).hA.symm.trans (show _ = [3, 2, 1] from rfl)
  obtain ⟨ls', rs', e', M, X, Y, G, ki, kj, h⟩ := FMPS.christoffel_closed hchol hinv hnull O (by omega) (exQ_holds c) (exQ_full c hc) (Or.inr d1)
    (i := 0) (j := 1) (n := 0) (by simp [exQ]) (by simp [exQ]) (by simp [exQ]) (dA := [exQU 0, exQW]) (by simp) (by simp) rfl rfl rfl rfl rfl
    (C := exQU 1) rfl (exQU_gauge c 0) (exQW_gauge c) (exQU_gauge c 1)
  rw [if_neg (by omega)] at h
  refine ⟨cache, ls', rs', M, X, Y, G, ki, kj, d1, d3 1 (by omega) (by rw [p1, q1]; omega), e', ?_⟩
  obtain ⟨a1, a2, a3, a4, a5, a6, a7, a8⟩ := h
  exact ⟨a1, a2, a3, a4, a5, a6, a7, a8.trans (congrArg Neg.neg (exQ_element c))⟩

/-- After `dA_dt` on the state `2(|00⟩ + |11⟩)` and a change of the second tensor to that of `|00⟩ + |11⟩` the tensor is that of `-2` where the
overlap is one: the lists in `dA_cache` are those of the old state. -/
theorem exQ_stale :
    ∃ (cache : FMPS.DACache) (ls rs : List (ND ℂ)) (M X Y G : ND ℂ) (ki kj : ℕ), FMPS.dACache chol inv null O (exQ 2) = .ok cache ∧
      (exQ 1).getEnvs = .ok (ls, rs) ∧ FMPS.weighted ls rs 0 (exQU 1) = .ok M ∧
      X.shape = [ki, 2] ∧ Y.shape = [kj, 1] ∧ G.shape = [ki, 2, kj, 1] ∧
      FMPS.extractSite chol inv null O (exQ 1) ls rs [exQU 0, exQW] 0 = .ok X.flat ∧ FMPS.extractSite chol inv null O (exQ 1) ls rs [exQU 0, exQW] 1 = .ok Y.flat ∧
      FMPS.christoffelClosed chol inv null O (exQ 1) cache 0 1 0 M = .ok G ∧
      ∑ a ∈ range ki, ∑ b ∈ range 2, ∑ c ∈ range kj, ∑ e ∈ range 1, star (X.val [a, b]) * star (Y.val [c, e]) * G.val [a, b, c, e] = -2 ∧
      pairing (List.replicate 2 3) (psi (((exQ 1).data.set 0 (exQU 0)).set 1 exQW)) (psi ((exQ 1).data.set 0 (exQU 1))) = 1 := by
  -- the old state
  have f2 := exQ_full 2 (by norm_num)
  have f1 := exQ_full 1 (by norm_num)
  rw [Complex.ofReal_ofNat] at f2
  rw [Complex.ofReal_one] at f1
  obtain ⟨ls2, rs2, E2, e2, -, pr2, vL2, l2, r2, p2, q2, k2, lam2, rho2, hnl2, epr2, c2⟩ :=
    f2Ctx_exists hchol hinv hnull O (by omega) (exQ_holds 2) f2
  have hP2 := fun m (hm : m < (exQ 2).data.length) => c2.prFix hchol hinv O hm (hnl2 m (by have := c2.len; omega))
  obtain ⟨cache, d1, d2, d3⟩ := c2.dACache O e2 epr2 hP2
  have s20 := c2.site 0 (by simp [exQ])
  have s21 := c2.site 1 (by simp [exQ])
  obtain ⟨p20, q20⟩ : p2 0 = 1 ∧ q2 0 = 2 := by simpa using s20.hA.symm.trans (show _ = [3, 1, 2] from rfl)
  obtain ⟨p21, q21⟩ : p2 1 = 2 ∧ q2 1 = 1 := by simpa using s21.hA.symm.trans (show _ = [3, 2, 1] from rfl)
  obtain ⟨Rs, hRs⟩ := d3 1 (by omega) (by rw [p21, q21]; omega)
  obtain ⟨Rs', T, t1, t2, t3, t4⟩ := c2.chRs O (i := 0) (j := 1) (n0 := 0) (by omega) (by omega) (by simp [exQ])
    (prs := ((List.range 2).map fun n => (pr2 n, vL2 n)).map Prod.fst) (pr := pr2 1) (by rw [pyGet_ok (by simp)]; simp) (hP2 1 (by simp [exQ]))
  rw [d2 1 Rs hRs] at t1
  obtain rfl : Rs = Rs' := by simpa using t1
  -- the new state
  obtain ⟨ls, rs, E, e, eE, pr, vL, l, r, p, q, k, lam, rho, hnl, epr, c⟩ := f2Ctx_exists hchol hinv hnull O (by omega) (exQ_holds 1) f1
  have hP := fun m (hm : m < (exQ 1).data.length) => c.prFix hchol hinv O hm (hnl m (by have := c.len; omega))
  have s0 := c.site 0 (by simp [exQ])
  have s1 := c.site 1 (by simp [exQ])
  obtain ⟨p0, q0⟩ : p 0 = 1 ∧ q 0 = 2 := by simpa using s0.hA.symm.trans (show _ = [3, 1, 2] from rfl)
  obtain ⟨p1, q1⟩ : p 1 = 2 ∧ q 1 = 1 := by simpa using s1.hA.symm.trans (show _ = [3, 2, 1] from rfl)
  have hlam : ∀ a < 2, lam2 1 a = lam 1 a := by
    intro a ha
    have h1 := s21.left a (by omega) a (by omega)
    have h2 := s1.left a (by omega) a (by omega)
    rw [if_pos rfl] at h1 h2
    have : (lam2 1 a : ℂ) = lam 1 a := by rw [← h1, ← h2]; rfl
    exact_mod_cast this
  have hrho : rho2 1 0 = rho 1 0 := by
    have h1 := s21.right 0 (by omega) 0 (by omega)
    have h2 := s1.right 0 (by omega) 0 (by omega)
    rw [if_pos rfl] at h1 h2
    have : (rho2 1 0 : ℂ) = rho 1 0 := by rw [← h1, ← h2]; rfl
    exact_mod_cast this
  rw [q20, q21, p21] at t3 t4
  obtain ⟨M, m1, m2, m3⟩ := c.wt_ok (i := 0) (by simp [exQ]) (C := exQU 1) (by rw [p0, q0]; rfl)
  have tC : c.Tan 0 (exQU 1) := ⟨by rw [p0, q0]; rfl, fun _ => by rw [p0, q0]; exact exQU_gauge 1 1⟩
  have tU : c.Tan 0 (exQU 0) := ⟨by rw [p0, q0]; rfl, fun _ => by rw [p0, q0]; exact exQU_gauge 1 0⟩
  have tW : c.Tan 1 exQW := ⟨by rw [p1, q1]; rfl, fun _ => by rw [p1, q1]; exact exQW_gauge 1⟩
  have hprs : ∀ m < 2, pyGet (((List.range 2).map fun n => (pr n, vL n)).map Prod.fst) m = .ok (pr m) := by
    intro m hm
    rw [pyGet_ok (by simpa using hm)]
    simp
  obtain ⟨G, g1, g2, g3⟩ := c.chClosed_gen hinv O hprs hP (i := 0) (j := 1) (n := 0) (cache := cache) (T := T) (z := 2) (by omega) (by omega) (by omega)
    (by unfold FMPS.chEnv; rw [hRs]; exact t2) (by rw [t3, q0, p1, q1])
    (by
      intro W hW hg g hg' b hb
      rw [p1, q1] at hW hg
      rw [q0] at hg' hb
      rw [p1, q1]
      have hg2 := exQ_scale_gauge hg
      have h1 := t4 W hW hg2 g hg' b hb
      have h2 : mixR ((List.replicate 2 3).drop (0 + 1)) (tailV (exQ 2).data 1 (0 + 1) W) ((exQ 2).data.drop (0 + 1)) g b =
          2 * mixR ((List.replicate 2 3).drop (0 + 1)) (tailV (exQ 1).data 1 (0 + 1) W) ((exQ 1).data.drop (0 + 1)) g b := by
        have w0 : W.dim 2 = 1 := dim2 hW
        interval_cases g <;> simp [Finset.sum_range_succ, mixR, tailV, exQ, amp, ND.dim]
      rw [← h2, ← h1]
      refine Finset.sum_congr rfl fun t _ => Finset.sum_congr rfl fun a ha => Finset.sum_congr rfl fun e he => ?_
      obtain rfl : e = 0 := by simpa using he
      rw [hlam a (Finset.mem_range.1 ha), hrho])
    tC m2 m3
  obtain ⟨R, r1, r2, r3⟩ := c.closedCoords hchol O (by omega) (by omega) (by omega) g2 g3
  obtain ⟨X, x1, x2, x3⟩ := s0.extract hchol O (hnl 0 (by omega)) (dA := [exQU 0, exQW]) (pyGet_ok (by simp)) (by rw [p0, q0]; rfl)
  obtain ⟨Y, y1, y2, y3⟩ := s1.extract hchol O (hnl 1 (by omega)) (dA := [exQU 0, exQW]) (pyGet_ok (by simp)) (by rw [p1, q1]; rfl)
  have r4 := r3 (exQU 0) exQW tU tW
  have ex := exQ_element 1
  rw [Complex.ofReal_one] at ex
  rw [ex, mul_one] at r4
  rw [q0] at x2 x3
  rw [q1] at y2 y3
  rw [q0, q1] at r2 r4
  refine ⟨cache, ls, rs, M, X, Y, R, k 0, k 1, d1, e, m1, x2, y2, r2, x1, y1, ?_, ?_, ex⟩
  · unfold FMPS.christoffelClosed FMPS.christoffelWith
    rw [e]
    simp only [ok_bind]
    rw [epr]
    simp only [ok_bind]
    rw [show (((List.range 2).map fun n => (pr n, vL n)).map Prod.snd) = (List.range 2).map vL by rw [List.map_map]; rfl, if_neg (by omega), g1, ok_bind]
    exact r1
  · rw [← r4]
    refine Finset.sum_congr rfl fun a ha => Finset.sum_congr rfl fun b hb => Finset.sum_congr rfl fun c1 hc1 => Finset.sum_congr rfl fun e1 he1 => ?_
    simp only [Finset.mem_range] at ha hb hc1 he1
    rw [x3 a ha b hb, y3 c1 hc1 e1 he1]
    rfl

end ex

end Xmps
