import Verif.Model.Fmpo
import Verif.Lemmas.MpoNet
import Verif.Props.Tfd
import Verif.Props.TransferMatrix

/-!
# C42: products of matrix product operators

Specification: Spec/Mpo (`opElem`).
-/

namespace Xmps

open Finset Xmps.Spec Xmps.Ncon

/-- The object holds an MPO with upper extents `us`, lower extents `ds` and the bond `l` at both
ends, and its `L` is the number of tensors. -/
structure FMPO.Holds (A : FMPO) (us ds : List ℕ) (l : ℕ) : Prop where
  chain : MpoChain us ds A.data l l
  len : A.L = A.data.length
  two : 2 ≤ A.data.length

namespace FMPO

theorem mulTensor_ok (O : SetOrder) {W W' : ND ℂ} {k u d m m' l l' : ℕ} (hW : W.shape = [k, m, d, l])
    (hW' : W'.shape = [u, m', k, l']) :
    ∃ R, mulTensor O W W' = .ok R ∧ R.shape = [u, m' * m, d, l' * l] ∧
      ∀ i < u, ∀ b' < m', ∀ b < m, ∀ j < d, ∀ a' < l', ∀ a < l, R.val [i, b' * m + b, j, a' * l + a] =
        ∑ c ∈ range k, W'.val [i, b', c, a'] * W.val [c, b, j, a] := by
  obtain ⟨C, e1, hC, hCv⟩ := nc_eval O (AA := [W, W']) (v := [[1, -3, -4, -6], [-1, -2, 1, -5]])
    (dimOf [(1, k), (-1, u), (-2, m'), (-3, m), (-4, d), (-5, l'), (-6, l)]) [1] [-1, -2, -3, -4, -5, -6]
    ⟨by simp, by simp [hW, hW', dimOf, List.lookup], by simp, by simp, by decide, by decide, by decide, by decide, by decide⟩
    (by decide) (by decide)
  have hC' : C.shape = [u, m', m, d, l', l] := by rw [hC]; simp [dimOf, List.lookup]
  have hCv' : ∀ i b' b j a' a, C.val [i, b', b, j, a', a] = ∑ c ∈ range k, W'.val [i, b', c, a'] * W.val [c, b, j, a] := by
    intro i b' b j a' a
    rw [hCv _ rfl]
    simp [labelSum, netTerm, assign, dimOf, List.lookup, Function.update, mul_comm]
  have hs : [W'.dim 0, W.dim 1 * W'.dim 1, W.dim 2, W'.dim (W'.rank - 1) * W.dim (W.rank - 1)] = [u, m' * m, d, l' * l] := by
    simp [ND.dim, ND.rank, hW, hW', mul_comm]
  refine ⟨C.reshapeR [u, m' * m, d, l' * l], ?_, rfl, ?_⟩
  · unfold mulTensor
    rw [e1, ok_bind, hs, ND.reshape_ok_any]
    simp only [hC', List.prod_cons, List.prod_nil]
    ring
  · intro i hi b' hb' b hb j hj a' ha' a ha
    rw [← hCv' i b' b j a' a]
    refine ND.reshapeR_val_any ?_ ?_
    · rw [hC']
      exact ⟨hi, hb', hb, hj, ha', ha, trivial⟩
    · rw [hC']
      simp only [ravel_cons, ravel_nil, List.prod_cons, List.prod_nil]
      ring

theorem flat_eq_iff {l a a' b b' : ℕ} (ha : a < l) (hb : b < l) : a' * l + a = b' * l + b ↔ a' = b' ∧ a = b := by
  constructor
  · intro h
    have h1 := congrArg (· / l) h
    have h2 := congrArg (· % l) h
    simp only [flat_div ha, flat_div hb, flat_mod ha, flat_mod hb] at h1 h2
    exact ⟨h1, h2⟩
  · rintro ⟨rfl, rfl⟩
    rfl

theorem sum_mul_flat {K : Type} [AddCommMonoid K] (m n : ℕ) (f : ℕ → K) :
    ∑ x ∈ range (m * n), f x = ∑ a ∈ range m, ∑ b ∈ range n, f (a * n + b) := sum_range_mul m n f

theorem mulData_ok (O : SetOrder) : ∀ {us ks ds : List ℕ} {As Bs : List (ND ℂ)} {l r l' r' : ℕ},
    MpoChain ks ds As l r → MpoChain us ks Bs l' r' →
    ∃ Cs, (As.zip Bs).mapM (fun (W, W') => mulTensor O W W') = .ok Cs ∧ MpoChain us ds Cs (l' * l) (r' * r) ∧
      ∀ u d, InB us u → InB ds d → ∀ a' < l', ∀ a < l, ∀ b' < r', ∀ b < r,
        mpoAmp Cs u d (a' * l + a) (b' * r + b) = sumIdx ks fun k => mpoAmp Bs u k a' b' * mpoAmp As k d a b
  | [], [], [], [], [], l, r, l', r', h, h' => by
    have h : l = r := h
    have h' : l' = r' := h'
    subst h h'
    refine ⟨[], rfl, rfl, fun u d hu hd a' _ a ha b' _ b hb => ?_⟩
    simp only [mpoAmp, sumIdx_nil, flat_eq_iff ha hb]
    by_cases h1 : a' = b' <;> by_cases h2 : a = b <;> simp [h1, h2]
  | u :: us, k :: ks, d :: ds, W :: As, W' :: Bs, l, r, l', r', ⟨m, hW, h⟩, ⟨m', hW', h'⟩ => by
    obtain ⟨R, h1, h2, h3⟩ := mulTensor_ok O hW hW'
    obtain ⟨Cs, h4, h5, h6⟩ := mulData_ok O h h'
    refine ⟨R :: Cs, by simp only [List.zip_cons_cons, List.mapM_cons, h1, ok_bind, h4]; rfl, ⟨m' * m, h2, h5⟩, ?_⟩
    intro uu dd hu hd a' ha' a ha b' hb' b hb
    match uu, dd, hu, hd with
    | i :: uu, j :: dd, hu, hd =>
      have e1 : W.dim 1 = m := by simp [ND.dim, hW]
      have e2 : W'.dim 1 = m' := by simp [ND.dim, hW']
      have e3 : R.dim 1 = m' * m := by simp [ND.dim, h2]
      rw [mpoAmp, e3, sum_mul_flat]
      have hl : ∀ c' ∈ range m', ∀ c ∈ range m,
          R.val [i, c' * m + c, j, a' * l + a] * mpoAmp Cs uu dd (c' * m + c) (b' * r + b) =
          ∑ x ∈ range k, sumIdx ks fun kk => (W'.val [i, c', x, a'] * mpoAmp Bs uu kk c' b') * (W.val [x, c, j, a] * mpoAmp As kk dd c b) := by
        intro c' hc' c hc
        rw [h3 i hu.1 c' (mem_range.1 hc') c (mem_range.1 hc) j hd.1 a' ha' a ha,
          h6 uu dd hu.2 hd.2 c' (mem_range.1 hc') c (mem_range.1 hc) b' hb' b hb, sum_mul]
        refine sum_congr rfl fun x _ => ?_
        rw [← sumIdx_mul_left]
        refine sumIdx_congr fun kk _ => ?_
        ring
      rw [sum_congr rfl fun c' hc' => sum_congr rfl fun c hc => hl c' hc' c hc]
      simp only [sumIdx_cons]
      have hr : ∀ x ∈ range k, (sumIdx ks fun kk => mpoAmp (W' :: Bs) (i :: uu) (x :: kk) a' b' * mpoAmp (W :: As) (x :: kk) (j :: dd) a b) =
          ∑ c' ∈ range m', ∑ c ∈ range m, sumIdx ks fun kk =>
            (W'.val [i, c', x, a'] * mpoAmp Bs uu kk c' b') * (W.val [x, c, j, a] * mpoAmp As kk dd c b) := by
        intro x _
        simp only [← sumIdx_finset_sum]
        refine sumIdx_congr fun kk _ => ?_
        rw [mpoAmp, mpoAmp, e1, e2, sum_mul_sum]
      rw [sum_congr rfl hr]
      refine Eq.trans ?_ sum_comm
      exact sum_congr rfl fun c' _ => sum_comm
  | [], [], [], _ :: _, _, _, _, _, _, h, _ => by simp [MpoChain] at h
  | [], [], [], _, _ :: _, _, _, _, _, _, h => by simp [MpoChain] at h
  | _, [], _ :: _, _, _, _, _, _, _, h, _ => by simp [MpoChain] at h
  | _, _ :: _, [], _, _, _, _, _, _, h, _ => by simp [MpoChain] at h
  | _ :: _, [], _, _, _, _, _, _, _, _, h => by simp [MpoChain] at h
  | [], _ :: _, _, _, _, _, _, _, _, _, h => by simp [MpoChain] at h
  | _, _ :: _, _ :: _, [], _, _, _, _, _, h, _ => by simp [MpoChain] at h
  | _ :: _, _ :: _, _, _, [], _, _, _, _, _, h => by simp [MpoChain] at h

/-- The product holds the product operator: the lower legs of the right factor are joined to the
upper legs of the left factor. -/
theorem mul_elem (O : SetOrder) {A B : FMPO} {us ks ds : List ℕ} {l l' : ℕ} (hA : A.Holds ks ds l)
    (hB : B.Holds us ks l') :
    ∃ C, mul O A B = .ok C ∧ C.Holds us ds (l' * l) ∧ C.d = A.d ∧ C.X = A.X * B.X ∧
      ∀ u d, InB us u → InB ds d →
        opElem (l' * l) C.data u d = sumIdx ks fun k => opElem l' B.data u k * opElem l A.data k d := by
  obtain ⟨Cs, h1, h2, h3⟩ := mulData_ok O hA.chain hB.chain
  have hl : Cs.length = A.data.length := by rw [← h2.length_d, hA.chain.length_d]
  have ne : ∀ {l : List (ND ℂ)}, 2 ≤ l.length → l ≠ [] := by rintro l h rfl; simp at h
  refine ⟨⟨Cs, Cs.length, A.d, A.X * B.X⟩, ?_, ⟨h2, rfl, by rw [hl]; exact hA.two⟩, rfl, rfl, ?_⟩
  · unfold mul
    rw [h1]
    rfl
  · intro u d hu hd
    rw [opElem_eq h2 (ne (by rw [hl]; exact hA.two)) hu.length_eq hd.length_eq, sum_mul_flat]
    have e : ∀ a' ∈ range l', ∀ a ∈ range l, mpoAmp Cs u d (a' * l + a) (a' * l + a) =
        sumIdx ks fun k => mpoAmp B.data u k a' a' * mpoAmp A.data k d a a := fun a' ha' a ha =>
      h3 u d hu hd a' (mem_range.1 ha') a (mem_range.1 ha) a' (mem_range.1 ha') a (mem_range.1 ha)
    rw [sum_congr rfl fun a' ha' => sum_congr rfl fun a ha => e a' ha' a ha]
    simp only [← sumIdx_finset_sum]
    refine sumIdx_congr fun k hk => ?_
    rw [opElem_eq hB.chain (ne hB.two) hu.length_eq hk.length_eq, opElem_eq hA.chain (ne hA.two) hk.length_eq hd.length_eq,
      sum_mul_sum]

/-! ## `recombine` -/

theorem mpoL_map (f g b : ℕ → ℤ) (z : ℤ) : ∀ (k a : ℕ),
    mpoL ((List.range' a (k + 1)).map f) ((List.range' a (k + 1)).map g) ((List.range' a (k + 1)).map b ++ [z]) =
      (List.range' a k).map (fun n => [f n, b (n + 1), g n, b n]) ++ [[f (a + k), z, g (a + k), b (a + k)]]
  | 0, a => by simp [mpoL]
  | k + 1, a => by
    rw [List.range'_succ, List.map_cons, List.map_cons, List.map_cons]
    have ih := mpoL_map f g b z k (a + 1)
    rw [List.range'_succ (n := k), List.map_cons, List.map_cons, List.map_cons] at ih ⊢
    simp only [List.cons_append, mpoL] at ih ⊢
    rw [ih, List.range'_succ, List.map_cons]
    simp [Nat.add_assoc, Nat.add_comm 1 k]

theorem recLabels_eq (n : ℕ) : recLabels (n + 2) =
    mpoL ((List.range (n + 2)).map fun k : ℕ => -(k : ℤ) - 1) ((List.range (n + 2)).map fun k : ℕ => -((n : ℤ) + 2) - 1 - k)
      (((n : ℤ) + 3) :: ((List.range (n + 1)).map fun k : ℕ => (k : ℤ) + 1) ++ [(n : ℤ) + 3]) := by
  have e : (((n : ℤ) + 3) :: ((List.range (n + 1)).map fun k : ℕ => (k : ℤ) + 1)) =
      (List.range' 0 (n + 2)).map (fun k : ℕ => if k = 0 then (n : ℤ) + 3 else k) := by
    rw [List.range'_succ, List.map_cons, List.range'_eq_map_range, List.map_map]
    refine congrArg₂ List.cons (by simp) (List.map_congr_left fun k _ => ?_)
    simp only [Function.comp_apply]
    rw [if_neg (by omega)]
    push_cast
    ring
  rw [e, List.range_eq_range', mpoL_map, List.range'_succ, List.map_cons, List.range'_eq_map_range, List.map_map]
  unfold recLabels
  simp only [List.singleton_append, List.cons_append]
  refine congrArg₂ List.cons ?_ (congrArg₂ (· ++ ·) ?_ ?_)
  · simp
    ring
  · refine List.map_congr_left fun k _ => ?_
    simp only [Function.comp_apply]
    rw [if_neg (by omega), if_neg (by omega)]
    push_cast
    simp only [List.cons.injEq, and_true]
    refine ⟨?_, ?_, ?_, ?_⟩ <;> ring
  · rw [if_neg (by omega)]
    push_cast
    simp only [List.cons.injEq, and_true]
    refine ⟨?_, ?_, ?_, ?_⟩ <;> ring

/-- `recombine()` is the conjugate transpose of the operator, rows numbered by the lower indices
and columns by the upper ones, first site most significant. -/
theorem recombine_ok (O : SetOrder) {A : FMPO} {us ds : List ℕ} {l : ℕ} (hA : A.Holds us ds l) :
    ∃ R, recombine O A = .ok R ∧ R.shape = [ds.prod, us.prod] ∧
      ∀ u d, InB us u → InB ds d → R.val [ravel ds d, ravel us u] = star (opElem l A.data u d) := by
  obtain ⟨n, hn⟩ : ∃ n, A.data.length = n + 2 := ⟨A.data.length - 2, by have := hA.two; omega⟩
  have ne : A.data ≠ [] := by intro h; rw [h] at hn; simp at hn
  obtain ⟨R, h1, h2, h3⟩ := nc_mpo O hA.chain ne
    (U := (List.range (n + 2)).map fun k : ℕ => -(k : ℤ) - 1)
    (D := (List.range (n + 2)).map fun k : ℕ => -((n : ℤ) + 2) - 1 - k)
    (b0 := (n : ℤ) + 3) (B := (List.range (n + 1)).map fun k : ℕ => (k : ℤ) + 1)
    (by
      rw [List.nodup_cons]
      refine ⟨?_, List.nodup_range.map fun a b h => by simpa using h⟩
      simp only [List.mem_map, List.mem_range, not_exists, not_and]
      intro k hk
      omega)
    (by
      intro x hx
      simp only [List.mem_cons, List.mem_map, List.mem_range] at hx
      rcases hx with rfl | ⟨k, _, rfl⟩ <;> omega)
    (by
      rw [List.pairwise_append]
      refine ⟨?_, ?_, ?_⟩
      · rw [List.pairwise_map]
        exact List.pairwise_lt_range.imp fun h => by omega
      · rw [List.pairwise_map]
        exact List.pairwise_lt_range.imp fun h => by omega
      · intro x hx y hy
        simp only [List.mem_map, List.mem_range] at hx hy
        obtain ⟨k, hk, rfl⟩ := hx
        obtain ⟨k', hk', rfl⟩ := hy
        omega)
    (by
      intro x hx
      simp only [List.mem_append, List.mem_map, List.mem_range] at hx
      rcases hx with ⟨k, _, rfl⟩ | ⟨k, _, rfl⟩ <;> omega)
    (by simp [hn]) (by simp [hn]) (by simp [hn])
  have hL : A.L = us.length := by rw [hA.len, hA.chain.length_u]
  have ht : (us ++ ds).take A.L = us := by rw [hL]; simp
  have hd : (us ++ ds).drop A.L = ds := by rw [hL]; simp
  refine ⟨(R.reshapeR [us.prod, ds.prod]).conj.tr, ?_, rfl, ?_⟩
  · unfold recombine
    rw [hA.len, hn, recLabels_eq, h1, ok_bind, ← hn, ← hA.len, h2, ht, hd, ND.reshape_ok_any (by rw [h2]; simp), ok_bind]
  · intro u d hu hd
    change star ((R.reshapeR [us.prod, ds.prod]).val [ravel us u, ravel ds d]) = _
    rw [← h3 u d hu hd]
    refine congrArg star (ND.reshapeR_val_any (by rw [h2]; exact hu.append hd) ?_)
    rw [h2, ravel_append _ _ hu.length_eq]
    simp

theorem eqv_of_pair {A B : ND ℂ} {m n : ℕ} (hA : A.shape = [m, n]) (hB : B.shape = [m, n])
    (h : ∀ i < m, ∀ j < n, A.val [i, j] = B.val [i, j]) : A ≈ B := by
  refine ⟨by rw [hA, hB], fun idx hi => ?_⟩
  rw [hA] at hi
  match idx, hi with
  | [i, j], hi => exact h i hi.1 j hi.2.1

/-- **C42**: `(A*B).recombine()` is `A.recombine() @ B.recombine()`, for all MPOs of equal length
(at least two sites) whose joined legs agree, including rings (`l`, `l'` arbitrary). -/
theorem mul_recombine (O : SetOrder) {A B : FMPO} {us ks ds : List ℕ} {l l' : ℕ} (hA : A.Holds ks ds l)
    (hB : B.Holds us ks l') :
    ∃ C RA RB RC M, mul O A B = .ok C ∧ recombine O A = .ok RA ∧ recombine O B = .ok RB ∧ recombine O C = .ok RC ∧
      RA.matmul RB = .ok M ∧ RC ≈ M := by
  obtain ⟨C, hC, hCh, _, _, hCe⟩ := mul_elem O hA hB
  obtain ⟨RA, hRA, sA, vA⟩ := recombine_ok O hA
  obtain ⟨RB, hRB, sB, vB⟩ := recombine_ok O hB
  obtain ⟨RC, hRC, sC, vC⟩ := recombine_ok O hCh
  obtain ⟨M, hM, sM, vM⟩ := ND.matmul22 sA sB
  refine ⟨C, RA, RB, RC, M, hC, hRA, hRB, hRC, hM, eqv_of_pair sC sM fun i hi j hj => ?_⟩
  have hd := InB_unravel hi
  have hu := InB_unravel hj
  have e := vC _ _ hu hd
  rw [hCe _ _ hu hd, ravel_unravel hi, ravel_unravel hj, sumIdx_star, sumIdx_eq_flat] at e
  rw [e, vM]
  refine sum_congr rfl fun k hk => ?_
  have hk := mem_range.1 hk
  have e1 := vA _ _ (InB_unravel hk) hd
  have e2 := vB _ _ hu (InB_unravel hk)
  rw [ravel_unravel hi, ravel_unravel hk] at e1
  rw [ravel_unravel hj, ravel_unravel hk] at e2
  rw [e1, e2, star_mul']
  ring

theorem pop_single (O : SetOrder) (k : ℕ) : O.pop {k} = k := by
  simpa using O.pop_mem {k} (by simp)

/-- **C42** fails for a single site: `recombine` writes labels for two tensors, and `ncon` finds the
label 1 once and raises `ValueError`. -/
theorem recombine_single (O : SetOrder) (W : ND ℂ) (d X : ℕ) :
    recombine O ⟨[W], 1, d, X⟩ = .error .valueError := by
  have hv : recLabels 1 = [[-1, 1, -2, 2], [-1, 2, -2, 0]] := by decide
  have ho : createOrder [[-1, 1, -2, 2], [-1, 2, -2, 0]] = [1, 2] := by
    have h : (([[-1, 1, -2, 2], [-1, 2, -2, 0]] : List (List ℤ)).flatten.filter (fun i => decide (0 < i))).dedup = [1, 2] := by decide
    rw [createOrder, h]
    exact List.mergeSort_of_pairwise (by decide)
  have hn0 : neighs [[-1, 1, -2, 2], [-1, 2, -2, 0]] [-1, 1, -2, 2] = [0, 1] := by decide
  have hn1 : neighs [[-1, 1, -2, 2], [-1, 2, -2, 0]] [-1, 2, -2, 0] = [0, 1] := by decide
  have hc : connectGraph O (⟨[W], [[-1, 1, -2, 2], [-1, 2, -2, 0]], [1, 2]⟩ : Net ℂ) = .ok ⟨[W], [[-1, 1, -2, 2], [-1, 2, -2, 0]], [1, 2]⟩ := by
    simp [connectGraph, outerLoop, innerLoop, pop_single, pyGet, hn0, hn1, linkLoop]
  have ht : getTcon [[-1, 1, -2, 2], [-1, 2, -2, 0]] 1 = .error .valueError := by decide
  have hb : nconBody O [W] [[-1, 1, -2, 2], [-1, 2, -2, 0]] [1, 2] (createForder [[-1, 1, -2, 2], [-1, 2, -2, 0]]) false =
      .error .valueError := by
    have hm : mainLoop O 2 (⟨[W], [[-1, 1, -2, 2], [-1, 2, -2, 0]], [1, 2]⟩ : Net ℂ) = .error .valueError := by
      unfold mainLoop
      unfold step
      simp only [ht]
      rfl
    simp only [nconBody, hc, ok_bind, List.length_cons, List.length_nil, hm, err_bind, Bool.false_eq_true, if_false]
  unfold recombine
  rw [hv]
  change ((nconEff O (.many [W]) (.nested [[-1, 1, -2, 2], [-1, 2, -2, 0]]) none none false).map Prod.fst >>= _) = _
  have he : nconEff O (.many [W]) (.nested [[-1, 1, -2, 2], [-1, 2, -2, 0]]) none none false = .error .valueError := by
    unfold nconEff
    change (nconBody O [W] [[-1, 1, -2, 2], [-1, 2, -2, 0]] (createOrder [[-1, 1, -2, 2], [-1, 2, -2, 0]]) (createForder [[-1, 1, -2, 2], [-1, 2, -2, 0]]) false >>= _) = _
    rw [ho, hb]
    rfl
  rw [he]
  rfl

/-! ## Operators and states -/

theorem fromMps_data : ∀ {ds : List ℕ} {As : List (ND ℂ)} {l r : ℕ}, MpsChain ds As l r →
    ∃ Ws, (As.mapM fun A => do
      let t ← A.transpose [2, 0, 1]
      (.ok ⟨1 :: t.shape, fun idx => t.val idx.tail⟩ : Py (ND ℂ))) = .ok Ws ∧
      MpoChain (List.replicate ds.length 1) ds Ws l r ∧ Ws.map (·.dim 1) = As.map (·.dim 2) ∧
      ∀ s bs, s.length = ds.length → bs.length = ds.length + 1 →
        mpoPath Ws (List.replicate ds.length 0) s bs = pathProd As s bs
  | [], [], _, _, h => ⟨[], rfl, h, rfl, fun _ _ _ _ => by simp [mpoPath, pathProd]⟩
  | d :: ds, A :: As, l, r, ⟨m, hA, h⟩ => by
    obtain ⟨Ws, h1, h2, h3, h4⟩ := fromMps_data h
    have ht : A.transpose [2, 0, 1] = .ok (A.transposeR [2, 0, 1]) := ND.transpose_ok (by simp only [ND.rank, hA, List.length_cons, List.length_nil]; decide)
    have hs : (A.transposeR [2, 0, 1]).shape = [m, d, l] := by simp [ND.transposeR, ND.dim, hA]
    refine ⟨⟨1 :: [m, d, l], fun idx => (A.transposeR [2, 0, 1]).val idx.tail⟩ :: Ws, ?_, ⟨m, rfl, h2⟩, ?_, ?_⟩
    · rw [List.mapM_cons, ht, ok_bind, h1, hs]
      rfl
    · rw [List.map_cons, List.map_cons, h3, dim2 hA]
      rfl
    · intro s bs hs hb
      match s, bs, hs, hb with
      | s :: ss, a :: b :: bs, hs, hb =>
        simp only [List.length_cons, List.replicate_succ, mpoPath, pathProd]
        rw [h4 ss (b :: bs) (by simpa using hs) (by simpa using hb)]
        refine congrArg (· * _) ?_
        simp [ND.transposeR, hA, ND.rank, ND.dim, List.range_succ]
  | [], _ :: _, _, _, h => by simp at h
  | _ :: _, [], _, _, h => by simp at h

/-- `fMPO().from_mps(x)` has upper legs of extent 1 and the amplitudes of `x` as its elements. -/
theorem fromMps_elem {x : FMPS ℂ} {ds : List ℕ} (hx : x.Holds ds) (h2 : 2 ≤ ds.length) :
    ∃ B, fromMps x = .ok B ∧ B.Holds (List.replicate ds.length 1) ds 1 ∧ B.d = x.d ∧ B.X = x.D ∧
      ∀ s, InB ds s → opElem 1 B.data (List.replicate ds.length 0) s = psi x.data s := by
  obtain ⟨Ws, h1, h3, h4, h5⟩ := fromMps_data hx.chain
  have hl := h3.length_d
  have hl' := hx.chain.length_eq
  refine ⟨⟨Ws, x.L, x.d, x.D⟩, by unfold fromMps; rw [h1]; rfl, ⟨h3, by rw [hx.len, hl], by simp; omega⟩, rfl, rfl, ?_⟩
  intro s hs
  simp only [opElem, psi, Finset.sum_range_one, h4]
  refine sumIdx_congr fun bs hb => h5 s _ hs.length_eq ?_
  have := hb.length_eq
  simp at this ⊢
  omega

theorem InB_zeros : ∀ n : ℕ, InB (List.replicate n 1) (List.replicate n 0)
  | 0 => trivial
  | n + 1 => ⟨Nat.one_pos, InB_zeros n⟩

theorem ravel_zeros : ∀ n : ℕ, ravel (List.replicate n 1) (List.replicate n 0) = 0
  | 0 => rfl
  | n + 1 => by simp [List.replicate_succ, ravel_zeros n]

/-- **C42**: an MPO times an MPS, recombined, is the column `A.recombine() @ conj(psi)`: the matrix
times the vector, in the convention of `recombine` that everything is conjugated. -/
theorem mulMps_recombine (O : SetOrder) {A : FMPO} {x : FMPS ℂ} {ks ds : List ℕ} {l : ℕ} (hA : A.Holds ks ds l)
    (hx : x.Holds ks) :
    ∃ C RA RC, mulMps O A x = .ok C ∧ recombine O A = .ok RA ∧ recombine O C = .ok RC ∧ RC.shape = [ds.prod, 1] ∧
      ∀ i < ds.prod, RC.val [i, 0] = sumIdx ks fun k => RA.val [i, ravel ks k] * star (psi x.data k) := by
  have h2 : 2 ≤ ks.length := by rw [hA.chain.length_u]; exact hA.two
  obtain ⟨B, hB, hBh, _, _, hBe⟩ := fromMps_elem hx h2
  obtain ⟨C, hC, hCh, _, _, hCe⟩ := mul_elem O hA hBh
  obtain ⟨RA, hRA, sA, vA⟩ := recombine_ok O hA
  obtain ⟨RC, hRC, sC, vC⟩ := recombine_ok O hCh
  refine ⟨C, RA, RC, by unfold mulMps; rw [hB, ok_bind, hC], hRA, hRC, by simpa using sC, fun i hi => ?_⟩
  have hd := InB_unravel hi
  have e := vC _ _ (InB_zeros ks.length) hd
  rw [ravel_zeros, ravel_unravel hi, hCe _ _ (InB_zeros _) hd, sumIdx_star] at e
  rw [e]
  refine sumIdx_congr fun k hk => ?_
  have e1 := vA _ _ hk hd
  rw [ravel_unravel hi] at e1
  rw [e1, hBe k hk, star_mul']
  ring

/-- The vector in the other convention: the elements of `A * x` themselves are the sums
`Σ_k psi(k) A[k, d]`. -/
theorem mulMps_elem (O : SetOrder) {A : FMPO} {x : FMPS ℂ} {ks ds : List ℕ} {l : ℕ} (hA : A.Holds ks ds l)
    (hx : x.Holds ks) :
    ∃ C, mulMps O A x = .ok C ∧ C.Holds (List.replicate ks.length 1) ds l ∧
      ∀ d, InB ds d → opElem l C.data (List.replicate ks.length 0) d =
        sumIdx ks fun k => psi x.data k * opElem l A.data k d := by
  have h2 : 2 ≤ ks.length := by rw [hA.chain.length_u]; exact hA.two
  obtain ⟨B, hB, hBh, _, _, hBe⟩ := fromMps_elem hx h2
  obtain ⟨C, hC, hCh, _, _, hCe⟩ := mul_elem O hA hBh
  rw [one_mul] at hCh hCe
  refine ⟨C, by unfold mulMps; rw [hB, ok_bind, hC], hCh, fun d hd => ?_⟩
  rw [hCe _ d (InB_zeros _) hd]
  exact sumIdx_congr fun k hk => by rw [hBe k hk]

/-! ## Transposition -/

theorem transposeUd_data : ∀ {us ds : List ℕ} {Ws : List (ND ℂ)} {l r : ℕ}, MpoChain us ds Ws l r →
    ∃ Vs, Ws.mapM (·.transpose [2, 1, 0, 3]) = .ok Vs ∧ MpoChain ds us Vs l r ∧ Vs.map (·.dim 1) = Ws.map (·.dim 1) ∧
      ∀ u d bs, u.length = us.length → d.length = ds.length → bs.length = us.length + 1 →
        mpoPath Vs d u bs = mpoPath Ws u d bs
  | [], [], [], _, _, h => ⟨[], rfl, h, rfl, fun _ _ _ _ _ _ => by simp [mpoPath]⟩
  | u :: us, d :: ds, W :: Ws, l, r, ⟨m, hW, h⟩ => by
    obtain ⟨Vs, h1, h2, h3, h4⟩ := transposeUd_data h
    have ht : W.transpose [2, 1, 0, 3] = .ok (W.transposeR [2, 1, 0, 3]) := ND.transpose_ok (by simp only [ND.rank, hW, List.length_cons, List.length_nil]; decide)
    have hs : (W.transposeR [2, 1, 0, 3]).shape = [d, m, u, l] := by simp [ND.transposeR, ND.dim, hW]
    refine ⟨W.transposeR [2, 1, 0, 3] :: Vs, by rw [List.mapM_cons, ht, ok_bind, h1]; rfl, ⟨m, hs, h2⟩, ?_, ?_⟩
    · rw [List.map_cons, List.map_cons, h3]
      simp [ND.dim, hW]
    · intro uu dd bs hu hd hb
      match uu, dd, bs, hu, hd, hb with
      | i :: uu, j :: dd, a :: b :: bs, hu, hd, hb =>
        simp only [mpoPath]
        rw [h4 uu dd (b :: bs) (by simpa using hu) (by simpa using hd) (by simpa using hb)]
        refine congrArg (· * _) ?_
        simp [ND.transposeR, hW, ND.rank, ND.dim, List.range_succ]
  | [], _ :: _, _, _, _, h => by simp [MpoChain] at h
  | _ :: _, [], _, _, _, h => by simp [MpoChain] at h
  | [], [], _ :: _, _, _, h => by simp [MpoChain] at h
  | _ :: _, _ :: _, [], _, _, h => by simp [MpoChain] at h

/-- `transpose_ud` is the transposed operator. -/
theorem transposeUd_elem {A : FMPO} {us ds : List ℕ} {l : ℕ} (hA : A.Holds us ds l) :
    ∃ C, transposeUd A = .ok C ∧ C.Holds ds us l ∧
      ∀ u d, InB us u → InB ds d → opElem l C.data d u = opElem l A.data u d := by
  obtain ⟨Vs, h1, h2, h3, h4⟩ := transposeUd_data hA.chain
  have hl : Vs.length = A.data.length := by rw [← h2.length_d, hA.chain.length_u]
  refine ⟨{ A with data := Vs }, by unfold transposeUd; rw [h1]; rfl, ⟨h2, by rw [hA.len, hl], by rw [hl]; exact hA.two⟩, ?_⟩
  intro u d hu hd
  simp only [opElem, h3]
  refine sum_congr rfl fun a _ => sumIdx_congr fun bs hb => h4 u d _ hu.length_eq hd.length_eq ?_
  have := hb.length_eq
  have := hA.chain.length_u
  have := hA.two
  simp at *
  omega

/-! ## Examples -/

/-- two sites, bond 1 at the ends, 2 inside, local extent 2: entries all different -/
noncomputable def exMpo : FMPO :=
  ⟨[⟨[2, 2, 2, 1], fun idx => (ravel [2, 2, 2, 1] idx : ℂ)⟩, ⟨[2, 1, 2, 2], fun idx => (ravel [2, 1, 2, 2] idx : ℂ) + Complex.I⟩], 2, 2, 2⟩

theorem exMpo_holds : exMpo.Holds [2, 2] [2, 2] 1 := ⟨⟨2, rfl, 1, rfl, rfl⟩, rfl, le_refl 2⟩

example (O : SetOrder) := mul_recombine O exMpo_holds exMpo_holds
example (O : SetOrder) := mul_elem O exMpo_holds exMpo_holds
example (O : SetOrder) := recombine_ok O exMpo_holds
example (O : SetOrder) := mulMps_recombine O exMpo_holds (x := exTwo 1) (exTwo_holds 1)
example (O : SetOrder) := mulMps_elem O exMpo_holds (x := exTwo 1) (exTwo_holds 1)
example := transposeUd_elem exMpo_holds
example := fromMps_elem (exTwo_holds 1) (le_refl 2)

end FMPO

end Xmps
