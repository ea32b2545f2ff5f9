import Verif.Model.PepsOverlap
import Verif.Props.Peps
import Verif.Props.Fmpo

/-!
# C60: overlaps, norms and expectation values of a PEPS

Specification: Spec/Peps (`pepsAmp`).
-/

namespace Xmps.Spec

open Finset

/-- `⟨g|g'⟩`: the sum over all basis states. -/
noncomputable def pepsBraket {m n : ℕ} (ph : Fin m → Fin n → ℕ) (vE vE' : Fin (m + 1) → Fin n → ℕ)
    (hE hE' : Fin m → Fin (n + 1) → ℕ) (g g' : Fin m → Fin n → ND ℂ) : ℂ :=
  ∑ s ∈ bondVals ph, star (pepsAmp vE hE g s) * pepsAmp vE' hE' g' s

/-- Open boundaries: the bonds leaving the grid have extent 1. -/
structure OpenGrid {m n : ℕ} (vE : Fin (m + 1) → Fin n → ℕ) (hE : Fin m → Fin (n + 1) → ℕ) : Prop where
  top : ∀ i, vE 0 i = 1
  bottom : ∀ i, vE (Fin.last m) i = 1
  left : ∀ j, hE j 0 = 1
  right : ∀ j, hE j (Fin.last n) = 1

end Xmps.Spec

namespace Xmps

open Finset Xmps.Spec Xmps.Ncon

namespace FPEPS

/-! ## Sums over functions on `Fin` and over index lists -/

theorem sum_piFinset_cons {K α : Type} [AddCommMonoid K] {n : ℕ} (S : Fin (n + 1) → Finset α) (F : (Fin (n + 1) → α) → K) :
    ∑ v ∈ Fintype.piFinset S, F v = ∑ a ∈ S 0, ∑ v ∈ Fintype.piFinset (fun i : Fin n => S i.succ), F (Fin.cons a v) := by
  rw [← Finset.sum_product']
  refine Finset.sum_nbij' (fun v => (v 0, fun i => v i.succ)) (fun p => Fin.cons p.1 p.2) ?_ ?_ ?_ ?_ ?_
  · intro v hv
    simp only [Fintype.mem_piFinset, mem_product] at hv ⊢
    exact ⟨hv 0, fun i => hv i.succ⟩
  · intro p hp
    simp only [Fintype.mem_piFinset, mem_product] at hp ⊢
    intro i
    refine Fin.cases ?_ (fun i => ?_) i
    · simpa using hp.1
    · simpa using hp.2 i
  · intro v _
    exact Fin.cons_self_tail v
  · intro p _
    simp
  · intro v _
    exact congrArg F (Fin.cons_self_tail v).symm

theorem sumIdx_ofFn {K : Type} [AddCommMonoid K] : ∀ {n : ℕ} (e : Fin n → ℕ) (F : List ℕ → K),
    sumIdx (List.ofFn e) F = ∑ v ∈ Fintype.piFinset (fun i => range (e i)), F (List.ofFn v)
  | 0, e, F => by simp
  | n + 1, e, F => by
    rw [List.ofFn_succ, sumIdx_cons, sum_piFinset_cons]
    refine sum_congr rfl fun a _ => ?_
    rw [sumIdx_ofFn]
    refine sum_congr rfl fun v _ => ?_
    rw [List.ofFn_succ]
    simp

theorem mpoPath_ofFn {K : Type} [CommSemiring K] : ∀ {n : ℕ} (g : Fin n → ND K) (u d : Fin n → ℕ) (h : Fin (n + 1) → ℕ),
    mpoPath (List.ofFn g) (List.ofFn u) (List.ofFn d) (List.ofFn h) = ∏ i, (g i).val [u i, h i.succ, d i, h i.castSucc]
  | 0, g, u, d, h => by simp [mpoPath]
  | n + 1, g, u, d, h => by
    rw [List.ofFn_succ, List.ofFn_succ, List.ofFn_succ, List.ofFn_succ, List.ofFn_succ, mpoPath, Fin.prod_univ_succ]
    have := mpoPath_ofFn (fun i => g i.succ) (fun i => u i.succ) (fun i => d i.succ) (fun i => h i.succ)
    rw [List.ofFn_succ] at this
    rw [this]
    rfl

theorem inB_ofFn : ∀ {n : ℕ} (e v : Fin n → ℕ), InB (List.ofFn e) (List.ofFn v) ↔ ∀ i, v i < e i
  | 0, e, v => by simp
  | n + 1, e, v => by
    rw [List.ofFn_succ, List.ofFn_succ, InB_cons, inB_ofFn, Fin.forall_fin_succ]

/-- a row of an operator with trivial outer bonds -/
theorem opElem_ofFn {n : ℕ} (g : Fin (n + 1) → ND ℂ) (hE : Fin (n + 2) → ℕ) (ue de : Fin (n + 1) → ℕ)
    (hg : ∀ i, (g i).shape = [ue i, hE i.succ, de i, hE i.castSucc]) (h0 : hE 0 = 1) (h1 : hE (Fin.last _) = 1)
    (u d : Fin (n + 1) → ℕ) :
    opElem 1 (List.ofFn g) (List.ofFn u) (List.ofFn d) =
      ∑ h ∈ Fintype.piFinset (fun i => range (hE i)), ∏ i, (g i).val [u i, h i.succ, d i, h i.castSucc] := by
  have e : List.ofFn hE = 1 :: ((List.ofFn g).map (·.dim 1)).dropLast ++ [1] := by
    rw [List.map_ofFn, List.ofFn_succ, h0, List.cons_append]
    refine congrArg (List.cons 1) ?_
    have : (List.ofFn ((fun x => x.dim 1) ∘ g)) = List.ofFn fun i : Fin (n + 1) => hE i.succ := by
      congr 1
      funext i
      simp [ND.dim, hg]
    rw [this, List.ofFn_succ', List.concat_eq_append, List.dropLast_concat, Fin.succ_last, h1]
  rw [← sum_congr rfl fun h _ => mpoPath_ofFn g u d h, ← sumIdx_ofFn hE fun l => mpoPath (List.ofFn g) (List.ofFn u) (List.ofFn d) l, e]
  simp only [List.cons_append, sumIdx_cons, sumIdx_append, sumIdx_nil, sum_range_one, opElem]

theorem mpoChain_ofFn : ∀ {n : ℕ} {g : Fin n → ND ℂ} {hE : Fin (n + 1) → ℕ} {ue de : Fin n → ℕ},
    (∀ i, (g i).shape = [ue i, hE i.succ, de i, hE i.castSucc]) →
    MpoChain (List.ofFn ue) (List.ofFn de) (List.ofFn g) (hE 0) (hE (Fin.last n))
  | 0, _, _, _, _, _ => by simp [MpoChain]
  | n + 1, g, hE, ue, de, hg => by
    rw [List.ofFn_succ, List.ofFn_succ, List.ofFn_succ]
    refine ⟨hE (Fin.succ 0), hg 0, ?_⟩
    exact mpoChain_ofFn (hE := fun i => hE i.succ) (fun i => hg i.succ)

/-! ## One tensor, one row -/

theorem pairTensor_ok {A B : ND ℂ} {p u r d l u' r' d' l' : ℕ} (hA : A.shape = [p, u, r, d, l])
    (hB : B.shape = [p, u', r', d', l']) :
    ∃ W, pairTensor A B = .ok W ∧ W.shape = [u * u', r * r', d * d', l * l'] ∧
      ∀ i < u, ∀ i' < u', ∀ b < r, ∀ b' < r', ∀ j < d, ∀ j' < d', ∀ a < l, ∀ a' < l',
        W.val [i * u' + i', b * r' + b', j * d' + j', a * l' + a'] =
          ∑ s ∈ range p, A.val [s, i, b, j, a] * star (B.val [s, i', b', j', a']) := by
  unfold pairTensor
  obtain ⟨Bc, hb⟩ : ∃ Bc, Bc = B.conj := ⟨_, rfl⟩
  rw [← hb]
  have hBc : Bc.shape = [p, u', r', d', l'] := by rw [hb]; exact hB
  have vBc : ∀ idx, Bc.val idx = star (B.val idx) := fun _ => by rw [hb]; rfl
  have h1 : A.tensordot Bc [0] [0] = .ok (A.tensordotR Bc [0] [0]) := by
    simp [ND.tensordot, ND.rank, ND.dim, hA, hBc]
  set C := A.tensordotR Bc [0] [0] with hC
  have sC : C.shape = [u, r, d, l, u', r', d', l'] := by
    simp [hC, ND.tensordotR, ND.rank, ND.others, ND.dim, hA, hBc, List.range_succ]
  have vC : ∀ i b j a i' b' j' a', C.val [i, b, j, a, i', b', j', a'] =
      ∑ s ∈ range p, A.val [s, i, b, j, a] * star (B.val [s, i', b', j', a']) := by
    intro i b j a i' b' j' a'
    simp [hC, ND.tensordotR, ND.transposeR, ND.rank, ND.others, ND.dim, hA, hBc, List.range_succ, vBc]
  have h2 : C.transpose [0, 4, 1, 5, 2, 6, 3, 7] = .ok (C.transposeR [0, 4, 1, 5, 2, 6, 3, 7]) :=
    ND.transpose_ok (by simp only [ND.rank, sC, List.length_cons, List.length_nil]; decide)
  set D := C.transposeR [0, 4, 1, 5, 2, 6, 3, 7] with hD
  have sD : D.shape = [u, u', r, r', d, d', l, l'] := by simp [hD, ND.transposeR, ND.dim, sC]
  have vD : ∀ i i' b b' j j' a a', D.val [i, i', b, b', j, j', a, a'] = C.val [i, b, j, a, i', b', j', a'] := by
    intro i i' b b' j j' a a'
    simp [hD, ND.transposeR, sC, ND.rank, ND.dim, List.range_succ]
  refine ⟨D.reshapeR [u * u', r * r', d * d', l * l'], ?_, rfl, ?_⟩
  · rw [h1, ok_bind, h2, ok_bind, hA, hB]
    simp only [List.tail_cons, List.zipWith_cons_cons, List.zipWith_nil_left]
    rw [ND.reshape_ok_any]
    rw [sD]
    simp only [List.prod_cons, List.prod_nil]
    ring
  · intro i hi i' hi' b hb b' hb' j hj j' hj' a ha a' ha'
    rw [← vC, ← vD]
    refine ND.reshapeR_val_any ?_ ?_
    · rw [sD]
      exact ⟨hi, hi', hb, hb', hj, hj', ha, ha', trivial⟩
    · rw [sD]
      simp only [ravel_cons, ravel_nil, List.prod_cons, List.prod_nil]
      ring

theorem zip_ofFn {α β : Type} : ∀ {n : ℕ} (a : Fin n → α) (b : Fin n → β), (List.ofFn a).zip (List.ofFn b) = List.ofFn fun i => (a i, b i)
  | 0, _, _ => by simp
  | n + 1, a, b => by rw [List.ofFn_succ, List.ofFn_succ, List.ofFn_succ, List.zip_cons_cons, zip_ofFn]

theorem fmpo_maxBond_ok {l : List (ND ℂ)} (h : l ≠ []) (hs : ∀ x ∈ l, x.shape.tail ≠ []) : ∃ X, FMPO.maxBond l = .ok X :=
  maxShape_ok h hs

/-- the doubled tensors and the rows made of them -/
theorem rowMpos_ok {m n : ℕ} {ph : Fin m → Fin (n + 1) → ℕ} {vE vE' : Fin (m + 1) → Fin (n + 1) → ℕ} {hE hE' : Fin m → Fin (n + 2) → ℕ}
    {g g' : Fin m → Fin (n + 1) → ND ℂ} {x y : FPEPS} (hx : x.Holds m (n + 1) ph vE hE g) (hy : y.Holds m (n + 1) ph vE' hE' g') :
    ∃ (M : Fin m → FMPO) (W : Fin m → Fin (n + 1) → ND ℂ), rowMpos x y = .ok (List.ofFn M) ∧ (∀ j, (M j).data = List.ofFn (W j)) ∧
      (∀ j, (M j).L = n + 1) ∧
      (∀ j i, (W j i).shape = [vE j.castSucc i * vE' j.castSucc i, hE j i.succ * hE' j i.succ, vE j.succ i * vE' j.succ i,
        hE j i.castSucc * hE' j i.castSucc]) ∧
      ∀ j i, ∀ a < vE j.castSucc i, ∀ a' < vE' j.castSucc i, ∀ b < hE j i.succ, ∀ b' < hE' j i.succ,
        ∀ c < vE j.succ i, ∀ c' < vE' j.succ i, ∀ e < hE j i.castSucc, ∀ e' < hE' j i.castSucc,
        (W j i).val [a * vE' j.castSucc i + a', b * hE' j i.succ + b', c * vE' j.succ i + c', e * hE' j i.castSucc + e'] =
          ∑ s ∈ range (ph j i), (g j i).val [s, a, b, c, e] * star ((g' j i).val [s, a', b', c', e']) := by
  choose W h1 h2 h3 using fun j i => pairTensor_ok (hx.grid j i) (hy.grid j i)
  have hM : ∀ j, ∃ M, FMPO.init (List.ofFn (W j)) = .ok M ∧ M.data = List.ofFn (W j) ∧ M.L = n + 1 := by
    intro j
    obtain ⟨X, hX⟩ := fmpo_maxBond_ok (l := List.ofFn (W j)) (by simp) (by
      intro w hw
      obtain ⟨i, rfl⟩ := (List.mem_ofFn).1 hw
      rw [h2]
      simp)
    refine ⟨⟨List.ofFn (W j), n + 1, (W j 0).shape.headI, X⟩, ?_, rfl, rfl⟩
    have e0 : pyGet (List.ofFn (W j)) 0 = .ok (W j 0) := by simp [List.ofFn_succ]
    have e1 : pyGet (W j 0).shape 0 = .ok (W j 0).shape.headI := by rw [h2]; simp
    unfold FMPO.init
    simp only [e0, ok_bind, e1, hX, List.length_ofFn]
  choose M hM1 hM2 hM3 using hM
  refine ⟨M, W, ?_, hM2, hM3, h2, h3⟩
  unfold rowMpos
  rw [hx.data, hy.data, gridList, gridList, zip_ofFn]
  refine mapM_ofFn fun j => ?_
  simp only
  rw [zip_ofFn, mapM_ofFn (b := W j) fun i => h1 j i, ok_bind, hM1]

/-! ## The product of the rows -/

theorem reduceM_append {α : Type} (f : α → α → Py α) {l : List α} (h : l ≠ []) (a : α) :
    reduceM f (l ++ [a]) = reduceM f l >>= fun r => f r a := by
  match l, h with
  | b :: l, _ =>
    rw [List.cons_append, reduceM, reduceM, List.foldlM_append]
    refine congrArg (List.foldlM f b l >>= ·) (funext fun r => ?_)
    rw [List.foldlM_cons]
    cases f r a <;> rfl

/-- the product of `m + 1` operators, the first one uppermost -/
noncomputable def stack : (m : ℕ) → (Fin (m + 1) → List ℕ → List ℕ → ℂ) → (Fin (m + 2) → List ℕ) → List ℕ → List ℕ → ℂ
  | 0, R, _, u, d => R 0 u d
  | m + 1, R, ext, u, d => sumIdx (ext 1) fun k => R 0 u k * stack m (fun j => R j.succ) (fun j => ext j.succ) k d

theorem reduce_mul (O : SetOrder) : ∀ {m : ℕ} {M : Fin (m + 1) → FMPO} {ext : Fin (m + 2) → List ℕ},
    (∀ j, (M j).Holds (ext j.castSucc) (ext j.succ) 1) →
    ∃ C, reduceM (FMPO.mul O) (List.ofFn M).reverse = .ok C ∧ C.Holds (ext 0) (ext (Fin.last _)) 1 ∧
      ∀ u d, InB (ext 0) u → InB (ext (Fin.last _)) d →
        opElem 1 C.data u d = stack m (fun j => opElem 1 (M j).data) ext u d
  | 0, M, ext, h => ⟨M 0, by simp [reduceM], h 0, fun _ _ _ _ => rfl⟩
  | m + 1, M, ext, h => by
    obtain ⟨C, h1, h2, h3⟩ := reduce_mul O (M := fun j => M j.succ) (ext := fun j => ext j.succ) fun j => h j.succ
    obtain ⟨E, e1, e2, _, _, e3⟩ := FMPO.mul_elem O h2 (h 0)
    refine ⟨E, ?_, by simpa using e2, ?_⟩
    · rw [List.ofFn_succ, List.reverse_cons, reduceM_append _ (by simp), h1, ok_bind, e1]
    · intro u d hu hd
      have := e3 u d hu hd
      rw [one_mul] at this
      rw [this, stack]
      refine sumIdx_congr fun k hk => ?_
      rw [h3 k d hk hd]

theorem sum_stack {n : ℕ} : ∀ {m : ℕ} (R : Fin (m + 1) → List ℕ → List ℕ → ℂ) (e : Fin (m + 2) → Fin n → ℕ) (u : Fin n → ℕ),
    (∑ d ∈ Fintype.piFinset (fun i => range (e (Fin.last _) i)), stack m R (fun j => List.ofFn (e j)) (List.ofFn u) (List.ofFn d)) =
      ∑ v ∈ Fintype.piFinset (fun j : Fin (m + 1) => Fintype.piFinset fun i => range (e j.succ i)),
        ∏ j, R j (List.ofFn ((Fin.cons u v : Fin (m + 2) → Fin n → ℕ) j.castSucc)) (List.ofFn (v j))
  | 0, R, e, u => by
    rw [sum_piFinset_cons]
    simp [stack]
  | m + 1, R, e, u => by
    rw [sum_piFinset_cons]
    simp only [stack]
    simp_rw [sumIdx_ofFn]
    rw [sum_comm]
    refine sum_congr rfl fun a _ => ?_
    rw [← mul_sum]
    have := sum_stack (fun j => R j.succ) (fun j => e j.succ) a
    simp only [Fin.succ_last] at this
    rw [this, mul_sum]
    refine sum_congr rfl fun v _ => ?_
    rw [Fin.prod_univ_succ (n := m + 1)]
    rfl

/-- **the sum over all bonds of a doubled grid** -/
theorem sum_double {a b : ℕ} (e e' : Fin a → Fin b → ℕ) (F : (Fin a → Fin b → ℕ) → ℂ) :
    ∑ w ∈ bondVals (fun j i => e j i * e' j i), F w =
      ∑ v ∈ bondVals e, ∑ v' ∈ bondVals e', F fun j i => v j i * e' j i + v' j i := by
  rw [← Finset.sum_product']
  refine Finset.sum_nbij' (fun w => (fun j i => w j i / e' j i, fun j i => w j i % e' j i))
    (fun p j i => p.1 j i * e' j i + p.2 j i) ?_ ?_ ?_ ?_ ?_
  · intro w hw
    rw [mem_bondVals] at hw
    simp only [mem_product, mem_bondVals]
    have hp : ∀ j i, 0 < e' j i := fun j i => Nat.pos_of_ne_zero fun h => by have := hw j i; rw [h] at this; simp at this
    exact ⟨fun j i => (Nat.div_lt_iff_lt_mul (hp j i)).2 (hw j i), fun j i => Nat.mod_lt _ (hp j i)⟩
  · intro p hp
    simp only [mem_product, mem_bondVals] at hp ⊢
    exact fun j i => mul_add_lt (hp.1 j i) (hp.2 j i)
  · intro w _
    funext j i
    exact Nat.div_add_mod' _ _
  · intro p hp
    simp only [mem_product, mem_bondVals] at hp
    refine Prod.ext ?_ ?_
    · funext j i
      exact flat_div (hp.2 j i)
    · funext j i
      exact flat_mod (hp.2 j i)
  · intro w _
    refine congrArg F ?_
    funext j i
    exact (Nat.div_add_mod' _ _).symm

theorem sum_ones {K : Type} [AddCommMonoid K] {n : ℕ} {e : Fin n → ℕ} (he : ∀ i, e i = 1) (F : (Fin n → ℕ) → K) :
    ∑ v ∈ Fintype.piFinset (fun i => range (e i)), F v = F fun _ => 0 := by
  have : Fintype.piFinset (fun i => range (e i)) = {fun _ => 0} := by
    ext v
    simp only [Fintype.mem_piFinset, he, mem_range, Nat.lt_one_iff, mem_singleton]
    exact ⟨fun h => funext h, fun h i => by rw [h]⟩
  rw [this, sum_singleton]

theorem prod_ones {n : ℕ} {e : Fin n → ℕ} (he : ∀ i, e i = 1) : (List.ofFn e).prod = 1 := by
  rw [List.prod_ofFn]
  simp [he]

section

variable {m n : ℕ} {ph : Fin (m + 1) → Fin (n + 2) → ℕ} {vE vE' : Fin (m + 2) → Fin (n + 2) → ℕ}
  {hE hE' : Fin (m + 1) → Fin (n + 3) → ℕ} {g g' : Fin (m + 1) → Fin (n + 2) → ND ℂ} {x y : FPEPS}

/-- **C60**: `x.overlap(y)` is the 1 by 1 matrix holding `⟨x|y⟩`, for all PEPS with open boundaries,
at least one row and at least two columns. -/
theorem overlap_eq (O : SetOrder) (hx : x.Holds (m + 1) (n + 2) ph vE hE g) (hy : y.Holds (m + 1) (n + 2) ph vE' hE' g')
    (ox : OpenGrid vE hE) (oy : OpenGrid vE' hE') :
    ∃ t, overlap O x y = .ok t ∧ t.shape = [1, 1] ∧ t.val [0, 0] = pepsBraket ph vE vE' hE hE' g g' := by
  obtain ⟨M, W, h1, h2, h3, h4, h5⟩ := rowMpos_ok hx hy
  set e : Fin (m + 2) → Fin (n + 2) → ℕ := fun j i => vE j i * vE' j i with he
  have hM : ∀ j, (M j).Holds (List.ofFn (e j.castSucc)) (List.ofFn (e j.succ)) 1 := by
    intro j
    refine ⟨?_, by rw [h3, h2, List.length_ofFn], by rw [h2, List.length_ofFn]; omega⟩
    have := mpoChain_ofFn (hE := fun i => hE j i * hE' j i) (h4 j)
    simp only [ox.left, oy.left, ox.right, oy.right, one_mul] at this
    rw [h2]
    exact this
  obtain ⟨C, c1, c2, c3⟩ := reduce_mul O (M := M) (ext := fun j => List.ofFn (e j)) hM
  obtain ⟨t, t1, t2, t3⟩ := FMPO.recombine_ok O c2
  have e0 : ∀ i, e 0 i = 1 := fun i => by rw [he]; simp [ox.top, oy.top]
  have e1 : ∀ i, e (Fin.last _) i = 1 := fun i => by rw [he]; simp [ox.bottom, oy.bottom]
  have z0 : InB (List.ofFn (e 0)) (List.ofFn fun _ : Fin (n + 2) => 0) := (inB_ofFn _ _).2 fun i => by rw [e0]; exact Nat.one_pos
  have z1 : InB (List.ofFn (e (Fin.last _))) (List.ofFn fun _ : Fin (n + 2) => 0) := (inB_ofFn _ _).2 fun i => by rw [e1]; exact Nat.one_pos
  have r0 : ravel (List.ofFn (e 0)) (List.ofFn fun _ : Fin (n + 2) => 0) = 0 := by
    have := ravel_lt z0
    rw [prod_ones e0] at this
    omega
  have r1 : ravel (List.ofFn (e (Fin.last _))) (List.ofFn fun _ : Fin (n + 2) => 0) = 0 := by
    have := ravel_lt z1
    rw [prod_ones e1] at this
    omega
  refine ⟨t, by unfold overlap; rw [h1, ok_bind, c1, ok_bind, t1], by rw [t2, prod_ones e0, prod_ones e1], ?_⟩
  have key := t3 _ _ z0 z1
  rw [r0, r1, c3 _ _ z0 z1] at key
  rw [key]
  have s1 := sum_stack (fun j => opElem 1 (M j).data) e fun _ => 0
  rw [sum_ones e1] at s1
  have s2 : stack m (fun j => opElem 1 (M j).data) (fun j => List.ofFn (e j)) (List.ofFn fun _ : Fin (n + 2) => 0) (List.ofFn fun _ : Fin (n + 2) => 0) =
      ∑ w ∈ bondVals e, ∏ j, opElem 1 (M j).data (List.ofFn (w j.castSucc)) (List.ofFn (w j.succ)) := by
    refine s1.trans (Eq.symm ?_)
    rw [bondVals, sum_piFinset_cons, sum_ones e0]
    rfl
  have s3 : ∀ w : Fin (m + 2) → Fin (n + 2) → ℕ, ∏ j, opElem 1 (M j).data (List.ofFn (w j.castSucc)) (List.ofFn (w j.succ)) =
      ∑ k ∈ bondVals (fun j i => hE j i * hE' j i), ∏ j, ∏ i, (W j i).val [w j.castSucc i, k j i.succ, w j.succ i, k j i.castSucc] := by
    intro w
    have : ∀ j, opElem 1 (M j).data (List.ofFn (w j.castSucc)) (List.ofFn (w j.succ)) =
        ∑ k ∈ Fintype.piFinset (fun i => range (hE j i * hE' j i)), ∏ i, (W j i).val [w j.castSucc i, k i.succ, w j.succ i, k i.castSucc] := by
      intro j
      rw [h2]
      exact opElem_ofFn (W j) (fun i => hE j i * hE' j i) _ _ (h4 j) (by simp [ox.left, oy.left]) (by simp [ox.right, oy.right]) _ _
    rw [Finset.prod_congr rfl fun j _ => this j, Finset.prod_univ_sum]
    rfl
  rw [s2, Finset.sum_congr rfl fun w _ => s3 w, sum_double]
  simp only [sum_double]
  have s4 : ∀ v ∈ bondVals vE, ∀ v' ∈ bondVals vE', ∀ k ∈ bondVals hE, ∀ k' ∈ bondVals hE',
      (∏ j, ∏ i, (W j i).val [v j.castSucc i * vE' j.castSucc i + v' j.castSucc i, k j i.succ * hE' j i.succ + k' j i.succ,
        v j.succ i * vE' j.succ i + v' j.succ i, k j i.castSucc * hE' j i.castSucc + k' j i.castSucc]) =
      ∑ s ∈ bondVals ph, (∏ j, ∏ i, (g j i).val [s j i, v j.castSucc i, k j i.succ, v j.succ i, k j i.castSucc]) *
        star (∏ j, ∏ i, (g' j i).val [s j i, v' j.castSucc i, k' j i.succ, v' j.succ i, k' j i.castSucc]) := by
    intro v hv v' hv' k hk k' hk'
    rw [mem_bondVals] at hv hv' hk hk'
    rw [Finset.prod_congr rfl fun j _ => Finset.prod_congr rfl fun i _ => h5 j i _ (hv _ _) _ (hv' _ _) _ (hk _ _) _ (hk' _ _) _ (hv _ _) _ (hv' _ _) _
      (hk _ _) _ (hk' _ _)]
    rw [Finset.prod_congr rfl fun j _ => Finset.prod_univ_sum _ _, Finset.prod_univ_sum]
    refine sum_congr rfl fun s _ => ?_
    simp only [Finset.prod_mul_distrib, map_prod, star_prod]
  rw [Finset.sum_congr rfl fun v hv => Finset.sum_congr rfl fun v' hv' => Finset.sum_congr rfl fun k hk => Finset.sum_congr rfl fun k' hk' =>
    s4 v hv v' hv' k hk k' hk']
  unfold pepsBraket
  simp only [star_sum, star_mul', star_star]
  have s5 : ∀ s, star (pepsAmp vE hE g s) * pepsAmp vE' hE' g' s =
      ∑ v ∈ bondVals vE, ∑ v' ∈ bondVals vE', ∑ k ∈ bondVals hE, ∑ k' ∈ bondVals hE',
        star (∏ j, ∏ i, (g j i).val [s j i, v j.castSucc i, k j i.succ, v j.succ i, k j i.castSucc]) *
          ∏ j, ∏ i, (g' j i).val [s j i, v' j.castSucc i, k' j i.succ, v' j.succ i, k' j i.castSucc] := by
    intro s
    unfold pepsAmp
    rw [star_sum, Finset.sum_mul_sum]
    refine sum_congr rfl fun v _ => sum_congr rfl fun v' _ => ?_
    rw [star_sum, Finset.sum_mul_sum]
  simp only [s5]
  symm
  rw [sum_comm]
  refine sum_congr rfl fun v _ => ?_
  rw [sum_comm]
  refine sum_congr rfl fun v' _ => ?_
  rw [sum_comm]
  refine sum_congr rfl fun k _ => ?_
  rw [sum_comm]

theorem pepsBraket_self (ph : Fin (m + 1) → Fin (n + 2) → ℕ) (vE : Fin (m + 2) → Fin (n + 2) → ℕ)
    (hE : Fin (m + 1) → Fin (n + 3) → ℕ) (g : Fin (m + 1) → Fin (n + 2) → ND ℂ) :
    pepsBraket ph vE vE hE hE g g = ((∑ s ∈ bondVals ph, ‖pepsAmp vE hE g s‖ ^ 2 : ℝ) : ℂ) := by
  unfold pepsBraket
  push_cast
  refine sum_congr rfl fun s _ => ?_
  rw [Complex.star_def, ← Complex.normSq_eq_conj_mul_self, Complex.normSq_eq_norm_sq]
  push_cast
  rfl

/-- **C60**: `x.norm()` is the 1 by 1 matrix holding the square root of `Σ_s |⟨s|x⟩|²`. -/
theorem norm_eq (O : SetOrder) (hx : x.Holds (m + 1) (n + 2) ph vE hE g) (ox : OpenGrid vE hE) :
    ∃ t, norm O x = .ok t ∧ t.shape = [1, 1] ∧ t.val [0, 0] = Real.sqrt (∑ s ∈ bondVals ph, ‖pepsAmp vE hE g s‖ ^ 2) := by
  obtain ⟨t, h1, h2, h3⟩ := overlap_eq O hx hx ox ox
  refine ⟨⟨t.shape, fun idx => Real.sqrt ‖t.val idx‖⟩, by unfold norm; rw [h1, ok_bind], h2, ?_⟩
  change Real.sqrt ‖t.val [0, 0]‖ = _
  rw [h3, pepsBraket_self, Complex.norm_real, Real.norm_of_nonneg (sum_nonneg fun _ _ => by positivity)]

/-- `⟨y|x⟩` is the conjugate of `⟨x|y⟩`. -/
theorem overlap_conj (O : SetOrder) (hx : x.Holds (m + 1) (n + 2) ph vE hE g) (hy : y.Holds (m + 1) (n + 2) ph vE' hE' g')
    (ox : OpenGrid vE hE) (oy : OpenGrid vE' hE') :
    ∃ t t', overlap O x y = .ok t ∧ overlap O y x = .ok t' ∧ t'.val [0, 0] = star (t.val [0, 0]) := by
  obtain ⟨t, h1, _, h3⟩ := overlap_eq O hx hy ox oy
  obtain ⟨t', k1, _, k3⟩ := overlap_eq O hy hx oy ox
  refine ⟨t, t', h1, k1, ?_⟩
  rw [h3, k3]
  unfold pepsBraket
  rw [star_sum]
  refine sum_congr rfl fun s _ => ?_
  rw [star_mul', star_star, mul_comm]

end

/-! ## One tensor replaced -/

section

variable {m n : ℕ} {ph : Fin m → Fin n → ℕ} {vE : Fin (m + 1) → Fin n → ℕ} {hE : Fin m → Fin (n + 1) → ℕ}
  {g : Fin m → Fin n → ND ℂ} {x : FPEPS}

/-- the entry in row `j`, column `i` replaced -/
def setAt {α : Type} (f : Fin m → Fin n → α) (j : Fin m) (i : Fin n) (a : α) : Fin m → Fin n → α :=
  Function.update f j (Function.update (f j) i a)

theorem setAt_same {α : Type} (f : Fin m → Fin n → α) (j : Fin m) (i : Fin n) (a : α) : setAt f j i a j i = a := by
  simp [setAt]

theorem setAt_ne {α : Type} (f : Fin m → Fin n → α) {j j' : Fin m} {i i' : Fin n} (a : α) (h : (j', i') ≠ (j, i)) :
    setAt f j i a j' i' = f j' i' := by
  unfold setAt
  by_cases hj : j' = j
  · subst hj
    rw [Function.update_self, Function.update_of_ne (fun hi => h (by rw [hi]))]
  · rw [Function.update_of_ne hj]

theorem ofFn_update {α : Type} {n : ℕ} (f : Fin n → α) (i : Fin n) (a : α) :
    List.ofFn (Function.update f i a) = (List.ofFn f).set i a := by
  refine List.ext_getElem (by simp) fun k h1 h2 => ?_
  simp only [List.getElem_ofFn, List.getElem_set]
  split_ifs with h
  · subst h
    simp
  · rw [Function.update_of_ne]
    intro h'
    exact h (by rw [← h'])

theorem gridList_setAt (g : Fin m → Fin n → ND ℂ) (j : Fin m) (i : Fin n) (B : ND ℂ) :
    gridList (setAt g j i B) = (gridList g).set j ((List.ofFn (g j)).set i B) := by
  unfold gridList setAt
  rw [← ofFn_update, ← ofFn_update]
  congr 1
  funext j'
  by_cases h : j' = j
  · subst h
    simp
  · rw [Function.update_of_ne h, Function.update_of_ne h]

/-- a product in which one factor is a combination -/
theorem prod_combine {S : Finset ℕ} (c : ℕ → ℂ) (F : ℕ → Fin m → Fin n → ℂ) (F' : Fin m → Fin n → ℂ) (j : Fin m) (i : Fin n)
    (h1 : ∀ k ∈ S, ∀ j' i', (j', i') ≠ (j, i) → F k j' i' = F' j' i') (h2 : F' j i = ∑ k ∈ S, c k * F k j i) :
    ∏ j, ∏ i, F' j i = ∑ k ∈ S, c k * ∏ j, ∏ i, F k j i := by
  simp only [← Fintype.prod_prod_type']
  rw [← Finset.mul_prod_erase univ _ (mem_univ (j, i)), h2, sum_mul]
  refine sum_congr rfl fun k hk => ?_
  rw [← Finset.mul_prod_erase univ (fun p : Fin m × Fin n => F k p.1 p.2) (mem_univ (j, i)), ← mul_assoc]
  congr 1
  refine prod_congr rfl fun p hp => ?_
  exact (h1 k hk p.1 p.2 (Finset.ne_of_mem_erase hp)).symm

/-- the amplitudes when one tensor is a combination over its physical index -/
theorem amp_setAt {B : ND ℂ} {j : Fin m} {i : Fin n} (c : ℕ → ℕ → ℂ)
    (hB : ∀ u a b e f, B.val [u, a, b, e, f] = ∑ t ∈ range (ph j i), c u t * (g j i).val [t, a, b, e, f]) (s : Fin m → Fin n → ℕ) :
    pepsAmp vE hE (setAt g j i B) s = ∑ t ∈ range (ph j i), c (s j i) t * pepsAmp vE hE g (setAt s j i t) := by
  unfold pepsAmp
  simp only [mul_sum]
  symm
  rw [sum_comm]
  refine sum_congr rfl fun v _ => ?_
  rw [sum_comm]
  refine sum_congr rfl fun h _ => ?_
  symm
  refine prod_combine (c (s j i)) (fun t j' i' => (g j' i').val [setAt s j i t j' i', v j'.castSucc i', h j' i'.succ, v j'.succ i', h j' i'.castSucc])
    _ j i ?_ ?_
  · intro t _ j' i' hne
    simp only [setAt_ne _ _ hne]
  · simp only [setAt_same]
    exact hB _ _ _ _ _

theorem Holds.copy (hx : x.Holds m n ph vE hE g) :
    ∃ z, x.copy = .ok z ∧ z.Holds m n ph vE hE g ∧ z.d = x.d ∧ z.X = x.X ∧ z.oc = x.oc ∧ z.Lx = m ∧ z.Ly = n := by
  obtain ⟨d, X, hi⟩ := init_grid hx.rows hx.cols hx.grid
  refine ⟨⟨gridList g, m, n, x.d, x.X, x.oc⟩, ?_, ⟨hx.grid, rfl, hx.rows, hx.cols⟩, rfl, rfl, rfl, rfl, rfl⟩
  unfold FPEPS.copy
  rw [hx.data, hi, ok_bind]

theorem pyGet_gridList (g : Fin m → Fin n → ND ℂ) (j : Fin m) : pyGet (gridList g) j = .ok (List.ofFn (g j)) := by
  simp [pyGet, gridList]

/-- **C60**: `x.apply(op, (i, j))` acts with `op` on the site in row `j` and column `i`. -/
theorem apply_eq (hx : x.Holds m n ph vE hE g) (j : Fin m) (i : Fin n) {op : ND ℂ} (hop : op.shape = [ph j i, ph j i]) :
    ∃ y g', x.apply op i j = .ok y ∧ y.Holds m n ph vE hE g' ∧ y.d = x.d ∧ y.X = x.X ∧ y.oc = x.oc ∧
      ∀ s, pepsAmp vE hE g' s = ∑ t ∈ range (ph j i), op.val [s j i, t] * pepsAmp vE hE g (setAt s j i t) := by
  obtain ⟨z, h1, h2, h3, h4, h5, _, _⟩ := hx.copy
  have hA := hx.grid j i
  have ht : op.tensordot (g j i) [1] [0] = .ok (op.tensordotR (g j i) [1] [0]) := by simp [ND.tensordot, ND.rank, ND.dim, hop, hA]
  have hs : (op.tensordotR (g j i) [1] [0]).shape = [ph j i, vE j.castSucc i, hE j i.succ, vE j.succ i, hE j i.castSucc] := by
    simp [ND.tensordotR, ND.transposeR, ND.rank, ND.others, ND.dim, hop, hA, List.range_succ]
  have hv : ∀ u a b e f, (op.tensordotR (g j i) [1] [0]).val [u, a, b, e, f] = ∑ t ∈ range (ph j i), op.val [u, t] * (g j i).val [t, a, b, e, f] := by
    intro u a b e f
    simp [ND.tensordotR, ND.transposeR, ND.rank, ND.others, ND.dim, hop, hA, List.range_succ]
  refine ⟨{ z with data := z.data.set j ((List.ofFn (g j)).set i (op.tensordotR (g j i) [1] [0])) },
    setAt g j i (op.tensordotR (g j i) [1] [0]), ?_, ⟨?_, ?_, hx.rows, hx.cols⟩, h3, h4, h5, ?_⟩
  · unfold apply
    rw [h1, ok_bind, hx.data, pyGet_gridList, ok_bind]
    have : pyGet (List.ofFn (g j)) i = .ok (g j i) := by simp [pyGet]
    rw [this, ok_bind, ht, ok_bind]
  · intro j' i'
    by_cases h : (j', i') = (j, i)
    · obtain ⟨rfl, rfl⟩ := Prod.ext_iff.1 h
      rw [setAt_same, hs]
    · rw [setAt_ne _ _ h]
      exact hx.grid j' i'
  · rw [gridList_setAt, h2.data]
  · intro s
    exact amp_setAt (fun u t => op.val [u, t]) hv s

theorem foldl_max_le (l : List ℕ) : ∀ a, a ≤ l.foldl max a ∧ ∀ e ∈ l, e ≤ l.foldl max a := by
  induction l with
  | nil => simp
  | cons b l ih =>
    intro a
    obtain ⟨h1, h2⟩ := ih (max a b)
    simp only [List.foldl_cons, List.mem_cons, forall_eq_or_imp]
    exact ⟨le_trans (le_max_left _ _) h1, le_trans (le_max_right _ _) h1, h2⟩

/-- no leg exceeds the bond dimension -/
theorem maxShape_le {l : List (ND ℂ)} {D : ℕ} (h : maxShape l = .ok D) : ∀ A ∈ l, ∀ e ∈ A.shape.tail, e ≤ D := by
  unfold maxShape at h
  obtain ⟨ms, h1, h2⟩ := bind_eq_ok h
  have h3 : ∀ A ∈ l, A.shape.tail.foldl max 0 ∈ ms := by
    clear h h2
    induction l generalizing ms with
    | nil => simp
    | cons A l ih =>
      rw [List.mapM_cons] at h1
      obtain ⟨b, k1, h1⟩ := bind_eq_ok h1
      obtain ⟨bs, k2, h1⟩ := bind_eq_ok h1
      have : b :: bs = ms := by simpa using h1
      subst this
      split_ifs at k1
      have : A.shape.tail.foldl max 0 = b := by simpa using k1
      intro B hB
      rcases List.mem_cons.1 hB with rfl | hB
      · rw [this]; exact List.mem_cons_self
      · exact List.mem_cons_of_mem _ (ih _ k2 B hB)
  have h4 : ms.foldl max 0 = D := by
    split_ifs at h2
    simpa using h2
  intro A hA e he
  exact le_trans ((foldl_max_le _ 0).2 e he) (h4 ▸ (foldl_max_le ms 0).2 _ (h3 A hA))

theorem maxShape_grid (hx : x.Holds m n ph vE hE g) : ∃ X, maxShape x.data.flatten = .ok X := by
  obtain ⟨d, X, h⟩ := init_grid hx.rows hx.cols hx.grid
  unfold init at h
  obtain ⟨r, _, h⟩ := bind_eq_ok h
  obtain ⟨A, _, h⟩ := bind_eq_ok h
  obtain ⟨d', _, h⟩ := bind_eq_ok h
  obtain ⟨X', h1, _⟩ := bind_eq_ok h
  exact ⟨X', by rw [hx.data]; exact h1⟩

theorem amp_scale {B : ND ℂ} {j : Fin m} {i : Fin n} {c : ℂ} (hB : ∀ u a b e f, B.val [u, a, b, e, f] = c * (g j i).val [u, a, b, e, f])
    (s : Fin m → Fin n → ℕ) : pepsAmp vE hE (setAt g j i B) s = c * pepsAmp vE hE g s := by
  unfold pepsAmp
  simp only [mul_sum]
  refine sum_congr rfl fun v _ => sum_congr rfl fun h _ => ?_
  have := prod_combine (S := {0}) (fun _ => c) (fun _ j' i' => (g j' i').val [s j' i', v j'.castSucc i', h j' i'.succ, v j'.succ i', h j' i'.castSucc])
    (fun j' i' => (setAt g j i B j' i').val [s j' i', v j'.castSucc i', h j' i'.succ, v j'.succ i', h j' i'.castSucc]) j i
    (fun _ _ j' i' hne => by simp only [setAt_ne _ _ hne]) (by simp only [setAt_same, sum_singleton]; exact hB _ _ _ _ _)
  simpa using this

/-- a grid without bonds is a product state -/
theorem amp_product (hv : ∀ j i, vE j i = 1) (hh : ∀ j i, hE j i = 1) (g : Fin m → Fin n → ND ℂ) (s : Fin m → Fin n → ℕ) :
    pepsAmp vE hE g s = ∏ j, ∏ i, (g j i).val [s j i, 0, 0, 0, 0] := by
  have key : ∀ {a b : ℕ} {e : Fin a → Fin b → ℕ} (_ : ∀ j i, e j i = 1) (F : (Fin a → Fin b → ℕ) → ℂ),
      ∑ v ∈ bondVals e, F v = F fun _ _ => 0 := by
    intro a b e he F
    have : bondVals e = {fun _ _ => 0} := by
      ext v
      simp only [mem_bondVals, he, Nat.lt_one_iff, mem_singleton]
      exact ⟨fun h => funext fun j => funext (h j), fun h j i => by rw [h]⟩
    rw [this, sum_singleton]
  unfold pepsAmp
  rw [key hv, key hh]

/-- `normalise` of a product state, on any grid -/
theorem normalise_product (O : SetOrder) (hx : x.Holds m n ph vE hE g) (hD : maxShape x.data.flatten = .ok 1)
    (h0 : ∃ s ∈ bondVals ph, pepsAmp vE hE g s ≠ 0) :
    ∃ y g', normalise O x = .ok y ∧ y.Holds m n ph vE hE g' ∧ pepsBraket ph vE vE hE hE g' g' = 1 ∧
      ∃ c : ℝ, 0 < c ∧ ∀ s, pepsAmp vE hE g' s = c * pepsAmp vE hE g s := by
  have hle := maxShape_le hD
  rw [hx.data] at hle
  have hle' : ∀ j i, ∀ e ∈ [vE j.castSucc i, hE j i.succ, vE j.succ i, hE j i.castSucc], e ≤ 1 := by
    intro j i e he
    refine hle (g j i) ?_ e (by rw [hx.grid j i]; exact he)
    simp only [gridList, List.mem_flatten, List.mem_ofFn]
    exact ⟨_, ⟨j, rfl⟩, (List.mem_ofFn).2 ⟨i, rfl⟩⟩
  obtain ⟨s0, hs0, hne⟩ := h0
  obtain ⟨v0, hv0, k1⟩ := Finset.exists_ne_zero_of_sum_ne_zero hne
  obtain ⟨h0, hh0, k2⟩ := Finset.exists_ne_zero_of_sum_ne_zero k1
  rw [mem_bondVals] at hv0 hh0
  have hv : ∀ j i, vE j i = 1 := by
    intro j i
    have h1 := hv0 j i
    have h2 : vE j i ≤ 1 := by
      refine Fin.cases ?_ (fun j => hle' j i _ (by simp)) j
      have := hle' ⟨0, hx.rows⟩ i (vE (Fin.castSucc ⟨0, hx.rows⟩) i) (by simp)
      exact this
    omega
  have hh : ∀ j i, hE j i = 1 := by
    intro j i
    have h1 := hh0 j i
    have h2 : hE j i ≤ 1 := by
      refine Fin.cases ?_ (fun i => hle' j i _ (by simp)) i
      have := hle' j ⟨0, hx.cols⟩ (hE j (Fin.castSucc ⟨0, hx.cols⟩)) (by simp)
      exact this
    omega
  have hnrm : ∀ j i, (g j i).norm = Real.sqrt (∑ u ∈ range (ph j i), ‖(g j i).val [u, 0, 0, 0, 0]‖ ^ 2) := by
    intro j i
    unfold ND.norm
    rw [hx.grid j i, hv, hv, hh, hh]
    simp [sumIdx_cons, sumIdx_nil, Complex.normSq_eq_norm_sq]
  set N : Fin m → Fin n → ℝ := fun j i => ∑ u ∈ range (ph j i), ‖(g j i).val [u, 0, 0, 0, 0]‖ ^ 2 with hN
  have hNpos : ∀ j i, 0 < N j i := by
    intro j i
    rw [amp_product hv hh] at hne
    have := (Finset.prod_ne_zero_iff.1 ((Finset.prod_ne_zero_iff.1 hne) j (mem_univ _))) i (mem_univ _)
    exact sum_pos' (fun _ _ => by positivity) ⟨s0 j i, by rw [mem_range]; exact (mem_bondVals.1 hs0) j i, by positivity⟩
  have hamp : ∀ s, pepsAmp vE hE (fun j i => (g j i).smul (((g j i).norm : ℂ)⁻¹)) s =
      ((∏ j, ∏ i, (Real.sqrt (N j i))⁻¹ : ℝ) : ℂ) * pepsAmp vE hE g s := by
    intro s
    rw [amp_product hv hh, amp_product hv hh]
    push_cast
    simp only [← Finset.prod_mul_distrib]
    refine prod_congr rfl fun j _ => prod_congr rfl fun i _ => ?_
    rw [← hnrm]
    rfl
  refine ⟨{ x with data := gridList fun j i => (g j i).smul (((g j i).norm : ℂ)⁻¹) }, fun j i => (g j i).smul (((g j i).norm : ℂ)⁻¹), ?_,
    ⟨fun j i => hx.grid j i, rfl, hx.rows, hx.cols⟩, ?_, _, ?_, hamp⟩
  · unfold normalise
    rw [hD, ok_bind, if_pos rfl, hx.data]
    simp [gridList, List.map_ofFn, Function.comp_def]
  · have : ∀ s, star (pepsAmp vE hE (fun j i => (g j i).smul (((g j i).norm : ℂ)⁻¹)) s) *
        pepsAmp vE hE (fun j i => (g j i).smul (((g j i).norm : ℂ)⁻¹)) s =
        ((∏ j, ∏ i, ((N j i)⁻¹ * ‖(g j i).val [s j i, 0, 0, 0, 0]‖ ^ 2) : ℝ) : ℂ) := by
      intro s
      rw [Complex.star_def, ← Complex.normSq_eq_conj_mul_self, Complex.normSq_eq_norm_sq, hamp, amp_product hv hh, norm_mul, Complex.norm_real]
      simp only [norm_prod, mul_pow, Finset.prod_mul_distrib, ← Finset.prod_pow, norm_inv, inv_pow]
      congr 2
      refine prod_congr rfl fun j _ => prod_congr rfl fun i _ => ?_
      rw [Real.norm_of_nonneg (Real.sqrt_nonneg _), Real.sq_sqrt (hNpos j i).le]
    unfold pepsBraket
    rw [sum_congr rfl fun s _ => this s, ← Complex.ofReal_sum]
    have e : ∑ s ∈ bondVals ph, ∏ j, ∏ i, ((N j i)⁻¹ * ‖(g j i).val [s j i, 0, 0, 0, 0]‖ ^ 2) =
        ∏ j, ∏ i, ∑ u ∈ range (ph j i), ((N j i)⁻¹ * ‖(g j i).val [u, 0, 0, 0, 0]‖ ^ 2) := by
      symm
      rw [Finset.prod_congr rfl fun j _ => Finset.prod_univ_sum _ _, Finset.prod_univ_sum]
      rfl
    rw [e]
    simp only [← mul_sum]
    rw [Finset.prod_eq_one fun j _ => Finset.prod_eq_one fun i _ => inv_mul_cancel₀ (hNpos j i).ne']
    simp
  · exact Finset.prod_pos fun j _ => Finset.prod_pos fun i _ => inv_pos.2 (Real.sqrt_pos.2 (hNpos j i))

end

section

variable {m n : ℕ} {ph : Fin (m + 1) → Fin (n + 2) → ℕ} {vE : Fin (m + 2) → Fin (n + 2) → ℕ}
  {hE : Fin (m + 1) → Fin (n + 3) → ℕ} {g : Fin (m + 1) → Fin (n + 2) → ND ℂ} {x : FPEPS}

/-- **C60**: `x.E(op, (i, j))` is the real part of `⟨x|op|x⟩`, with `op` acting on the site in row `j` and column `i`. -/
theorem expval_eq (O : SetOrder) (hx : x.Holds (m + 1) (n + 2) ph vE hE g) (ox : OpenGrid vE hE) (j : Fin (m + 1)) (i : Fin (n + 2))
    {op : ND ℂ} (hop : op.shape = [ph j i, ph j i]) :
    expval O x op i j = .ok (∑ s ∈ bondVals ph, ∑ t ∈ range (ph j i),
      star (pepsAmp vE hE g s) * (op.val [s j i, t] * pepsAmp vE hE g (setAt s j i t))).re := by
  obtain ⟨y, g', h1, h2, _, _, _, h6⟩ := apply_eq hx j i hop
  obtain ⟨t, t1, t2, t3⟩ := overlap_eq O h2 hx ox ox
  unfold expval
  rw [h1, ok_bind, t1, ok_bind, t2]
  simp only [t3]
  congr 1
  rw [← Complex.conj_re]
  congr 1
  unfold pepsBraket
  rw [map_sum]
  refine sum_congr rfl fun s _ => ?_
  rw [← Complex.star_def, star_mul', star_star, h6, sum_mul]
  exact sum_congr rfl fun t _ => mul_comm _ _

/-- **C60**: after `normalise()` the norm is 1, if it was not 0. -/
theorem normalise_norm (O : SetOrder) (hx : x.Holds (m + 1) (n + 2) ph vE hE g) (ox : OpenGrid vE hE)
    (h0 : ∃ s ∈ bondVals ph, pepsAmp vE hE g s ≠ 0) :
    ∃ y g', normalise O x = .ok y ∧ y.Holds (m + 1) (n + 2) ph vE hE g' ∧ pepsBraket ph vE vE hE hE g' g' = 1 ∧
      ∃ c : ℝ, 0 < c ∧ ∀ s, pepsAmp vE hE g' s = c * pepsAmp vE hE g s := by
  obtain ⟨X, hX⟩ := maxShape_grid hx
  by_cases h1 : X = 1
  · exact normalise_product O hx (by rw [hX, h1]) h0
  · obtain ⟨t, t1, t2, t3⟩ := norm_eq O hx ox
    obtain ⟨s0, hs0, hne⟩ := h0
    set N := ∑ s ∈ bondVals ph, ‖pepsAmp vE hE g s‖ ^ 2 with hN
    have hpos : 0 < N := sum_pos' (fun _ _ => by positivity) ⟨s0, hs0, by positivity⟩
    have hc : 0 < (Real.sqrt N)⁻¹ := inv_pos.2 (Real.sqrt_pos.2 hpos)
    have hr : pyGet (gridList g) 0 = .ok (List.ofFn (g 0)) := pyGet_gridList g 0
    have hr' : pyGet (List.ofFn (g 0)) 0 = .ok (g 0 0) := by simp [pyGet]
    have hamp : ∀ s, pepsAmp vE hE (setAt g 0 0 ((g 0 0).smul (((Real.sqrt N : ℝ) : ℂ)⁻¹))) s = ((Real.sqrt N)⁻¹ : ℝ) * pepsAmp vE hE g s :=
      fun s => amp_scale (by push_cast; exact fun u a b e f => rfl) s
    refine ⟨{ x with data := x.data.set 0 ((List.ofFn (g 0)).set 0 ((g 0 0).smul (((Real.sqrt N : ℝ) : ℂ)⁻¹))) },
      setAt g 0 0 ((g 0 0).smul (((Real.sqrt N : ℝ) : ℂ)⁻¹)), ?_, ⟨?_, ?_, hx.rows, hx.cols⟩, ?_, (Real.sqrt N)⁻¹, hc, hamp⟩
    · unfold normalise
      rw [hX, ok_bind, if_neg h1, t1, ok_bind, hx.data, hr, ok_bind, hr', ok_bind, t3]
    · intro j i
      by_cases h : (j, i) = (0, 0)
      · obtain ⟨rfl, rfl⟩ := Prod.ext_iff.1 h
        rw [setAt_same]
        exact hx.grid _ _
      · rw [setAt_ne _ _ h]
        exact hx.grid j i
    · rw [hx.data]
      exact (gridList_setAt g 0 0 _).symm
    · rw [pepsBraket_self]
      simp only [hamp, norm_mul, mul_pow, ← mul_sum, ← hN, Complex.norm_real, Real.norm_of_nonneg hc.le]
      rw [inv_pow, Real.sq_sqrt hpos.le, inv_mul_cancel₀ hpos.ne']
      simp

end

/-! ## Grids with a single column -/

theorem reduce_single (O : SetOrder) : ∀ {m : ℕ} {M : Fin (m + 1) → FMPO} {W : Fin (m + 1) → ND ℂ} {ext : Fin (m + 2) → ℕ} {rr ll : Fin (m + 1) → ℕ},
    (∀ j, (M j).data = [W j] ∧ (M j).L = 1 ∧ (W j).shape = [ext j.castSucc, rr j, ext j.succ, ll j]) →
    ∃ C V r l, reduceM (FMPO.mul O) (List.ofFn M).reverse = .ok C ∧ C.data = [V] ∧ C.L = 1 ∧ V.shape = [ext 0, r, ext (Fin.last _), l]
  | 0, M, W, ext, rr, ll, h => ⟨M 0, W 0, rr 0, ll 0, by simp [reduceM], (h 0).1, (h 0).2.1, (h 0).2.2⟩
  | m + 1, M, W, ext, rr, ll, h => by
    obtain ⟨C, V, r, l, h1, h2, h3, h4⟩ := reduce_single O (M := fun j => M j.succ) (W := fun j => W j.succ) (ext := fun j => ext j.succ)
      (rr := fun j => rr j.succ) (ll := fun j => ll j.succ) fun j => h j.succ
    obtain ⟨k1, k2, k3⟩ := h 0
    obtain ⟨R, e1, e2, _⟩ := FMPO.mulTensor_ok O h4 k3
    refine ⟨⟨[R], 1, C.d, C.X * (M 0).X⟩, R, _, _, ?_, rfl, rfl, e2⟩
    rw [List.ofFn_succ, List.reverse_cons, reduceM_append _ (by simp), h1, ok_bind]
    unfold FMPO.mul
    rw [h2, k1]
    simp only [List.zip_cons_cons, List.mapM_cons, e1, ok_bind]
    rfl

/-- **C60** fails for a single column: `overlap`, and with it `norm` and `E`, raise `ValueError`. -/
theorem overlap_single_column (O : SetOrder) {m : ℕ} {ph : Fin (m + 1) → Fin 1 → ℕ} {vE vE' : Fin (m + 2) → Fin 1 → ℕ}
    {hE hE' : Fin (m + 1) → Fin 2 → ℕ} {g g' : Fin (m + 1) → Fin 1 → ND ℂ} {x y : FPEPS}
    (hx : x.Holds (m + 1) 1 ph vE hE g) (hy : y.Holds (m + 1) 1 ph vE' hE' g') :
    overlap O x y = .error .valueError := by
  obtain ⟨M, W, h1, h2, h3, h4, _⟩ := rowMpos_ok hx hy
  obtain ⟨C, V, r, l, c1, c2, c3, _⟩ := reduce_single O (M := M) (W := fun j => W j 0) (ext := fun j => vE j 0 * vE' j 0) fun j =>
    ⟨by rw [h2]; simp, h3 j, h4 j 0⟩
  unfold overlap
  rw [h1, ok_bind, c1, ok_bind]
  obtain ⟨dat, L, d, X⟩ := C
  simp only at c2 c3
  subst c2 c3
  exact FMPO.recombine_single O V d X

/-! ## Examples -/

theorem exOpen : OpenGrid (m := 1) (n := 2) (fun _ _ => 1) (fun _ i => if i = 1 then 2 else 1) :=
  ⟨fun _ => rfl, fun _ => rfl, fun _ => rfl, fun _ => rfl⟩

example (O : SetOrder) := overlap_eq O exPeps_holds exPeps_holds exOpen exOpen
example (O : SetOrder) := norm_eq O exPeps_holds exOpen
example (O : SetOrder) := overlap_conj O exPeps_holds exPeps_holds exOpen exOpen
example := apply_eq exPeps_holds 0 1 (op := sigmaY) rfl
example (O : SetOrder) := expval_eq O exPeps_holds exOpen 0 1 (op := sigmaY) rfl

/-- a column of two sites -/
noncomputable def exCol : Fin 2 → Fin 1 → ND ℂ := fun _ _ => onesND [2, 1, 1, 1, 1]

theorem exCol_holds : (⟨gridList exCol, 2, 1, 2, 1, none⟩ : FPEPS).Holds 2 1 (fun _ _ => 2) (fun _ _ => 1) (fun _ _ => 1) exCol :=
  ⟨fun _ _ => rfl, rfl, by simp, by simp⟩

example (O : SetOrder) := overlap_single_column O exCol_holds exCol_holds

/-- two rows, two columns, all inner bonds 2 -/
noncomputable def exOnes : Fin 2 → Fin 2 → ND ℂ := fun j i =>
  onesND [2, if j = 1 then 2 else 1, if i = 0 then 2 else 1, if j = 0 then 2 else 1, if i = 1 then 2 else 1]

theorem exOnes_holds : (⟨gridList exOnes, 2, 2, 2, 2, none⟩ : FPEPS).Holds 2 2 (fun _ _ => 2) (fun j _ => if j = 1 then 2 else 1)
    (fun _ i => if i = 1 then 2 else 1) exOnes :=
  ⟨fun j i => by match j, i with | 0, 0 => rfl | 0, 1 => rfl | 1, 0 => rfl | 1, 1 => rfl, rfl, by simp, by simp⟩

theorem exOnes_open : OpenGrid (m := 2) (n := 2) (fun j _ => if j = 1 then 2 else 1) (fun _ i => if i = 1 then 2 else 1) :=
  ⟨fun _ => rfl, fun _ => rfl, fun _ => rfl, fun _ => rfl⟩

theorem exOnes_amp (s) : pepsAmp (fun j _ => if j = 1 then 2 else 1) (fun _ i => if i = 1 then 2 else 1) exOnes s = 16 := by
  simp [pepsAmp, exOnes, onesND, bondVals, Fin.prod_univ_succ, Fintype.card_piFinset]
  norm_num

example (O : SetOrder) := normalise_norm O exOnes_holds exOnes_open ⟨fun _ _ => 0, by rw [mem_bondVals]; simp, by rw [exOnes_amp]; norm_num⟩

example (O : SetOrder) := normalise_product O exCol_holds rfl ⟨fun _ _ => 0, by rw [mem_bondVals]; simp, by
  rw [amp_product (fun _ _ => rfl) fun _ _ => rfl]; simp [exCol, onesND]⟩

end FPEPS

end Xmps
