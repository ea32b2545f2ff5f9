import Verif.Model.PepsDense
import Verif.Props.PepsOverlap

/-!
# Joining the tensors of a row or of a column into one
-/

namespace Xmps.FPEPS

open Finset Spec

/-! ## Flattened indices -/

/-- the position of `v` in the row-major enumeration of the box with sides `e` -/
def rv {n : ℕ} (e v : Fin n → ℕ) : ℕ := ravel (List.ofFn e) (List.ofFn v)

theorem InB_ofFn : ∀ {n : ℕ} {e v : Fin n → ℕ}, (∀ i, v i < e i) → InB (List.ofFn e) (List.ofFn v)
  | 0, _, _, _ => by simp
  | n + 1, e, v, h => by
    rw [List.ofFn_succ, List.ofFn_succ]
    exact ⟨h 0, InB_ofFn fun i => h i.succ⟩

theorem rv_lt {n : ℕ} {e v : Fin n → ℕ} (h : ∀ i, v i < e i) : rv e v < ∏ i, e i := by
  rw [← List.prod_ofFn]
  exact ravel_lt (InB_ofFn h)

theorem rv_snoc {n : ℕ} (e v : Fin (n + 1) → ℕ) :
    rv e v = rv (fun i : Fin n => e i.castSucc) (fun i : Fin n => v i.castSucc) * e (Fin.last n) + v (Fin.last n) := by
  unfold rv
  rw [List.ofFn_succ', List.ofFn_succ', List.concat_eq_append, List.concat_eq_append, ravel_append _ _ (by simp)]
  simp

theorem rv_one (e v : Fin 1 → ℕ) : rv e v = v 0 := by simp [rv]

/-- the box is enumerated without repetition -/
theorem sum_rv {K : Type} [AddCommMonoid K] {n : ℕ} (e : Fin n → ℕ) (F : ℕ → K) :
    ∑ k ∈ range (∏ i, e i), F k = ∑ v ∈ Fintype.piFinset fun i => range (e i), F (rv e v) := by
  have hl : (List.ofFn e).prod = ∏ i, e i := List.prod_ofFn
  symm
  refine Finset.sum_bij (fun v _ => rv e v) ?_ ?_ ?_ ?_
  · intro v hv
    simp only [Fintype.mem_piFinset, mem_range] at hv
    exact mem_range.2 (rv_lt hv)
  · intro v hv w hw h
    simp only [Fintype.mem_piFinset, mem_range] at hv hw
    have := congrArg (unravel (List.ofFn e)) h
    simp only [rv] at this
    rw [unravel_ravel (InB_ofFn hv), unravel_ravel (InB_ofFn hw)] at this
    exact List.ofFn_injective this
  · intro k hk
    have hk' : k < (List.ofFn e).prod := by rw [hl]; exact mem_range.1 hk
    have hb := InB_unravel hk'
    have hlen : (unravel (List.ofFn e) k).length = n := by rw [hb.length_eq, List.length_ofFn]
    have he : List.ofFn (fun i : Fin n => (unravel (List.ofFn e) k).getD i 0) = unravel (List.ofFn e) k := by
      apply List.ext_getElem
      · rw [List.length_ofFn, hlen]
      · intro i h1 h2
        rw [List.getElem_ofFn, List.getD_eq_getElem?_getD, List.getElem?_eq_getElem h2, Option.getD_some]
    refine ⟨fun i => (unravel (List.ofFn e) k).getD i 0, ?_, ?_⟩
    · simp only [Fintype.mem_piFinset, mem_range]
      intro i
      rw [← he] at hb
      have : ∀ {n : ℕ} {e v : Fin n → ℕ}, InB (List.ofFn e) (List.ofFn v) → ∀ i, v i < e i := by
        intro n
        induction n with
        | zero => intro _ _ _ i; exact i.elim0
        | succ n ih =>
          intro e v h i
          rw [List.ofFn_succ, List.ofFn_succ] at h
          refine Fin.cases h.1 (fun i => ih h.2 i) i
      exact this hb i
    · simp only [rv]
      rw [he, ravel_unravel hk']
  · intro v _
    rfl

theorem sum_piFinset_snoc {K α : Type} [AddCommMonoid K] {n : ℕ} (S : Fin (n + 1) → Finset α) (F : (Fin (n + 1) → α) → K) :
    ∑ v ∈ Fintype.piFinset S, F v =
      ∑ v ∈ Fintype.piFinset (fun i : Fin n => S i.castSucc), ∑ a ∈ S (Fin.last n), F (Fin.snoc (α := fun _ => α) v a) := by
  rw [← Finset.sum_product']
  refine Finset.sum_nbij' (fun v => (fun i : Fin n => v i.castSucc, v (Fin.last n))) (fun p => Fin.snoc (α := fun _ => α) p.1 p.2) ?_ ?_ ?_ ?_ ?_
  · intro v hv
    simp only [Fintype.mem_piFinset, mem_product] at hv ⊢
    exact ⟨fun i => hv i.castSucc, hv _⟩
  · intro p hp
    simp only [Fintype.mem_piFinset, mem_product] at hp ⊢
    intro i
    refine Fin.lastCases ?_ (fun i => ?_) i
    · simpa using hp.2
    · simpa using hp.1 i
  · intro v _
    exact Fin.snoc_init_self v
  · intro p _
    simp
  · intro v _
    exact congrArg F (Fin.snoc_init_self v).symm

/-! ## Joining -/

/-- `J` joins two tensors along one leg: the extents are `ix p x y l m` and `ix p' x' y' m r` -/
def Joins (J : ND ℂ → ND ℂ → Py (ND ℂ)) (ix : ℕ → ℕ → ℕ → ℕ → ℕ → List ℕ) : Prop :=
  ∀ (A B : ND ℂ) (p x y l m p' x' y' r : ℕ), A.shape = ix p x y l m → B.shape = ix p' x' y' m r →
    ∃ C, J A B = .ok C ∧ C.shape = ix (p * p') (x * x') (y * y') l r ∧
      ∀ s < p, ∀ s' < p', ∀ i < x, ∀ i' < x', ∀ j < y, ∀ j' < y', ∀ a < l, ∀ b < r,
        C.val (ix (s * p' + s') (i * x' + i') (j * y' + j') a b) =
          ∑ k ∈ range m, A.val (ix s i j a k) * B.val (ix s' i' j' k b)

/-- legs in the order physical, up, right, down, left; joined left to right -/
def rowIx (p x y l r : ℕ) : List ℕ := [p, x, r, y, l]

/-- joined top to bottom -/
def colIx (p x y l r : ℕ) : List ℕ := [p, l, x, r, y]

theorem rowJoin_joins : Joins rowJoin rowIx := by
  intro A B p x y l m p' x' y' r hA hB
  unfold rowIx at *
  have h1 : A.tensordot B [2] [4] = .ok (A.tensordotR B [2] [4]) := by
    simp [ND.tensordot, ND.rank, ND.dim, hA, hB]
  set C := A.tensordotR B [2] [4] with hC
  have sC : C.shape = [p, x, y, l, p', x', r, y'] := by
    simp [hC, ND.tensordotR, ND.rank, ND.others, ND.dim, hA, hB, List.range_succ]
  have vC : ∀ s i j a s' i' b j', C.val [s, i, j, a, s', i', b, j'] =
      ∑ k ∈ range m, A.val [s, i, k, j, a] * B.val [s', i', b, j', k] := by
    intro s i j a s' i' b j'
    simp [hC, ND.tensordotR, ND.transposeR, ND.rank, ND.others, ND.dim, hA, hB, List.range_succ]
  have h2 : C.transpose [0, 4, 1, 5, 6, 2, 7, 3] = .ok (C.transposeR [0, 4, 1, 5, 6, 2, 7, 3]) :=
    ND.transpose_ok (by simp only [ND.rank, sC, List.length_cons, List.length_nil]; decide)
  set D := C.transposeR [0, 4, 1, 5, 6, 2, 7, 3] with hD
  have sD : D.shape = [p, p', x, x', r, y, y', l] := by simp [hD, ND.transposeR, ND.dim, sC]
  have vD : ∀ s s' i i' b j j' a, D.val [s, s', i, i', b, j, j', a] = C.val [s, i, j, a, s', i', b, j'] := by
    intro s s' i i' b j j' a
    simp [hD, ND.transposeR, sC, ND.rank, ND.dim, List.range_succ]
  refine ⟨D.reshapeR [p * p', x * x', r, y * y', l], ?_, rfl, ?_⟩
  · unfold rowJoin
    rw [h1, ok_bind, h2, ok_bind]
    simp only [ND.dim, hA, hB, List.getD_cons_zero, List.getD_cons_succ]
    rw [ND.reshape_ok_any]
    rw [sD]
    simp only [List.prod_cons, List.prod_nil]
    ring
  · intro s hs s' hs' i hi i' hi' j hj j' hj' a ha b hb
    rw [← vC, ← vD]
    refine ND.reshapeR_val_any ?_ ?_
    · rw [sD]
      exact ⟨hs, hs', hi, hi', hb, hj, hj', ha, trivial⟩
    · rw [sD]
      simp only [ravel_cons, ravel_nil, List.prod_cons, List.prod_nil]
      ring

theorem colJoin_joins : Joins colJoin colIx := by
  intro A B p x y l m p' x' y' r hA hB
  unfold colIx at *
  have h1 : A.tensordot B [3] [1] = .ok (A.tensordotR B [3] [1]) := by
    simp [ND.tensordot, ND.rank, ND.dim, hA, hB]
  set C := A.tensordotR B [3] [1] with hC
  have sC : C.shape = [p, l, x, y, p', x', r, y'] := by
    simp [hC, ND.tensordotR, ND.rank, ND.others, ND.dim, hA, hB, List.range_succ]
  have vC : ∀ s a i j s' i' b j', C.val [s, a, i, j, s', i', b, j'] =
      ∑ k ∈ range m, A.val [s, a, i, k, j] * B.val [s', k, i', b, j'] := by
    intro s a i j s' i' b j'
    simp [hC, ND.tensordotR, ND.transposeR, ND.rank, ND.others, ND.dim, hA, hB, List.range_succ]
  have h2 : C.transpose [0, 4, 1, 2, 5, 6, 3, 7] = .ok (C.transposeR [0, 4, 1, 2, 5, 6, 3, 7]) :=
    ND.transpose_ok (by simp only [ND.rank, sC, List.length_cons, List.length_nil]; decide)
  set D := C.transposeR [0, 4, 1, 2, 5, 6, 3, 7] with hD
  have sD : D.shape = [p, p', l, x, x', r, y, y'] := by simp [hD, ND.transposeR, ND.dim, sC]
  have vD : ∀ s s' a i i' b j j', D.val [s, s', a, i, i', b, j, j'] = C.val [s, a, i, j, s', i', b, j'] := by
    intro s s' a i i' b j j'
    simp [hD, ND.transposeR, sC, ND.rank, ND.dim, List.range_succ]
  refine ⟨D.reshapeR [p * p', l, x * x', r, y * y'], ?_, rfl, ?_⟩
  · unfold colJoin
    rw [h1, ok_bind, h2, ok_bind]
    simp only [ND.dim, hA, hB, List.getD_cons_zero, List.getD_cons_succ]
    rw [ND.reshape_ok_any]
    rw [sD]
    simp only [List.prod_cons, List.prod_nil]
    ring
  · intro s hs s' hs' i hi i' hi' j hj j' hj' a ha b hb
    rw [← vC, ← vD]
    refine ND.reshapeR_val_any ?_ ?_
    · rw [sD]
      exact ⟨hs, hs', ha, hi, hi', hb, hj, hj', trivial⟩
    · rw [sD]
      simp only [ravel_cons, ravel_nil, List.prod_cons, List.prod_nil]
      ring

/-- A line of tensors is joined into one: its entries are the sums over the inner bonds. -/
theorem joins_reduce {J : ND ℂ → ND ℂ → Py (ND ℂ)} {ix : ℕ → ℕ → ℕ → ℕ → ℕ → List ℕ} (hJ : Joins J ix) :
    ∀ {n : ℕ} (g : Fin (n + 1) → ND ℂ) (p x y : Fin (n + 1) → ℕ) (e : Fin (n + 2) → ℕ),
      (∀ i, (g i).shape = ix (p i) (x i) (y i) (e i.castSucc) (e i.succ)) →
      ∃ C, reduceM J (List.ofFn g) = .ok C ∧ C.shape = ix (∏ i, p i) (∏ i, x i) (∏ i, y i) (e 0) (e (Fin.last _)) ∧
        ∀ s u d, (∀ i, s i < p i) → (∀ i, u i < x i) → (∀ i, d i < y i) → ∀ a < e 0, ∀ b < e (Fin.last _),
          C.val (ix (rv p s) (rv x u) (rv y d) a b) =
            ∑ k ∈ Fintype.piFinset (fun i => range (e i)), if k 0 = a ∧ k (Fin.last _) = b then
              ∏ i, (g i).val (ix (s i) (u i) (d i) (k i.castSucc) (k i.succ)) else 0 := by
  intro n
  induction n with
  | zero =>
    intro g p x y e h
    refine ⟨g 0, by simp [reduceM], ?_, ?_⟩
    · rw [h 0]
      simp
    · intro s u d hs hu hd a ha b hb
      rw [sum_piFinset_cons, sum_eq_single a]
      · rw [sum_piFinset_cons, sum_eq_single b]
        · have hz : (Fintype.piFinset fun i : Fin 0 => range (e i.succ.succ)) = {Fin.elim0} := by
            ext v
            simp only [Fintype.mem_piFinset, mem_singleton]
            exact ⟨fun _ => Subsingleton.elim _ _, fun _ i => i.elim0⟩
          rw [hz, sum_singleton]
          simp only [rv_one]
          have h1 : (Fin.cons a (Fin.cons b Fin.elim0 : Fin 1 → ℕ) : Fin 2 → ℕ) (Fin.last 1) = b := rfl
          rw [if_pos ⟨rfl, h1⟩]
          simp
        · intro c _ hc
          refine sum_eq_zero fun v _ => if_neg fun hh => hc ?_
          exact hh.2
        · intro hb'
          exact absurd (mem_range.2 hb) hb'
      · intro c _ hc
        refine sum_eq_zero fun v _ => if_neg fun hh => hc ?_
        exact hh.1
      · intro ha'
        exact absurd (mem_range.2 ha) ha'
  | succ n ih =>
    intro g p x y e h
    obtain ⟨A, h1, h2, h3⟩ := ih (fun i => g i.castSucc) (fun i => p i.castSucc) (fun i => x i.castSucc) (fun i => y i.castSucc)
      (fun i => e i.castSucc) (fun i => h i.castSucc)
    obtain ⟨C, h4, h5, h6⟩ := hJ A (g (Fin.last _)) _ _ _ _ _ _ _ _ _ h2 (h (Fin.last _))
    refine ⟨C, ?_, ?_, ?_⟩
    · rw [List.ofFn_succ', List.concat_eq_append, reduceM_append _ (by simp), h1, ok_bind, h4]
    · rw [h5, Fin.prod_univ_castSucc (f := p), Fin.prod_univ_castSucc (f := x), Fin.prod_univ_castSucc (f := y)]
      rfl
    · intro s u d hs hu hd a ha b hb
      rw [rv_snoc p, rv_snoc x, rv_snoc y, h6 _ (rv_lt fun i => hs i.castSucc) _ (hs _) _ (rv_lt fun i => hu i.castSucc) _ (hu _) _
        (rv_lt fun i => hd i.castSucc) _ (hd _) a ha b hb]
      rw [sum_congr rfl fun k hk => by
        rw [h3 (fun i => s i.castSucc) (fun i => u i.castSucc) (fun i => d i.castSucc) (fun i => hs i.castSucc) (fun i => hu i.castSucc)
          (fun i => hd i.castSucc) a ha k (mem_range.1 hk), sum_mul]]
      rw [sum_comm, sum_piFinset_snoc (fun i : Fin (n + 3) => range (e i))]
      refine sum_congr rfl fun v hv => ?_
      have hvl := Fintype.mem_piFinset.1 hv (Fin.last _)
      rw [sum_eq_single_of_mem (v (Fin.last _)) hvl, sum_eq_single_of_mem b (mem_range.2 hb)]
      · have e0 : (Fin.snoc (α := fun _ => ℕ) v b) 0 = v 0 := by
          rw [show (0 : Fin (n + 3)) = Fin.castSucc 0 from rfl, Fin.snoc_castSucc]
        have e1 : ∀ i : Fin (n + 1), (Fin.snoc (α := fun _ => ℕ) v b) i.castSucc.succ = v i.succ := by
          intro i
          rw [Fin.succ_castSucc, Fin.snoc_castSucc]
        have e2 : (Fin.snoc (α := fun _ => ℕ) v b) (Fin.last (n + 1)).succ = b := by
          rw [Fin.succ_last, Fin.snoc_last]
        simp only [e0, Fin.snoc_last, and_true]
        split_ifs with hh
        · rw [Fin.prod_univ_castSucc (n := n + 1)]
          simp only [Fin.snoc_castSucc, e1, e2]
        · rw [zero_mul]
      · intro c _ hc
        rw [if_neg]
        rw [Fin.snoc_last]
        exact fun hh => hc hh.2
      · intro c _ hc
        rw [if_neg fun hh => hc hh.2.symm, zero_mul]

end Xmps.FPEPS
