import Verif.Lemmas.PepsJoin
import Verif.Props.PepsAdd
import Mathlib.Tactic.FinCases

/-!
# `recombine` lists the amplitudes, `full_overlap` is the inner product
-/

namespace Xmps.Spec

open Finset

/-- The number of the basis state `s` when the sites are read row by row, each row from left to right. -/
def readIdx {m n : ℕ} (ph s : Fin m → Fin n → ℕ) : ℕ :=
  ravel (List.ofFn fun j => List.ofFn (ph j)).flatten (List.ofFn fun j => List.ofFn (s j)).flatten

/-- every second row from right to left -/
def snake {α : Type} {m n : ℕ} (f : Fin m → Fin n → α) (j : Fin m) (i : Fin n) : α := if (j : ℕ) % 2 = 0 then f j i else f j i.rev

/-- The number of the basis state `s` when the sites are read row by row, every second row from right to left. -/
def snakeIdx {m n : ℕ} (ph s : Fin m → Fin n → ℕ) : ℕ := readIdx (snake ph) (snake s)

/-- `V` is a vector with the entry `amp s` at the position `idx ph s`; an array without axes if there is only one entry, as `np.squeeze` leaves it.
In both cases `V.reshape(-1)` is the vector. -/
def ListsAmp {m n : ℕ} (V : ND ℂ) (ph : Fin m → Fin n → ℕ) (idx : (Fin m → Fin n → ℕ) → (Fin m → Fin n → ℕ) → ℕ)
    (amp : (Fin m → Fin n → ℕ) → ℂ) : Prop :=
  V.size = (∏ j, ∏ i, ph j i) ∧ (V.size ≠ 1 → V.shape = [V.size] ∧ ∀ s ∈ bondVals ph, V.val [idx ph s] = amp s) ∧
    ∃ W, V.reshape [V.size] = .ok W ∧ W.shape = [V.size] ∧ ∀ s ∈ bondVals ph, W.val [idx ph s] = amp s

end Xmps.Spec

namespace Xmps.FPEPS

open Finset Spec

theorem rv_grid : ∀ {m n : ℕ} (ph s : Fin m → Fin n → ℕ), rv (fun j => ∏ i, ph j i) (fun j => rv (ph j) (s j)) = readIdx ph s
  | 0, n, ph, s => by simp [rv, readIdx]
  | m + 1, n, ph, s => by
    have ih := rv_grid (fun j : Fin m => ph j.succ) (fun j => s j.succ)
    unfold rv readIdx at ih ⊢
    rw [List.ofFn_succ, List.ofFn_succ, List.ofFn_succ (f := fun j => List.ofFn (ph j)), List.ofFn_succ (f := fun j => List.ofFn (s j)),
      ravel_cons, List.flatten_cons, List.flatten_cons, ravel_append _ _ (by simp), ← ih]
    congr 2
    rw [List.prod_flatten, List.map_ofFn]
    refine congrArg (fun f => (List.ofFn f).prod) (funext fun j => ?_)
    rw [Function.comp_apply, List.prod_ofFn]

/-- merged bonds run over the values of the bonds -/
theorem sum_merged {K : Type} [AddCommMonoid K] : ∀ {m n : ℕ} (e : Fin m → Fin n → ℕ) (F : (Fin m → ℕ) → K),
    ∑ V ∈ Fintype.piFinset (fun j => range (∏ i, e j i)), F V = ∑ v ∈ bondVals e, F fun j => rv (e j) (v j)
  | 0, n, e, F => by
    have h1 : (Fintype.piFinset fun j : Fin 0 => range (∏ i, e j i)) = {Fin.elim0} := by
      ext v
      simp only [Fintype.mem_piFinset, mem_singleton]
      exact ⟨fun _ => Subsingleton.elim _ _, fun _ i => i.elim0⟩
    have h2 : bondVals e = {fun j : Fin 0 => j.elim0} := by
      ext v
      rw [mem_bondVals, mem_singleton]
      exact ⟨fun _ => Subsingleton.elim _ _, fun _ i => i.elim0⟩
    rw [h1, h2, sum_singleton, sum_singleton]
    exact congrArg F (Subsingleton.elim _ _)
  | m + 1, n, e, F => by
    unfold bondVals
    rw [sum_piFinset_cons, sum_piFinset_cons, sum_rv]
    refine sum_congr rfl fun a _ => ?_
    rw [sum_merged (fun j : Fin m => e j.succ)]
    refine sum_congr rfl fun v _ => congrArg F (funext fun j => ?_)
    refine Fin.cases ?_ (fun j => ?_) j
    · simp
    · simp

theorem rv_ones {n : ℕ} : rv (fun _ : Fin n => 1) (fun _ => 0) = 0 := by
  have h := rv_lt (e := fun _ : Fin n => 1) (v := fun _ => 0) fun _ => zero_lt_one
  simpa using h

/-- one row of a grid -/
theorem row_ok {n : ℕ} {g : Fin (n + 1) → ND ℂ} {p x y : Fin (n + 1) → ℕ} {e : Fin (n + 2) → ℕ}
    (h : ∀ i, (g i).shape = [p i, x i, e i.succ, y i, e i.castSucc]) (h0 : e 0 = 1) (h1 : e (Fin.last _) = 1) :
    ∃ C, reduceM rowJoin (List.ofFn g) = .ok C ∧ C.shape = [∏ i, p i, ∏ i, x i, 1, ∏ i, y i, 1] ∧
      ∀ s u d, (∀ i, s i < p i) → (∀ i, u i < x i) → (∀ i, d i < y i) →
        C.val [rv p s, rv x u, 0, rv y d, 0] =
          ∑ k ∈ Fintype.piFinset (fun i => range (e i)), ∏ i, (g i).val [s i, u i, k i.succ, d i, k i.castSucc] := by
  obtain ⟨C, h2, h3, h4⟩ := joins_reduce rowJoin_joins g p x y e h
  refine ⟨C, h2, by rw [h3, h0, h1]; rfl, ?_⟩
  intro s u d hs hu hd
  refine (h4 s u d hs hu hd 0 (by omega) 0 (by omega)).trans (sum_congr rfl fun k hk => ?_)
  have hk' := Fintype.mem_piFinset.1 hk
  have k0 := mem_range.1 (hk' 0)
  have k1 := mem_range.1 (hk' (Fin.last _))
  rw [if_pos ⟨by omega, by omega⟩]
  rfl

/-- the rows one below the other -/
theorem col_ok {m : ℕ} {R : Fin (m + 1) → ND ℂ} {P : Fin (m + 1) → ℕ} {U : Fin (m + 2) → ℕ}
    (h : ∀ j, (R j).shape = [P j, U j.castSucc, 1, U j.succ, 1]) (h0 : U 0 = 1) (h1 : U (Fin.last _) = 1) :
    ∃ C, reduceM colJoin (List.ofFn R) = .ok C ∧ C.shape = [∏ j, P j, 1, 1, 1, 1] ∧
      ∀ t, (∀ j, t j < P j) → C.val [rv P t, 0, 0, 0, 0] =
        ∑ V ∈ Fintype.piFinset (fun j => range (U j)), ∏ j, (R j).val [t j, V j.castSucc, 0, V j.succ, 0] := by
  obtain ⟨C, h2, h3, h4⟩ := joins_reduce colJoin_joins R P (fun _ => 1) (fun _ => 1) U h
  refine ⟨C, h2, by rw [h3, h0, h1]; simp [colIx], ?_⟩
  intro t ht
  have h5 := h4 t (fun _ => 0) (fun _ => 0) ht (fun _ => zero_lt_one) (fun _ => zero_lt_one) 0 (by omega) 0 (by omega)
  rw [rv_ones] at h5
  refine h5.trans (sum_congr rfl fun k hk => ?_)
  have hk' := Fintype.mem_piFinset.1 hk
  have k0 := mem_range.1 (hk' 0)
  have k1 := mem_range.1 (hk' (Fin.last _))
  rw [if_pos ⟨by omega, by omega⟩]
  rfl

theorem squeeze_vec {C : ND ℂ} {N : ℕ} (h : C.shape = [N, 1, 1, 1, 1]) :
    C.squeeze.size = N ∧ ∃ W, C.squeeze.reshape [C.squeeze.size] = .ok W ∧ W.shape = [N] ∧
      (∀ k < N, W.val [k] = C.val [k, 0, 0, 0, 0]) ∧
      (N ≠ 1 → C.squeeze.shape = [N] ∧ ∀ k, C.squeeze.val [k] = C.val [k, 0, 0, 0, 0]) := by
  by_cases hN : N = 1
  · have hs : C.squeeze.shape = [] := by simp [ND.squeeze, h, hN]
    have hz : C.squeeze.size = N := by rw [ND.size, hs, hN]; rfl
    refine ⟨hz, C.squeeze.reshapeR [C.squeeze.size], ?_, by rw [hz]; rfl, ?_, fun h => absurd hN h⟩
    · rw [ND.reshape_ok_any]
      simp [ND.size]
    · intro k hk
      have hv : C.squeeze.val [] = C.val [k, 0, 0, 0, 0] := by
        have : k = 0 := by omega
        simp [ND.squeeze, ND.squeeze.go, h, hN, this]
      rw [← hv]
      refine ND.reshapeR_val_any ?_ ?_
      · rw [hs]
        trivial
      · rw [hs]
        simp
        omega
  · have hs : C.squeeze.shape = [N] := by simp [ND.squeeze, h, hN]
    have hz : C.squeeze.size = N := by rw [ND.size, hs]; simp
    have hv : ∀ k, C.squeeze.val [k] = C.val [k, 0, 0, 0, 0] := fun k => by simp [ND.squeeze, ND.squeeze.go, h, hN]
    refine ⟨hz, C.squeeze.reshapeR [C.squeeze.size], ?_, by rw [hz]; rfl, ?_, fun _ => ⟨hs, hv⟩⟩
    · rw [ND.reshape_ok_any]
      simp [ND.size]
    · intro k hk
      rw [← hv]
      refine ND.reshapeR_val_any ?_ ?_
      · rw [hs]
        exact ⟨hk, trivial⟩
      · rw [hs, hz]

variable {m n : ℕ} {ph : Fin m → Fin n → ℕ} {vE vE' : Fin (m + 1) → Fin n → ℕ} {hE hE' : Fin m → Fin (n + 1) → ℕ}
  {g g' : Fin m → Fin n → ND ℂ} {x y : FPEPS}

/-- `recombine()` lists the amplitudes of the state in reading order (as a vector, unless the state has a single amplitude: then as a number). -/
theorem recombine_eq (hx : x.Holds m n ph vE hE g) (ox : OpenGrid vE hE) :
    ∃ V, recombine x = .ok V ∧ ListsAmp V ph readIdx (pepsAmp vE hE g) := by
  obtain ⟨m, rfl⟩ : ∃ m', m = m' + 1 := ⟨m - 1, by have := hx.rows; omega⟩
  obtain ⟨n, rfl⟩ : ∃ n', n = n' + 1 := ⟨n - 1, by have := hx.cols; omega⟩
  choose R hR1 hR2 hR3 using fun j => row_ok (fun i => hx.grid j i) (ox.left j) (ox.right j)
  obtain ⟨C, hC1, hC2, hC3⟩ := col_ok (U := fun j => ∏ i, vE j i) hR2 (by simp [ox.top]) (by simp [ox.bottom])
  obtain ⟨h1, W, h2, h3, h4, h5⟩ := squeeze_vec hC2
  have key : ∀ s ∈ bondVals ph, C.val [readIdx ph s, 0, 0, 0, 0] = pepsAmp vE hE g s := by
    intro s hs
    rw [mem_bondVals] at hs
    rw [← rv_grid, hC3 _ fun j => rv_lt (hs j), sum_merged]
    refine sum_congr rfl fun v hv => ?_
    rw [mem_bondVals] at hv
    rw [prod_congr rfl fun j _ => hR3 j (s j) (v j.castSucc) (v j.succ) (hs j) (hv j.castSucc) (hv j.succ), Finset.prod_univ_sum]
    rfl
  refine ⟨C.squeeze, ?_, h1, ?_, W, h2, by rw [h3, h1], ?_⟩
  · unfold recombine
    rw [hx.data, gridList, mapM_ofFn hR1, ok_bind, hC1, ok_bind]
  · intro hN
    rw [h1] at hN
    obtain ⟨h6, h7⟩ := h5 hN
    exact ⟨by rw [h6, h1], fun s hs => by rw [h7, key s hs]⟩
  · intro s hs
    rw [← key s hs]
    refine h4 _ ?_
    rw [← rv_grid]
    rw [mem_bondVals] at hs
    exact rv_lt fun j => rv_lt (hs j)

/-- every position of the vector belongs to one basis state -/
theorem sum_read {K : Type} [AddCommMonoid K] (ph : Fin m → Fin n → ℕ) (F : ℕ → K) :
    ∑ k ∈ range (∏ j, ∏ i, ph j i), F k = ∑ s ∈ bondVals ph, F (readIdx ph s) := by
  rw [sum_rv, sum_merged]
  exact sum_congr rfl fun s _ => congrArg F (rv_grid ph s)

/-- `full_overlap` is the inner product of the two states. -/
theorem fullOverlap_eq (hx : x.Holds m n ph vE hE g) (hy : y.Holds m n ph vE' hE' g') (ox : OpenGrid vE hE) (oy : OpenGrid vE' hE') :
    fullOverlap x y = .ok (pepsBraket ph vE vE' hE hE' g g') := by
  obtain ⟨V, h1, h2, _, W, h3, h4, h5⟩ := recombine_eq hx ox
  obtain ⟨V', h1', h2', _, W', h3', h4', h5'⟩ := recombine_eq hy oy
  have hW : W.size = ∏ j, ∏ i, ph j i := by rw [ND.size, h4, h2]; simp
  have hW' : W'.size = ∏ j, ∏ i, ph j i := by rw [ND.size, h4', h2']; simp
  unfold fullOverlap
  rw [h1, ok_bind, h3, ok_bind, h1', ok_bind, h3', ok_bind, hW, hW', beq_self_eq_true, guardPy_true, ok_bind, sum_read]
  refine congrArg Except.ok (sum_congr rfl fun s hs => ?_)
  rw [h5 s hs, h5' s hs]

/-- `full_overlap` agrees with `overlap` (two columns or more). -/
theorem fullOverlap_overlap (O : Ncon.SetOrder) {m' n' : ℕ} {ph₂ : Fin (m' + 1) → Fin (n' + 2) → ℕ} {vE₂ vE₃ : Fin (m' + 2) → Fin (n' + 2) → ℕ}
    {hE₂ hE₃ : Fin (m' + 1) → Fin (n' + 3) → ℕ} {g₂ g₃ : Fin (m' + 1) → Fin (n' + 2) → ND ℂ} (hx : x.Holds (m' + 1) (n' + 2) ph₂ vE₂ hE₂ g₂) (hy : y.Holds (m' + 1) (n' + 2) ph₂ vE₃ hE₃ g₃)
    (ox : OpenGrid vE₂ hE₂) (oy : OpenGrid vE₃ hE₃) :
    ∃ t, overlap O x y = .ok t ∧ fullOverlap x y = .ok (t.val [0, 0]) := by
  obtain ⟨t, h1, _, h2⟩ := overlap_eq O hx hy ox oy
  exact ⟨t, h1, by rw [fullOverlap_eq hx hy ox oy, h2]⟩

example : (∃ V, recombine exPeps = .ok V) ∧ ∃ c, fullOverlap exPeps exPeps = .ok c :=
  ⟨(recombine_eq exPeps_holds exOpen).imp fun _ h => h.1, _, fullOverlap_eq exPeps_holds exPeps_holds exOpen exOpen⟩

/-- `add` refuses single rows and columns. -/
theorem add_raises (hx : x.Holds m n ph vE hE g) (hy : y.Holds m n ph vE' hE' g') (h : ¬ (1 < x.Lx ∧ 1 < x.Ly)) :
    add x y = .error .assertionError := by
  obtain ⟨m, rfl⟩ : ∃ m', m = m' + 1 := ⟨m - 1, by have := hx.rows; omega⟩
  obtain ⟨n, rfl⟩ : ∃ n', n = n' + 1 := ⟨n - 1, by have := hx.cols; omega⟩
  unfold add
  rw [hx.data, hy.data, gridList, gridList, List.ofFn_succ, List.ofFn_succ (f := fun j => List.ofFn (g' j)), List.zip_cons_cons,
    List.zipIdx_cons, List.mapM_cons]
  simp only
  rw [List.ofFn_succ, List.ofFn_succ (f := g' 0), List.zip_cons_cons, List.zipIdx_cons, List.mapM_cons]
  have h0 : ∀ i j A B, addTensor x.Lx x.Ly i j A B = .error .assertionError := fun i j A B => by
    unfold addTensor
    rw [decide_eq_false h, guardPy_false, err_bind]
  simp only [h0, err_bind]

/-! ## The snake -/

theorem zipIdx_mapM_ofFn {α β : Type} {k : ℕ} {f : α × ℕ → Py β} {a : Fin k → α} {b : Fin k → β} (h : ∀ i, f (a i, (i : ℕ)) = .ok (b i)) :
    (List.ofFn a).zipIdx.mapM f = .ok (List.ofFn b) := by
  rw [zipIdx_ofFn]
  exact mapM_ofFn h

/-- one row, read from right to left -/
theorem row_rev_ok {n : ℕ} {g : Fin (n + 1) → ND ℂ} {p x y : Fin (n + 1) → ℕ} {e : Fin (n + 2) → ℕ}
    (h : ∀ i, (g i).shape = [p i, x i, e i.succ, y i, e i.castSucc]) (h0 : e 0 = 1) (h1 : e (Fin.last _) = 1) :
    ∃ C : ND ℂ, (do
        let row ← (List.ofFn g).reverse.mapM fun A : ND ℂ => A.transpose [0, 1, 4, 3, 2]
        reduceM rowJoin row : Py (ND ℂ)) = .ok C ∧
      C.shape = [∏ i, p i, ∏ i, x i, 1, ∏ i, y i, 1] ∧
      ∀ s u d : Fin (n + 1) → ℕ, (∀ i, s i < p i) → (∀ i, u i < x i) → (∀ i, d i < y i) →
        C.val [rv (fun i => p i.rev) (fun i => s i.rev), rv (fun i => x i.rev) (fun i => u i.rev), 0,
            rv (fun i => y i.rev) (fun i => d i.rev), 0] =
          ∑ k ∈ Fintype.piFinset (fun i => range (e i)), ∏ i, (g i).val [s i, u i, k i.succ, d i, k i.castSucc] := by
  have ht : ∀ i : Fin (n + 1), (g i.rev).transpose [0, 1, 4, 3, 2] = .ok ((g i.rev).transposeR [0, 1, 4, 3, 2]) := fun i =>
    ND.transpose_ok (by simp only [ND.rank, h, List.length_cons, List.length_nil]; decide)
  have hs : ∀ i : Fin (n + 1), ((g i.rev).transposeR [0, 1, 4, 3, 2]).shape =
      [p i.rev, x i.rev, e i.succ.rev, y i.rev, e i.castSucc.rev] := fun i => by
    rw [Fin.rev_succ, Fin.rev_castSucc]
    simp [ND.transposeR, ND.dim, h]
  have hv : ∀ (i : Fin (n + 1)) (a b c d f : ℕ), ((g i.rev).transposeR [0, 1, 4, 3, 2]).val [a, b, c, d, f] =
      (g i.rev).val [a, b, f, d, c] := fun i a b c d f => by
    simp [ND.transposeR, ND.rank, h, List.range_succ]
  obtain ⟨C, h2, h3, h4⟩ := row_ok (e := fun i => e i.rev) hs (by simpa using h1) (by simpa using h0)
  refine ⟨C, ?_, ?_, ?_⟩
  · rw [reverse_ofFn, mapM_ofFn ht, ok_bind, h2]
  · have hp : ∀ q : Fin (n + 1) → ℕ, ∏ i, q (Fin.rev i) = ∏ i, q i := fun q => Equiv.prod_comp Fin.revPerm q
    rw [h3, hp, hp, hp]
  · intro s u d hs hu hd
    rw [h4 _ _ _ (fun i => hs i.rev) (fun i => hu i.rev) (fun i => hd i.rev)]
    refine Finset.sum_nbij' (fun k i => k i.rev) (fun k i => k i.rev) ?_ ?_ ?_ ?_ ?_
    · intro k hk
      rw [Fintype.mem_piFinset] at hk ⊢
      intro i
      simpa using hk i.rev
    · intro k hk
      rw [Fintype.mem_piFinset] at hk ⊢
      intro i
      exact hk i.rev
    · intro k _
      simp
    · intro k _
      simp
    · intro k _
      rw [← Equiv.prod_comp Fin.revPerm]
      refine prod_congr rfl fun i _ => ?_
      rw [hv]
      simp [Fin.rev_succ, Fin.rev_castSucc]

/-- What `recombine('row_snake')` computes, given how the merged bonds of a row read from right to left are numbered. -/
theorem recombineSnake_core (hx : x.Holds m n ph vE hE g) (ox : OpenGrid vE hE) (T : (Fin n → ℕ) → Fin n → ℕ)
    (hT : ∀ (j : Fin (m + 1)) v, (∀ i, v i < vE j i) → (∀ i, T v i < vE j i) ∧ rv (fun i => vE j i.rev) (fun i => T v i.rev) = rv (vE j) v) :
    ∃ V, recombineSnake x = .ok V ∧ ListsAmp V ph snakeIdx fun s =>
        ∑ v ∈ bondVals vE, ∑ h ∈ bondVals hE, ∏ j, ∏ i,
          (g j i).val [s j i, (if (j : ℕ) % 2 = 0 then v j.castSucc i else T (v j.castSucc) i), h j i.succ,
            (if (j : ℕ) % 2 = 0 then v j.succ i else T (v j.succ) i), h j i.castSucc] := by
  obtain ⟨m, rfl⟩ : ∃ m', m = m' + 1 := ⟨m - 1, by have := hx.rows; omega⟩
  obtain ⟨n, rfl⟩ : ∃ n', n = n' + 1 := ⟨n - 1, by have := hx.cols; omega⟩
  have hrow : ∀ j : Fin (m + 1), ∃ C : ND ℂ, (if (j : ℕ) % 2 = 0 then reduceM rowJoin (List.ofFn (g j)) else do
        let row ← (List.ofFn (g j)).reverse.mapM fun A : ND ℂ => A.transpose [0, 1, 4, 3, 2]
        reduceM rowJoin row : Py (ND ℂ)) = .ok C ∧
      C.shape = [∏ i, ph j i, ∏ i, vE j.castSucc i, 1, ∏ i, vE j.succ i, 1] ∧
      ∀ s v w, (∀ i, s i < ph j i) → (∀ i, v i < vE j.castSucc i) → (∀ i, w i < vE j.succ i) →
        C.val [if (j : ℕ) % 2 = 0 then rv (ph j) s else rv (fun i => ph j i.rev) (fun i => s i.rev), rv (vE j.castSucc) v, 0, rv (vE j.succ) w, 0] =
          ∑ k ∈ Fintype.piFinset (fun i => range (hE j i)), ∏ i, (g j i).val [s i, (if (j : ℕ) % 2 = 0 then v i else T v i), k i.succ,
            (if (j : ℕ) % 2 = 0 then w i else T w i), k i.castSucc] := by
    intro j
    by_cases hj : (j : ℕ) % 2 = 0
    · simp only [hj, if_true]
      exact row_ok (fun i => hx.grid j i) (ox.left j) (ox.right j)
    · simp only [hj, if_false]
      obtain ⟨C, h1, h2, h3⟩ := row_rev_ok (fun i => hx.grid j i) (ox.left j) (ox.right j)
      refine ⟨C, h1, h2, fun s v w hs hv hw => ?_⟩
      rw [← (hT j.castSucc v hv).2, ← (hT j.succ w hw).2]
      exact h3 s (T v) (T w) hs (hT _ v hv).1 (hT _ w hw).1
  choose R hR1 hR2 hR3 using hrow
  obtain ⟨C, hC1, hC2, hC3⟩ := col_ok (U := fun j => ∏ i, vE j i) hR2 (by simp [ox.top]) (by simp [ox.bottom])
  obtain ⟨h1, W, h2, h3, h4, h5⟩ := squeeze_vec hC2
  have key : ∀ s ∈ bondVals ph, snakeIdx ph s < ∏ j, ∏ i, ph j i ∧ C.val [snakeIdx ph s, 0, 0, 0, 0] =
      ∑ v ∈ bondVals vE, ∑ h ∈ bondVals hE, ∏ j, ∏ i,
          (g j i).val [s j i, (if (j : ℕ) % 2 = 0 then v j.castSucc i else T (v j.castSucc) i), h j i.succ,
            (if (j : ℕ) % 2 = 0 then v j.succ i else T (v j.succ) i), h j i.castSucc] := by
    intro s hs
    rw [mem_bondVals] at hs
    have hp : ∀ q : Fin (n + 1) → ℕ, ∏ i, q (Fin.rev i) = ∏ i, q i := fun q => Equiv.prod_comp Fin.revPerm q
    have hP : (fun j => ∏ i, snake ph j i) = fun j => ∏ i, ph j i := by
      funext j
      unfold snake
      split_ifs
      · rfl
      · exact hp _
    have hi : snakeIdx ph s = rv (fun j => ∏ i, ph j i) fun j => if (j : ℕ) % 2 = 0 then rv (ph j) (s j) else
        rv (fun i => ph j i.rev) (fun i => s j i.rev) := by
      rw [snakeIdx, ← rv_grid, hP]
      refine congrArg _ (funext fun j => ?_)
      unfold snake
      split_ifs <;> rfl
    have hb : ∀ j : Fin (m + 1), (if (j : ℕ) % 2 = 0 then rv (ph j) (s j) else rv (fun i => ph j i.rev) (fun i => s j i.rev)) < ∏ i, ph j i := by
      intro j
      split_ifs
      · exact rv_lt (hs j)
      · rw [← hp]
        exact rv_lt fun i => hs j i.rev
    refine ⟨hi ▸ rv_lt hb, ?_⟩
    rw [hi, hC3 _ hb, sum_merged]
    refine sum_congr rfl fun v hv => ?_
    rw [mem_bondVals] at hv
    rw [prod_congr rfl fun j _ => hR3 j (s j) (v j.castSucc) (v j.succ) (hs j) (hv j.castSucc) (hv j.succ), Finset.prod_univ_sum]
    rfl
  refine ⟨C.squeeze, ?_, h1, ?_, W, h2, by rw [h3, h1], ?_⟩
  · unfold recombineSnake
    rw [hx.data, gridList, zipIdx_mapM_ofFn (b := R) hR1, ok_bind, hC1, ok_bind]
  · intro hN
    rw [h1] at hN
    exact ⟨by rw [(h5 hN).1, h1], fun s hs => by rw [(h5 hN).2, (key s hs).2]⟩
  · intro s hs
    rw [h4 _ (key s hs).1, (key s hs).2]

/-- with at most one bond that is not trivial the merged index is the value of that bond -/
theorem rv_single : ∀ {n : ℕ} {e v : Fin n → ℕ} (i₀ : Fin n), (∀ i, i ≠ i₀ → e i = 1) → (∀ i, v i < e i) → rv e v = v i₀
  | 0, _, _, i₀, _, _ => i₀.elim0
  | n + 1, e, v, i₀, h, hv => by
    rw [rv_snoc]
    refine Fin.lastCases (motive := fun i₀ => (∀ i, i ≠ i₀ → e i = 1) → _ = v i₀) (fun h => ?_) (fun i₀ h => ?_) i₀ h
    · have h1 := rv_lt (e := fun i : Fin n => e i.castSucc) (v := fun i => v i.castSucc) fun i => hv _
      rw [prod_eq_one fun i _ => h i.castSucc (Fin.castSucc_lt_last i).ne] at h1
      rw [show rv (fun i : Fin n => e i.castSucc) (fun i => v i.castSucc) = 0 by omega, zero_mul, zero_add]
    · have h1 := h (Fin.last n) (Fin.castSucc_lt_last i₀).ne'
      have h2 := hv (Fin.last n)
      rw [rv_single i₀ (fun i hi => h i.castSucc fun hh => hi (Fin.castSucc_injective _ hh)) fun i => hv _, h1, mul_one]
      omega

/-- `recombine('row_snake')` lists the amplitudes along the snake if between any two rows at most one bond is not trivial.  (Not claimed for other grids,
see `recombineSnake_twist` and `recombineSnake_wrong`.) -/
theorem recombineSnake_eq_partial (hx : x.Holds m n ph vE hE g) (ox : OpenGrid vE hE) (h : ∀ j, ∃ i₀, ∀ i, i ≠ i₀ → vE j i = 1) :
    ∃ V, recombineSnake x = .ok V ∧ ListsAmp V ph snakeIdx (pepsAmp vE hE g) := by
  obtain ⟨V, h1, h2⟩ := recombineSnake_core hx ox id (by
    intro j v hv
    refine ⟨hv, ?_⟩
    obtain ⟨i₀, h0⟩ := h j
    simp only [id]
    rw [rv_single i₀ h0 hv, rv_single i₀.rev (fun i hi => h0 i.rev fun hh => hi (by rw [← hh, Fin.rev_rev])) fun i => hv i.rev]
    simp)
  refine ⟨V, h1, ?_⟩
  simp only [id, ite_self] at h2
  exact h2

/-- If the bonds between two rows have the same extents from left to right and from right to left (in particular, if they are all alike), then
`recombine('row_snake')` joins the bonds leaving an odd row to the wrong sites of the rows above and below: column `i` to column `n - 1 - i`. -/
theorem recombineSnake_twist (hx : x.Holds m n ph vE hE g) (ox : OpenGrid vE hE) (h : ∀ j i, vE j i.rev = vE j i) :
    ∃ V, recombineSnake x = .ok V ∧ ListsAmp V ph snakeIdx fun s =>
        ∑ v ∈ bondVals vE, ∑ h ∈ bondVals hE, ∏ j, ∏ i,
          (g j i).val [s j i, (if (j : ℕ) % 2 = 0 then v j.castSucc i else v j.castSucc i.rev), h j i.succ,
            (if (j : ℕ) % 2 = 0 then v j.succ i else v j.succ i.rev), h j i.castSucc] :=
  recombineSnake_core hx ox (fun v i => v i.rev) (by
    intro j v hv
    refine ⟨fun i => by rw [← h j i]; exact hv i.rev, ?_⟩
    simp only [Fin.rev_rev, h])

/-! ### A state that comes out wrong -/

/-- physical extents: only the site in the lower left corner has two states -/
def exTwPh : Fin 2 → Fin 2 → ℕ := ![![1, 1], ![2, 1]]

def exTwV : Fin 3 → Fin 2 → ℕ := ![![1, 1], ![2, 2], ![1, 1]]

/-- two columns without a bond between them: `(1, 0)` above the identity, and `(1, 1)` above `(1, 1)` -/
def exTwG : Fin 2 → Fin 2 → ND ℂ :=
  ![![⟨[1, 1, 1, 2, 1], fun i => if i.getD 3 0 = 0 then 1 else 0⟩, ⟨[1, 1, 1, 2, 1], fun _ => 1⟩],
    ![⟨[2, 2, 1, 1, 1], fun i => if i.getD 0 0 = i.getD 1 0 then 1 else 0⟩, ⟨[1, 2, 1, 1, 1], fun _ => 1⟩]]

def exTw : FPEPS := ⟨gridList exTwG, 2, 2, 2, 2, none⟩

theorem exTw_holds : exTw.Holds 2 2 exTwPh exTwV (fun _ _ => 1) exTwG where
  grid := by
    intro j i
    fin_cases j <;> fin_cases i <;> rfl
  data := rfl
  rows := by decide
  cols := by decide

theorem exTw_open : OpenGrid (m := 2) (n := 2) exTwV (fun _ _ => 1) where
  top := by decide
  bottom := by decide
  left _ := rfl
  right _ := rfl

/-- The state is `(2, 0)`; `recombine()` lists it so, `recombine('row_snake')` says `(1, 1)`. -/
theorem recombineSnake_wrong : ∃ V U : ND ℂ, recombine exTw = .ok V ∧ recombineSnake exTw = .ok U ∧ V.shape = [2] ∧ U.shape = [2] ∧
    V.val [0] = 2 ∧ V.val [1] = 0 ∧ U.val [0] = 1 ∧ U.val [1] = 1 := by
  obtain ⟨V, h1, h2, h3, -⟩ := recombine_eq exTw_holds exTw_open
  obtain ⟨U, h1', h2', h3', -⟩ := recombineSnake_twist exTw_holds exTw_open (by decide)
  have hs : (∏ j, ∏ i, exTwPh j i) = 2 := by decide
  rw [hs] at h2 h2'
  rw [h2] at h3
  rw [h2'] at h3'
  obtain ⟨h4, h5⟩ := h3 (by decide)
  obtain ⟨h4', h5'⟩ := h3' (by decide)
  have m0 : (![![0, 0], ![0, 0]] : Fin 2 → Fin 2 → ℕ) ∈ bondVals exTwPh := mem_bondVals.2 (by decide)
  have m1 : (![![0, 0], ![1, 0]] : Fin 2 → Fin 2 → ℕ) ∈ bondVals exTwPh := mem_bondVals.2 (by decide)
  have a0 := h5 _ m0
  have a1 := h5 _ m1
  have b0 := h5' _ m0
  have b1 := h5' _ m1
  rw [show readIdx exTwPh ![![0, 0], ![0, 0]] = 0 from rfl] at a0
  rw [show readIdx exTwPh ![![0, 0], ![1, 0]] = 1 from rfl] at a1
  rw [show snakeIdx exTwPh ![![0, 0], ![0, 0]] = 0 from rfl] at b0
  rw [show snakeIdx exTwPh ![![0, 0], ![1, 0]] = 1 from rfl] at b1
  refine ⟨V, U, h1, h1', h4, h4', a0.trans ?_, a1.trans ?_, b0.trans ?_, b1.trans ?_⟩
  all_goals simp [pepsAmp, bondVals, sum_piFinset_cons, Fin.prod_univ_two, exTwV, exTwG, sum_range_succ]

end Xmps.FPEPS
