import Verif.Lemmas.PepsWalk

/-!
# `contract` merges a block of sites, `E_k` reads its operator column by column
-/

namespace Xmps.Spec

open Finset

/-- the sites of the block with the corner in column `x0` and row `y0`; `h + 1` rows and `w + 1` columns -/
def subGrid {α : Type} {y0 h b x0 w b2 : ℕ} (f : Fin (y0 + (h + 1) + b) → Fin (x0 + (w + 1) + b2) → α) (j : Fin (h + 1)) (i : Fin (w + 1)) : α :=
  f ⟨y0 + j, by omega⟩ ⟨x0 + i, by omega⟩

/-- the sites of the block are given new values -/
def setGrid {α : Type} {y0 h b x0 w b2 : ℕ} (f : Fin (y0 + (h + 1) + b) → Fin (x0 + (w + 1) + b2) → α) (t : Fin (h + 1) → Fin (w + 1) → α)
    (j : Fin (y0 + (h + 1) + b)) (i : Fin (x0 + (w + 1) + b2)) : α :=
  if hh : (y0 ≤ j ∧ (j : ℕ) < y0 + (h + 1)) ∧ x0 ≤ i ∧ (i : ℕ) < x0 + (w + 1) then t ⟨j - y0, by omega⟩ ⟨i - x0, by omega⟩ else f j i

/-- the number of a configuration of a block read column by column, each column from top to bottom -/
def colIdx {m n : ℕ} (ph s : Fin m → Fin n → ℕ) : ℕ := readIdx (fun i j => ph j i) fun i j => s j i

/-- `⟨ψ| op |ψ⟩` with `op` acting on the sites of a block; `num` numbers the configurations of the block. -/
noncomputable def blockExp {y0 h b x0 w b2 : ℕ} (ph : Fin (y0 + (h + 1) + b) → Fin (x0 + (w + 1) + b2) → ℕ)
    (num : (Fin (h + 1) → Fin (w + 1) → ℕ) → (Fin (h + 1) → Fin (w + 1) → ℕ) → ℕ) (ψ : (Fin (y0 + (h + 1) + b) → Fin (x0 + (w + 1) + b2) → ℕ) → ℂ) (op : ND ℂ) : ℂ :=
  ∑ s ∈ bondVals ph, ∑ t ∈ bondVals (subGrid ph), star (ψ s) * (op.val [num (subGrid ph) (subGrid s), num (subGrid ph) t] * ψ (setGrid s t))

end Xmps.Spec

namespace Xmps.FPEPS

open Finset Spec

section
variable {a b c m n : ℕ} {x : FPEPS}

theorem open_merged {vE : Fin (a + (c + 1) + b + 1) → Fin n → ℕ} {hE : Fin (a + (c + 1) + b) → Fin (n + 1) → ℕ} (ox : OpenGrid vE hE) :
    OpenGrid (levels vE) (mergedH hE) := by
  refine ⟨fun i => ?_, fun i => ?_, fun j => ?_, fun j => ?_⟩
  · unfold levels
    rw [dif_pos (by simp)]
    exact ox.top i
  · unfold levels
    rw [dif_neg (by simp only [Fin.val_last]; omega)]
    refine Eq.trans (congrArg (vE · i) ?_) (ox.bottom i)
    ext
    simp only [Fin.val_last]
    omega
  · unfold mergedH mergeAt blockOf
    split_ifs <;> simp [ox.left]
  · unfold mergedH mergeAt blockOf
    split_ifs <;> simp [ox.right]

/-- **C86**: `x.row_contract(fr, to)` is the same state, a block of rows having become one row. -/
theorem rowContract_ok {ph : Fin (a + (c + 1) + b) → Fin n → ℕ} {vE : Fin (a + (c + 1) + b + 1) → Fin n → ℕ}
    {hE : Fin (a + (c + 1) + b) → Fin (n + 1) → ℕ} {g : Fin (a + (c + 1) + b) → Fin n → ND ℂ} (hx : x.Holds (a + (c + 1) + b) n ph vE hE g) :
    ∃ y g', x.rowContract a (a + (c + 1)) = .ok y ∧ y.Holds (a + 1 + b) n (mergedPh ph) (levels vE) (mergedH hE) g' ∧
      ∀ s ∈ bondVals ph, pepsAmp (levels vE) (mergedH hE) g' (mergedS ph s) = pepsAmp vE hE g s := by
  obtain ⟨C, c1, c2, c3⟩ := merge_rows hx.grid
  obtain ⟨d, X, hi⟩ := init_grid (by omega) hx.cols c2
  refine ⟨⟨gridList (mergeAt g C), a + 1 + b, n, d, X, none⟩, mergeAt g C, ?_, ⟨c2, rfl, by omega, hx.cols⟩, c3⟩
  unfold rowContract
  have h1 : (x.data.take (a + (c + 1))).drop a = gridList (blockOf g) := by
    rw [hx.data]
    exact ofFn_blockOf (fun j => List.ofFn (g j))
  have h2 : x.data.take a ++ [List.ofFn C] ++ x.data.drop (a + (c + 1)) = gridList (mergeAt g C) := by
    rw [hx.data]
    unfold gridList
    rw [← ofFn_mergeAt]
    refine congrArg List.ofFn (funext fun j => ?_)
    unfold mergeAt
    split_ifs <;> rfl
  rw [h1, zipStar_grid (by omega)]
  unfold gridList
  simp only
  rw [mapM_ofFn (b := C) fun i => c1 i, ok_bind]
  rw [h2]
  exact hi

/-- the transpose of a grid -/
def flip2 {α : Type} (f : Fin m → Fin n → α) (i : Fin n) (j : Fin m) : α := f j i

/-- **C86**: `x.col_contract(fr, to)` is the same state, a block of columns having become one column. -/
theorem colContract_ok {ph : Fin m → Fin (a + (c + 1) + b) → ℕ} {vE : Fin (m + 1) → Fin (a + (c + 1) + b) → ℕ}
    {hE : Fin m → Fin (a + (c + 1) + b + 1) → ℕ} {g : Fin m → Fin (a + (c + 1) + b) → ND ℂ} (hx : x.Holds m (a + (c + 1) + b) ph vE hE g) :
    ∃ y g', x.colContract a (a + (c + 1)) = .ok y ∧
      y.Holds m (a + 1 + b) (flip2 (mergedPh (flip2 ph))) (flip2 (mergedH (flip2 vE))) (flip2 (levels (flip2 hE))) g' ∧
      ∀ s ∈ bondVals ph, pepsAmp (flip2 (mergedH (flip2 vE))) (flip2 (levels (flip2 hE))) g' (flip2 (mergedS (flip2 ph) (flip2 s))) = pepsAmp vE hE g s := by
  obtain ⟨y1, h1, k1, _⟩ := hx.T
  obtain ⟨y2, g2, h2, k2, e2⟩ := rowContract_ok k1
  obtain ⟨y3, h3, k3, _⟩ := k2.T
  refine ⟨y3, tT g2, ?_, k3, ?_⟩
  · unfold colContract
    rw [h1, ok_bind, h2, ok_bind, h3]
  · intro s hs
    refine Eq.trans (pepsAmp_tT k2.grid _) (Eq.trans (e2 (flip2 s) ?_) (pepsAmp_tT hx.grid s))
    rw [mem_bondVals] at hs ⊢
    exact fun i j => hs j i

/-! ## Configurations of the merged grid -/

theorem InB_ofFn_lt : ∀ {n : ℕ} {e v : Fin n → ℕ}, InB (List.ofFn e) (List.ofFn v) → ∀ i, v i < e i
  | 0, _, _, _, i => i.elim0
  | n + 1, e, v, h, i => by
    rw [List.ofFn_succ, List.ofFn_succ] at h
    exact Fin.cases h.1 (fun i => InB_ofFn_lt h.2 i) i

theorem rv_inj {e v w : Fin n → ℕ} (hv : ∀ i, v i < e i) (hw : ∀ i, w i < e i) (h : rv e v = rv e w) : v = w := by
  have := congrArg (unravel (List.ofFn e)) h
  simp only [rv] at this
  rw [unravel_ravel (InB_ofFn hv), unravel_ravel (InB_ofFn hw)] at this
  exact List.ofFn_injective this

theorem rv_surj {e : Fin n → ℕ} {k : ℕ} (hk : k < ∏ i, e i) : ∃ v, (∀ i, v i < e i) ∧ rv e v = k := by
  have hk' : k < (List.ofFn e).prod := by rw [List.prod_ofFn]; exact hk
  have hb := InB_unravel hk'
  have hlen : (unravel (List.ofFn e) k).length = n := by rw [hb.length_eq, List.length_ofFn]
  have he : List.ofFn (fun i : Fin n => (unravel (List.ofFn e) k).getD i 0) = unravel (List.ofFn e) k := by
    apply List.ext_getElem
    · rw [List.length_ofFn, hlen]
    · intro i h1 h2
      rw [List.getElem_ofFn, List.getD_eq_getElem?_getD, List.getElem?_eq_getElem h2, Option.getD_some]
  refine ⟨fun i => (unravel (List.ofFn e) k).getD i 0, ?_, ?_⟩
  · rw [← he] at hb
    exact InB_ofFn_lt hb
  · simp only [rv]
    rw [he, ravel_unravel hk']

theorem mergeAt_lo {β : Type} (f : Fin (a + (c + 1) + b) → β) (M : β) {j : Fin (a + 1 + b)} (h : (j : ℕ) < a) :
    mergeAt f M j = f ⟨j, by omega⟩ := dif_pos h

theorem mergeAt_mid {β : Type} (f : Fin (a + (c + 1) + b) → β) (M : β) {j : Fin (a + 1 + b)} (h : (j : ℕ) = a) : mergeAt f M j = M := by
  unfold mergeAt
  rw [dif_neg (by omega), if_pos h]

theorem mergeAt_hi {β : Type} (f : Fin (a + (c + 1) + b) → β) (M : β) {j : Fin (a + 1 + b)} (h : a < (j : ℕ)) :
    mergeAt f M j = f ⟨j + c, by omega⟩ := by
  unfold mergeAt
  rw [dif_neg (by omega), if_neg (by omega)]

theorem mem_mergedS {ph s : Fin (a + (c + 1) + b) → Fin n → ℕ} (hs : s ∈ bondVals ph) : mergedS ph s ∈ bondVals (mergedPh ph) := by
  rw [mem_bondVals] at hs ⊢
  intro j i
  unfold mergedS mergedPh
  rcases lt_trichotomy (j : ℕ) a with h | h | h
  · rw [mergeAt_lo _ _ h, mergeAt_lo _ _ h]
    exact hs _ i
  · rw [mergeAt_mid _ _ h, mergeAt_mid _ _ h]
    exact rv_lt fun l => hs _ i
  · rw [mergeAt_hi _ _ h, mergeAt_hi _ _ h]
    exact hs _ i

theorem mergedS_inj {ph s t : Fin (a + (c + 1) + b) → Fin n → ℕ} (hs : s ∈ bondVals ph) (ht : t ∈ bondVals ph) (h : mergedS ph s = mergedS ph t) :
    s = t := by
  rw [mem_bondVals] at hs ht
  funext j
  by_cases h1 : (j : ℕ) < a
  · have := congrFun h ⟨j, by omega⟩
    unfold mergedS at this
    rwa [mergeAt_lo _ _ h1, mergeAt_lo _ _ h1] at this
  · by_cases h2 : (j : ℕ) < a + (c + 1)
    · have := congrFun h ⟨a, by omega⟩
      unfold mergedS at this
      rw [mergeAt_mid _ _ rfl, mergeAt_mid _ _ rfl] at this
      funext i
      have h3 := congrFun (rv_inj (fun l => hs _ i) (fun l => ht _ i) (congrFun this i)) ⟨j - a, by omega⟩
      have h4 : (⟨a + (j - a), by omega⟩ : Fin (a + (c + 1) + b)) = j := Fin.ext (by simp only; omega)
      unfold blockOf at h3
      simp only [h4] at h3
      exact h3
    · have h5 : a < ((⟨j - c, by omega⟩ : Fin (a + 1 + b)) : ℕ) := by simp only; omega
      have := congrFun h ⟨j - c, by omega⟩
      unfold mergedS at this
      rw [mergeAt_hi _ _ h5, mergeAt_hi _ _ h5] at this
      have h4 : (⟨j - c + c, by omega⟩ : Fin (a + (c + 1) + b)) = j := Fin.ext (by simp only; omega)
      simp only [h4] at this
      exact this

theorem mergedS_surj {ph : Fin (a + (c + 1) + b) → Fin n → ℕ} {S : Fin (a + 1 + b) → Fin n → ℕ} (hS : S ∈ bondVals (mergedPh ph)) :
    ∃ s ∈ bondVals ph, mergedS ph s = S := by
  rw [mem_bondVals] at hS
  have hm : ∀ i, S ⟨a, by omega⟩ i < ∏ l, blockOf ph l i := fun i => by
    have := hS ⟨a, by omega⟩ i
    unfold mergedPh at this
    rwa [mergeAt_mid _ _ rfl] at this
  choose v v1 v2 using fun i => rv_surj (hm i)
  refine ⟨fun j => if h : (j : ℕ) < a then S ⟨j, by omega⟩ else if h2 : (j : ℕ) < a + (c + 1) then fun i => v i ⟨j - a, by omega⟩ else S ⟨j - c, by omega⟩, ?_, ?_⟩
  · rw [mem_bondVals]
    intro j i
    split_ifs with h h2
    · have := hS ⟨j, by omega⟩ i
      unfold mergedPh at this
      rwa [mergeAt_lo _ _ h] at this
    · have h3 := v1 i ⟨j - a, by omega⟩
      have h4 : (⟨a + (j - a), by omega⟩ : Fin (a + (c + 1) + b)) = j := Fin.ext (by simp only; omega)
      unfold blockOf at h3
      simp only [h4] at h3
      exact h3
    · have h5 : a < ((⟨j - c, by omega⟩ : Fin (a + 1 + b)) : ℕ) := by simp only; omega
      have := hS ⟨j - c, by omega⟩ i
      unfold mergedPh at this
      rw [mergeAt_hi _ _ h5] at this
      have h4 : (⟨j - c + c, by omega⟩ : Fin (a + (c + 1) + b)) = j := Fin.ext (by simp only; omega)
      simp only [h4] at this
      exact this
  · funext j
    unfold mergedS
    rcases lt_trichotomy (j : ℕ) a with h | h | h
    · rw [mergeAt_lo _ _ h, dif_pos h]
    · rw [mergeAt_mid _ _ h]
      have hj : (⟨a, by omega⟩ : Fin (a + 1 + b)) = j := Fin.ext h.symm
      funext i
      rw [← hj, ← v2 i]
      refine congrArg (rv _) (funext fun l => ?_)
      unfold blockOf
      simp only
      rw [dif_neg (by omega), dif_pos (by omega)]
      refine congrArg (v i) (Fin.ext ?_)
      simp
    · rw [mergeAt_hi _ _ h]
      simp only
      rw [dif_neg (by omega), dif_neg (by omega)]
      exact congrArg S (Fin.ext (by simp))

theorem sum_mergedS {K : Type} [AddCommMonoid K] (ph : Fin (a + (c + 1) + b) → Fin n → ℕ) (F : (Fin (a + 1 + b) → Fin n → ℕ) → K) :
    ∑ S ∈ bondVals (mergedPh ph), F S = ∑ s ∈ bondVals ph, F (mergedS ph s) :=
  (Finset.sum_bij (fun s _ => mergedS ph s) (fun _ hs => mem_mergedS hs) (fun _ hs _ ht h => mergedS_inj hs ht h)
    (fun _ hS => by obtain ⟨s, h1, h2⟩ := mergedS_surj hS; exact ⟨s, h1, h2⟩) fun _ _ => rfl).symm

end

/-! ## Blocks -/

section
variable {y0 h b x0 w b2 : ℕ} {x : FPEPS} {ph : Fin (y0 + (h + 1) + b) → Fin (x0 + (w + 1) + b2) → ℕ}
  {vE : Fin (y0 + (h + 1) + b + 1) → Fin (x0 + (w + 1) + b2) → ℕ} {hE : Fin (y0 + (h + 1) + b) → Fin (x0 + (w + 1) + b2 + 1) → ℕ}
  {g : Fin (y0 + (h + 1) + b) → Fin (x0 + (w + 1) + b2) → ND ℂ}

/-- physical extents after the block has become one site -/
def blockPh (ph : Fin (y0 + (h + 1) + b) → Fin (x0 + (w + 1) + b2) → ℕ) : Fin (y0 + 1 + b) → Fin (x0 + 1 + b2) → ℕ :=
  flip2 (mergedPh (flip2 (mergedPh ph)))

/-- a basis state after the block has become one site -/
def blockS (ph s : Fin (y0 + (h + 1) + b) → Fin (x0 + (w + 1) + b2) → ℕ) : Fin (y0 + 1 + b) → Fin (x0 + 1 + b2) → ℕ :=
  flip2 (mergedS (flip2 (mergedPh ph)) (flip2 (mergedS ph s)))

theorem mem_flip2 {m n : ℕ} {e s : Fin m → Fin n → ℕ} : flip2 s ∈ bondVals (flip2 e) ↔ s ∈ bondVals e := by
  simp only [mem_bondVals]
  exact forall_comm

theorem sum_flip2 {K : Type} [AddCommMonoid K] {m n : ℕ} (e : Fin m → Fin n → ℕ) (F : (Fin n → Fin m → ℕ) → K) :
    ∑ v ∈ bondVals (flip2 e), F v = ∑ v ∈ bondVals e, F (flip2 v) :=
  sum_bondVals e (flip2 e) flip2 flip2 (fun _ => rfl) (fun _ => rfl) (fun _ => mem_flip2.symm) F

theorem sum_blockS {K : Type} [AddCommMonoid K] (ph : Fin (y0 + (h + 1) + b) → Fin (x0 + (w + 1) + b2) → ℕ)
    (F : (Fin (y0 + 1 + b) → Fin (x0 + 1 + b2) → ℕ) → K) : ∑ S ∈ bondVals (blockPh ph), F S = ∑ s ∈ bondVals ph, F (blockS ph s) := by
  unfold blockPh
  rw [sum_flip2, sum_mergedS, sum_flip2, sum_mergedS]
  rfl

/-- the site the block has become -/
abbrev rowAt : Fin (y0 + 1 + b) := ⟨y0, by omega⟩

theorem blockPh_at : blockPh ph (rowAt : Fin (y0 + 1 + b)) (rowAt : Fin (x0 + 1 + b2)) = ∏ i, ∏ j, subGrid ph j i := by
  unfold blockPh flip2 mergedPh
  rw [mergeAt_mid _ _ rfl]
  refine prod_congr rfl fun i _ => ?_
  unfold blockOf
  simp only
  rw [mergeAt_mid _ _ rfl]
  rfl

theorem blockS_at (s : Fin (y0 + (h + 1) + b) → Fin (x0 + (w + 1) + b2) → ℕ) :
    blockS ph s (rowAt : Fin (y0 + 1 + b)) (rowAt : Fin (x0 + 1 + b2)) = colIdx (subGrid ph) (subGrid s) := by
  unfold colIdx
  rw [← rv_grid]
  unfold blockS flip2 mergedS mergedPh
  rw [mergeAt_mid _ _ rfl]
  unfold blockOf
  refine congrArg₂ rv (funext fun i => ?_) (funext fun i => ?_)
  · simp only
    rw [mergeAt_mid _ _ rfl]
    rfl
  · simp only
    rw [mergeAt_mid _ _ rfl]
    rfl

theorem setGrid_in {α : Type} (f : Fin (y0 + (h + 1) + b) → Fin (x0 + (w + 1) + b2) → α) (t : Fin (h + 1) → Fin (w + 1) → α) :
    subGrid (setGrid f t) = t := by
  funext j i
  unfold subGrid setGrid
  simp only
  rw [dif_pos (by omega)]
  congr 1 <;> simp

theorem mergedS_out {a b c n : ℕ} {p s t : Fin (a + (c + 1) + b) → Fin n → ℕ} {j : Fin (a + 1 + b)} {i : Fin n}
    (hj : (j : ℕ) = a → ∀ l, blockOf s l i = blockOf t l i) (ho : ∀ j' : Fin (a + (c + 1) + b), ¬ (a ≤ j' ∧ (j' : ℕ) < a + (c + 1)) → s j' i = t j' i) :
    mergedS p s j i = mergedS p t j i := by
  unfold mergedS
  rcases lt_trichotomy (j : ℕ) a with h | h | h
  · rw [mergeAt_lo _ _ h, mergeAt_lo _ _ h]
    exact ho _ (by simp only; omega)
  · rw [mergeAt_mid _ _ h, mergeAt_mid _ _ h]
    exact congrArg (rv _) (funext fun l => hj h l)
  · rw [mergeAt_hi _ _ h, mergeAt_hi _ _ h]
    exact ho _ (by simp only; omega)

theorem setAt_blockS (s : Fin (y0 + (h + 1) + b) → Fin (x0 + (w + 1) + b2) → ℕ) (t : Fin (h + 1) → Fin (w + 1) → ℕ) :
    setAt (blockS ph s) (rowAt : Fin (y0 + 1 + b)) (rowAt : Fin (x0 + 1 + b2)) (colIdx (subGrid ph) t) = blockS ph (setGrid s t) := by
  funext j i
  by_cases hh : (j, i) = ((rowAt : Fin (y0 + 1 + b)), (rowAt : Fin (x0 + 1 + b2)))
  · simp only [Prod.mk.injEq] at hh
    rw [hh.1, hh.2, setAt_same, blockS_at, setGrid_in]
  · rw [setAt_ne _ _ hh]
    symm
    unfold blockS flip2
    refine mergedS_out ?_ ?_
    · intro hi l
      unfold blockOf
      refine mergedS_out ?_ ?_
      · intro hj
        exact absurd (Prod.ext (Fin.ext hj) (Fin.ext hi)) hh
      · intro j' hj'
        unfold setGrid
        exact dif_neg fun k => hj' k.1
    · intro i' hi'
      refine mergedS_out ?_ ?_
      · intro hj l
        unfold setGrid blockOf
        exact dif_neg fun k => hi' k.2
      · intro j' hj'
        unfold setGrid
        exact dif_neg fun k => hj' k.1

/-- **C86**: `x.contract(((x0, y0), (w + 1, h + 1)))` is the same state: the sites of the block have become one site, their configurations
being numbered column by column. -/
theorem contract_ok (hx : x.Holds (y0 + (h + 1) + b) (x0 + (w + 1) + b2) ph vE hE g) :
    ∃ y vE' hE' g', x.contract x0 y0 (w + 1) (h + 1) = .ok y ∧ y.Holds (y0 + 1 + b) (x0 + 1 + b2) (blockPh ph) vE' hE' g' ∧
      (OpenGrid vE hE → OpenGrid vE' hE') ∧ ∀ s ∈ bondVals ph, pepsAmp vE' hE' g' (blockS ph s) = pepsAmp vE hE g s := by
  obtain ⟨y1, g1, h1, k1, e1⟩ := rowContract_ok hx
  obtain ⟨y2, g2, h2, k2, e2⟩ := colContract_ok k1
  refine ⟨y2, _, _, g2, ?_, k2, ?_, ?_⟩
  · unfold contract
    rw [h1, ok_bind, h2]
  · intro ox
    have o1 := open_merged ox
    have o2 : OpenGrid (flip2 (mergedH hE)) (flip2 (levels vE)) := ⟨o1.left, o1.right, o1.top, o1.bottom⟩
    have o3 := open_merged o2
    exact ⟨o3.left, o3.right, o3.top, o3.bottom⟩
  · intro s hs
    rw [← e1 s hs]
    exact e2 _ (mem_mergedS hs)

theorem expval_grid {m n : ℕ} {ph : Fin m → Fin n → ℕ} {vE : Fin (m + 1) → Fin n → ℕ} {hE : Fin m → Fin (n + 1) → ℕ} {g : Fin m → Fin n → ND ℂ}
    (O : Ncon.SetOrder) (hm : 1 ≤ m) (hn : 2 ≤ n) (hx : x.Holds m n ph vE hE g) (ox : OpenGrid vE hE) (j : Fin m) (i : Fin n)
    {op : ND ℂ} (hop : op.shape = [ph j i, ph j i]) :
    expval O x op i j = .ok (∑ s ∈ bondVals ph, ∑ t ∈ range (ph j i),
      star (pepsAmp vE hE g s) * (op.val [s j i, t] * pepsAmp vE hE g (setAt s j i t))).re := by
  obtain ⟨m, rfl⟩ : ∃ k, m = k + 1 := ⟨m - 1, by omega⟩
  obtain ⟨n, rfl⟩ : ∃ k, n = k + 2 := ⟨n - 2, by omega⟩
  exact expval_eq O hx ox j i hop

theorem setGrid_mem {s : Fin (y0 + (h + 1) + b) → Fin (x0 + (w + 1) + b2) → ℕ} {t : Fin (h + 1) → Fin (w + 1) → ℕ} (hs : s ∈ bondVals ph)
    (ht : t ∈ bondVals (subGrid ph)) : setGrid s t ∈ bondVals ph := by
  rw [mem_bondVals] at hs ht ⊢
  intro j i
  unfold setGrid
  split_ifs with hh
  · have := ht ⟨j - y0, by omega⟩ ⟨i - x0, by omega⟩
    unfold subGrid at this
    have e1 : (⟨y0 + (j - y0), by omega⟩ : Fin (y0 + (h + 1) + b)) = j := Fin.ext (by simp only; omega)
    have e2 : (⟨x0 + (i - x0), by omega⟩ : Fin (x0 + (w + 1) + b2)) = i := Fin.ext (by simp only; omega)
    simp only [e1, e2] at this
    exact this
  · exact hs j i

/-- **C86**: if the block is not as wide as the grid, `x.E_k(op, ((x0, y0), (w + 1, h + 1)))` is the expectation value of `op` on the block,
the indices of `op` numbering the configurations of the block column by column. -/
theorem expK_eq (O : Ncon.SetOrder) (hx : x.Holds (y0 + (h + 1) + b) (x0 + (w + 1) + b2) ph vE hE g) (ox : OpenGrid vE hE) (hw : 1 ≤ x0 + b2)
    {op : ND ℂ} (hop : op.shape = [∏ i, ∏ j, subGrid ph j i, ∏ i, ∏ j, subGrid ph j i]) :
    x.expK O op x0 y0 (w + 1) (h + 1) = .ok (blockExp ph colIdx (pepsAmp vE hE g) op).re := by
  obtain ⟨y, vE', hE', g', h1, h2, h3, h4⟩ := contract_ok hx
  have h5 := expval_grid O (by omega) (by omega) h2 (h3 ox) rowAt rowAt (op := op) (by rw [blockPh_at]; exact hop)
  unfold expK
  rw [h1, ok_bind]
  refine h5.trans (congrArg (fun z : ℂ => Except.ok z.re) ?_)
  rw [sum_blockS]
  unfold blockExp
  refine sum_congr rfl fun s hs => ?_
  rw [blockPh_at, sum_rv, sum_merged (fun (i : Fin (w + 1)) (j : Fin (h + 1)) => subGrid ph j i)]
  refine (sum_flip2 (subGrid ph) _).trans (sum_congr rfl fun t ht => ?_)
  have h6 : rv (fun i => ∏ j, subGrid ph j i) (fun i => rv (fun j => subGrid ph j i) (flip2 t i)) = colIdx (subGrid ph) t := rv_grid _ _
  rw [h6, blockS_at, setAt_blockS, h4 s hs, h4 _ (setGrid_mem hs ht)]


theorem flatten_singles {α : Type} : ∀ {n : ℕ} (f : Fin n → α), (List.ofFn fun i => [f i]).flatten = List.ofFn f
  | 0, f => by simp
  | n + 1, f => by
    rw [List.ofFn_succ, List.flatten_cons, flatten_singles fun i => f i.succ, List.ofFn_succ (f := f)]
    rfl

theorem colIdx_line {e t : Fin (h + 1) → Fin (w + 1) → ℕ} (hl : w = 0 ∨ h = 0) : colIdx e t = readIdx e t := by
  have hg : ∀ f : Fin (h + 1) → Fin (w + 1) → ℕ, (List.ofFn fun i => List.ofFn fun j => f j i).flatten = (List.ofFn fun j => List.ofFn (f j)).flatten := by
    intro f
    rcases hl with rfl | rfl
    · have : (fun j : Fin (h + 1) => List.ofFn (f j)) = fun j => [f j 0] := funext fun j => by simp
      rw [this, flatten_singles]
      simp
    · have : (fun i : Fin (w + 1) => List.ofFn fun j : Fin 1 => f j i) = fun i => [f 0 i] := funext fun i => by simp
      rw [this, flatten_singles]
      simp
  unfold colIdx readIdx
  rw [hg, hg]

/-- **C86**: on a single row or column of sites `E_k` is the expectation value of an operator specified in reading order, as documented. Missing:
blocks with several rows and several columns (`expK_eq` and `expK_not_reading` say what happens there). -/
theorem expK_reading_partial (O : Ncon.SetOrder) (hx : x.Holds (y0 + (h + 1) + b) (x0 + (w + 1) + b2) ph vE hE g) (ox : OpenGrid vE hE) (hw : 1 ≤ x0 + b2)
    (hl : w = 0 ∨ h = 0) {op : ND ℂ} (hop : op.shape = [∏ j, ∏ i, subGrid ph j i, ∏ j, ∏ i, subGrid ph j i]) :
    x.expK O op x0 y0 (w + 1) (h + 1) = .ok (blockExp ph readIdx (pepsAmp vE hE g) op).re := by
  rw [expK_eq O hx ox hw (by rw [prod_comm]; exact hop)]
  unfold blockExp
  simp only [colIdx_line hl]

/-- **C86** fails for a block as wide as the grid: `E_k` raises `ValueError`. -/
theorem expK_full_width {ph : Fin (y0 + (h + 1) + b) → Fin (0 + (w + 1) + 0) → ℕ}
    {vE : Fin (y0 + (h + 1) + b + 1) → Fin (0 + (w + 1) + 0) → ℕ} {hE : Fin (y0 + (h + 1) + b) → Fin (0 + (w + 1) + 0 + 1) → ℕ}
    {g : Fin (y0 + (h + 1) + b) → Fin (0 + (w + 1) + 0) → ND ℂ}
    (O : Ncon.SetOrder) (hx : x.Holds (y0 + (h + 1) + b) (0 + (w + 1) + 0) ph vE hE g)
    {op : ND ℂ} (hop : op.shape = [∏ i, ∏ j, subGrid ph j i, ∏ i, ∏ j, subGrid ph j i]) :
    x.expK O op 0 y0 (w + 1) (h + 1) = .error .valueError := by
  obtain ⟨y, vE', hE', g', h1, h2, _, _⟩ := contract_ok hx
  unfold expK
  rw [h1, ok_bind]
  obtain ⟨z, g2, h3, h4, _⟩ := apply_eq h2 rowAt rowAt (op := op) (by rw [blockPh_at]; exact hop)
  unfold expval
  rw [show y.apply op 0 y0 = .ok z from h3, ok_bind]
  have key : ∀ {m n : ℕ} {ph : Fin m → Fin n → ℕ} {vE vE' : Fin (m + 1) → Fin n → ℕ} {hE hE' : Fin m → Fin (n + 1) → ℕ} {g g' : Fin m → Fin n → ND ℂ},
      0 < m → n = 1 → z.Holds m n ph vE hE g → y.Holds m n ph vE' hE' g' → overlap O z y = .error .valueError := by
    intro m n ph vE vE' hE hE' g g' hm hn k1 k2
    obtain ⟨m, rfl⟩ : ∃ k, m = k + 1 := ⟨m - 1, by omega⟩
    subst hn
    exact overlap_single_column O k1 k2
  rw [key (by omega) (by omega) h4 h2]
  rfl

end

/-! ## Basis states -/

/-- the basis state `s0` with bonds of extent 1 -/
noncomputable def basisGrid {m n : ℕ} (ph s0 : Fin m → Fin n → ℕ) (j : Fin m) (i : Fin n) : ND ℂ :=
  ⟨[ph j i, 1, 1, 1, 1], fun idx => if idx.headD 0 = s0 j i then 1 else 0⟩

theorem basisGrid_holds {m n : ℕ} (hm : 0 < m) (hn : 0 < n) (ph s0 : Fin m → Fin n → ℕ) {Lx Ly d X oc} :
    (⟨gridList (basisGrid ph s0), Lx, Ly, d, X, oc⟩ : FPEPS).Holds m n ph (fun _ _ => 1) (fun _ _ => 1) (basisGrid ph s0) :=
  ⟨fun _ _ => rfl, rfl, hm, hn⟩

theorem basisGrid_open {m n : ℕ} : OpenGrid (m := m) (n := n) (fun _ _ => 1) (fun _ _ => 1) := ⟨fun _ => rfl, fun _ => rfl, fun _ => rfl, fun _ => rfl⟩

theorem basisGrid_amp {m n : ℕ} (ph s0 s : Fin m → Fin n → ℕ) :
    pepsAmp (fun _ _ => 1) (fun _ _ => 1) (basisGrid ph s0) s = if s = s0 then 1 else 0 := by
  have h1 : ∀ p q : ℕ, bondVals (fun (_ : Fin p) (_ : Fin q) => 1) = {fun _ _ => 0} := by
    intro p q
    ext v
    simp only [mem_bondVals, Nat.lt_one_iff, mem_singleton]
    exact ⟨fun hh => funext fun j => funext fun i => hh j i, fun hh j i => by rw [hh]⟩
  unfold pepsAmp
  rw [h1, h1, sum_singleton, sum_singleton]
  show (∏ j, ∏ i, if s j i = s0 j i then (1 : ℂ) else 0) = _
  simp only [Finset.prod_ite_zero, prod_const_one, mem_univ, true_imp_iff]
  exact if_congr ⟨fun hh => funext fun j => funext fun i => hh j i, fun hh j i => by rw [hh]⟩ rfl rfl

section
variable {y0 h b x0 w b2 : ℕ} {ph s0 : Fin (y0 + (h + 1) + b) → Fin (x0 + (w + 1) + b2) → ℕ}

theorem setGrid_self {α : Type} (f : Fin (y0 + (h + 1) + b) → Fin (x0 + (w + 1) + b2) → α) : setGrid f (subGrid f) = f := by
  funext j i
  unfold setGrid subGrid
  split_ifs with hh
  · congr 1 <;> exact Fin.ext (by simp only; omega)
  · rfl

theorem blockExp_basis (num) (op : ND ℂ) (hs : s0 ∈ bondVals ph) :
    blockExp ph num (pepsAmp (fun _ _ => 1) (fun _ _ => 1) (basisGrid ph s0)) op =
      op.val [num (subGrid ph) (subGrid s0), num (subGrid ph) (subGrid s0)] := by
  unfold blockExp
  simp only [basisGrid_amp]
  rw [sum_eq_single_of_mem s0 hs, sum_eq_single_of_mem (subGrid s0)]
  · rw [setGrid_self]
    simp
  · rw [mem_bondVals] at hs ⊢
    exact fun j i => hs _ _
  · intro t _ ht
    rw [if_neg (c := setGrid s0 t = s0) fun hh => ht (by rw [← setGrid_in s0 t, hh])]
    simp
  · intro s _ hs'
    exact sum_eq_zero fun t _ => by rw [if_neg hs']; simp

end

/-! ## The order of the sites -/

/-- two rows and three columns of spins; only the second one in the first row is in state 1 -/
def exBlk : Fin (0 + (1 + 1) + 0) → Fin (0 + (1 + 1) + 1) → ℕ := fun j i => if (j : ℕ) = 0 ∧ (i : ℕ) = 1 then 1 else 0

/-- the projector on state 1 of the second of four spins: `I ⊗ P ⊗ I ⊗ I` -/
noncomputable def exBlkOp : ND ℂ := ⟨[16, 16], fun
  | [r, c] => if r = c ∧ r / 4 % 2 = 1 then 1 else 0
  | _ => 0⟩

noncomputable def exBlkState : FPEPS := ⟨gridList (basisGrid (fun _ _ => 2) exBlk), 2, 3, 2, 1, none⟩

theorem exBlk_holds : exBlkState.Holds (0 + (1 + 1) + 0) (0 + (1 + 1) + 1) (fun _ _ => 2) (fun _ _ => 1) (fun _ _ => 1) (basisGrid (fun _ _ => 2) exBlk) :=
  basisGrid_holds (by omega) (by omega) _ _

theorem exBlk_mem : exBlk ∈ bondVals (fun (_ : Fin (0 + (1 + 1) + 0)) (_ : Fin (0 + (1 + 1) + 1)) => 2) := by
  rw [mem_bondVals]
  intro j i
  unfold exBlk
  split_ifs <;> omega

/-- **C86** fails for a block of two by two sites: the operator `I ⊗ P ⊗ I ⊗ I` in reading order measures the second site of the first row, which is in
state 1 with certainty; `E_k` gives 0, for it takes the second factor to be the first site of the second row. -/
theorem expK_not_reading (O : Ncon.SetOrder) :
    blockExp (y0 := 0) (h := 1) (b := 0) (x0 := 0) (w := 1) (b2 := 1) (fun _ _ => 2) readIdx
        (pepsAmp (fun _ _ => 1) (fun _ _ => 1) (basisGrid (fun _ _ => 2) exBlk)) exBlkOp = 1 ∧
      exBlkState.expK O exBlkOp 0 0 2 2 = .ok 0 := by
  constructor
  · rw [blockExp_basis _ _ exBlk_mem]
    simp [readIdx, subGrid, exBlk, exBlkOp, ravel]
  · have h := expK_eq (y0 := 0) (h := 1) (b := 0) (x0 := 0) (w := 1) (b2 := 1) O exBlk_holds basisGrid_open (by omega) (op := exBlkOp)
      (by simp [exBlkOp, subGrid])
    rw [blockExp_basis _ _ exBlk_mem] at h
    refine h.trans (congrArg Except.ok ?_)
    simp [colIdx, readIdx, subGrid, exBlk, exBlkOp, ravel]

/-! ## Examples -/

example := rowContract_ok (a := 0) (c := 1) (b := 0) exOnes_holds
example := colContract_ok (a := 0) (c := 1) (b := 0) exOnes_holds
example := contract_ok (y0 := 0) (h := 1) (b := 0) (x0 := 0) (w := 1) (b2 := 0) exOnes_holds
example (O : Ncon.SetOrder) := expK_eq (y0 := 0) (h := 1) (b := 0) (x0 := 1) (w := 0) (b2 := 0) O exOnes_holds exOnes_open (by omega)
  (op := onesND [4, 4]) (by simp [subGrid, onesND])
example (O : Ncon.SetOrder) := expK_reading_partial (y0 := 0) (h := 1) (b := 0) (x0 := 1) (w := 0) (b2 := 0) O exOnes_holds exOnes_open (by omega) (.inl rfl)
  (op := onesND [4, 4]) (by simp [subGrid, onesND])
example (O : Ncon.SetOrder) := expK_full_width (y0 := 0) (h := 0) (b := 1) (w := 1) O exOnes_holds
  (op := onesND [4, 4]) (by simp [subGrid, onesND])

end Xmps.FPEPS
