import Verif.Props.PepsBlock

/-!
# `rho` and `rho_proj` of a PEPS with bond dimension 1
-/

namespace Xmps.Spec

open Finset

/-- The entry `a, b` of the partial trace of `|ψ⟩⟨φ|` over all sites but the one in row `j` and column `i`. -/
noncomputable def siteRed {m n : ℕ} (ph : Fin m → Fin n → ℕ) (ψ φ : (Fin m → Fin n → ℕ) → ℂ) (j : Fin m) (i : Fin n) (a b : ℕ) : ℂ :=
  ∑ s ∈ bondVals ph, if s j i = a then ψ s * star (φ (Function.update s j (Function.update (s j) i b))) else 0

end Xmps.Spec

namespace Xmps.FPEPS

open Finset Spec

variable {m n d : ℕ} {x y : FPEPS} {g g' : Fin m → Fin n → ND ℂ}

theorem maxShape_ones {l : List (ND ℂ)} (h : l ≠ []) (hs : ∀ A ∈ l, A.shape.tail = [1, 1, 1, 1]) : maxShape l = .ok 1 := by
  have h1 : (l.mapM fun x => (if x.shape.tail = [] then .error .valueError else .ok (x.shape.tail.foldl max 0) : Py ℕ)) =
      .ok (List.replicate l.length 1) := by
    clear h
    induction l with
    | nil => rfl
    | cons A l ih =>
      rw [List.mapM_cons, ih fun B hB => hs B (by simp [hB]), hs A (by simp)]
      rfl
  unfold maxShape
  rw [h1, ok_bind]
  cases l with
  | nil => exact absurd rfl h
  | cons A l =>
    rw [if_neg (by simp)]
    congr 1
    have : ∀ k, (List.replicate k 1).foldl max 1 = 1 := by
      intro k
      induction k with
      | zero => rfl
      | succ k ih => rw [List.replicate_succ, List.foldl_cons]; exact ih
    rw [List.length_cons, List.replicate_succ, List.foldl_cons]
    exact this _

theorem maxShape_product (hx : x.Holds m n (fun _ _ => d) (fun _ _ => 1) (fun _ _ => 1) g) : maxShape x.data.flatten = .ok 1 := by
  have hm := hx.rows
  have hn := hx.cols
  refine maxShape_ones ?_ ?_
  · rw [hx.data]
    obtain ⟨m, rfl⟩ : ∃ k, m = k + 1 := ⟨m - 1, by omega⟩
    obtain ⟨n, rfl⟩ : ∃ k, n = k + 1 := ⟨n - 1, by omega⟩
    simp [gridList, List.ofFn_succ]
  · intro A hA
    rw [hx.data] at hA
    simp only [gridList, List.mem_flatten, List.mem_ofFn] at hA
    obtain ⟨l, ⟨j, rfl⟩, hA⟩ := hA
    obtain ⟨i, rfl⟩ := (List.mem_ofFn).1 hA
    rw [hx.grid j i]
    rfl

theorem squeeze_size {A : ND ℂ} (h : A.shape = [d, 1, 1, 1, 1]) : A.squeeze.size = d := (squeeze_vec h).1

theorem squeeze_entry {A : ND ℂ} (h : A.shape = [d, 1, 1, 1, 1]) {a : ℕ} (ha : a < d) :
    A.squeeze.val (unravel A.squeeze.shape (if A.squeeze.size = 1 then 0 else a)) = A.val [a, 0, 0, 0, 0] := by
  rw [squeeze_size h]
  obtain ⟨h1, W, h2, _, h4, h5⟩ := squeeze_vec h
  by_cases hd : d = 1
  · rw [if_pos hd]
    subst hd
    have : a = 0 := by omega
    subst this
    have hs : A.squeeze.shape = [] := by simp [ND.squeeze, h]
    rw [hs, ← h4 0 ha]
    rw [ND.reshape_ok_any (by simp [ND.size])] at h2
    cases h2
    refine (ND.reshapeR_val_any (sh := [A.squeeze.size]) (idx' := [0]) ?_ ?_).symm
    · rw [hs]
      trivial
    · rw [hs, h1]
      rfl
  · rw [if_neg hd]
    obtain ⟨h6, h7⟩ := h5 hd
    rw [h6, ← h7 a]
    refine congrArg _ ?_
    have := unravel_ravel (s := [d]) (is := [a]) (by simpa [InB] using ha)
    simpa [ravel] using this

theorem outerTo_ok {A B : ND ℂ} (hA : A.shape = [d, 1, 1, 1, 1]) (hB : B.shape = [d, 1, 1, 1, 1]) :
    ∃ R, outerTo d A.squeeze B.squeeze.conj = .ok R ∧ ∀ a b, a < d → b < d → R.val [a, b] = A.val [a, 0, 0, 0, 0] * star (B.val [b, 0, 0, 0, 0]) := by
  have hs : B.squeeze.conj.size = d := squeeze_size hB
  unfold outerTo
  rw [if_pos ⟨.inl (squeeze_size hA), .inl hs⟩]
  refine ⟨_, rfl, fun a b ha hb => ?_⟩
  have h2 : B.squeeze.conj.val (unravel B.squeeze.conj.shape (if B.squeeze.conj.size = 1 then 0 else b)) = star (B.val [b, 0, 0, 0, 0]) :=
    congrArg star (squeeze_entry hB hb)
  simp only
  rw [squeeze_entry hA ha, h2]

theorem pyGet_grid (h : x.data = gridList g) (j : Fin m) : pyGet x.data j = .ok (List.ofFn (g j)) := by
  rw [h]
  simp [gridList, pyGet]

/-- **C88**: the entries of `x.rho_proj(y, ((x0, y0), (width, height)))` for bond dimension 1 -/
theorem rhoProj_ok (hx : x.Holds m n (fun _ _ => d) (fun _ _ => 1) (fun _ _ => 1) g) (hy : y.Holds m n (fun _ _ => d) (fun _ _ => 1) (fun _ _ => 1) g')
    (hd : x.d = d) {x0 y0 w h : ℕ} (hw : x0 + w ≤ n) (hh : y0 + h ≤ m) :
    ∃ R, x.rhoProj y x0 y0 w h = .ok R ∧ R.shape = [w, h, d, d] ∧ ∀ (i : Fin w) (j : Fin h) (a b : ℕ), a < d → b < d →
      R.val [i, j, a, b] = (g ⟨y0 + j, by omega⟩ ⟨x0 + i, by omega⟩).val [a, 0, 0, 0, 0] *
        star ((g' ⟨y0 + j, by omega⟩ ⟨x0 + i, by omega⟩).val [b, 0, 0, 0, 0]) := by
  have key : ∀ i j : ℕ, ∃ R : ND ℂ, ∀ (hi : i < w) (hj : j < h), (do
      let row ← pyGet x.data (y0 + j)
      let A ← pyGet row (x0 + i)
      let row' ← pyGet y.data (y0 + j)
      let B ← pyGet row' (x0 + i)
      outerTo x.d A.squeeze B.squeeze.conj : Py (ND ℂ)) = .ok R ∧ ∀ a b, a < d → b < d → R.val [a, b] =
        (g ⟨y0 + j, by omega⟩ ⟨x0 + i, by omega⟩).val [a, 0, 0, 0, 0] * star ((g' ⟨y0 + j, by omega⟩ ⟨x0 + i, by omega⟩).val [b, 0, 0, 0, 0]) := by
    intro i j
    by_cases hij : i < w ∧ j < h
    · obtain ⟨R, h1, h2⟩ := outerTo_ok (hx.grid ⟨y0 + j, by omega⟩ ⟨x0 + i, by omega⟩) (hy.grid ⟨y0 + j, by omega⟩ ⟨x0 + i, by omega⟩)
      refine ⟨R, fun hi hj => ⟨?_, h2⟩⟩
      have e1 := pyGet_grid hx.data ⟨y0 + j, by omega⟩
      have e2 := pyGet_grid hy.data ⟨y0 + j, by omega⟩
      simp only at e1 e2
      rw [e1, e2, hd]
      simp only [ok_bind]
      rw [pyGet_ok (by simp; omega), pyGet_ok (by simp; omega)]
      simp only [ok_bind, List.getElem_ofFn]
      exact h1
    · exact ⟨zerosND [], fun hi hj => absurd ⟨hi, hj⟩ hij⟩
  choose F hF using key
  have h2 : ∀ i < w, (List.range' 0 h).mapM (fun j => (do
      let row ← pyGet x.data (y0 + j)
      let A ← pyGet row (x0 + i)
      let row' ← pyGet y.data (y0 + j)
      let B ← pyGet row' (x0 + i)
      outerTo x.d A.squeeze B.squeeze.conj : Py (ND ℂ))) = .ok ((List.range' 0 h).map (F i)) := fun i hi =>
    mapM_range_ok h 0 fun j _ hj => (hF i j hi (by omega)).1
  unfold rhoProj
  rw [maxShape_product hx, ok_bind]
  simp only [decide_true, guardPy_true, ok_bind]
  rw [mapM_range_ok w 0 fun i _ hi => h2 i (by omega), ok_bind]
  refine ⟨_, rfl, by rw [hd], fun i j a b ha hb => ?_⟩
  have e : (((List.range' 0 w).map fun i => (List.range' 0 h).map (F i)).getD i []).getD j (zerosND []) = F i j := by
    simp [List.getD_eq_getElem?_getD, List.getElem?_range', i.2, j.2]
  simp only [e]
  exact (hF i j i.2 j.2).2 a b ha hb

/-- `rho` is `rho_proj` with the state itself. -/
theorem rho_eq_rhoProj (x : FPEPS) (x0 y0 w h : ℕ) : x.rho x0 y0 w h = x.rhoProj x x0 y0 w h := by
  have e : ∀ i j, (do
      let row ← pyGet x.data (y0 + j)
      let A ← pyGet row (x0 + i)
      outerTo x.d A.squeeze A.squeeze.conj : Py (ND ℂ)) = (do
      let row ← pyGet x.data (y0 + j)
      let A ← pyGet row (x0 + i)
      let row' ← pyGet x.data (y0 + j)
      let B ← pyGet row' (x0 + i)
      outerTo x.d A.squeeze B.squeeze.conj : Py (ND ℂ)) := by
    intro i j
    cases h1 : pyGet x.data (y0 + j) with
    | error e => rfl
    | ok row =>
      simp only [ok_bind]
      cases h2 : pyGet row (x0 + i) with
      | error e => rfl
      | ok A => rfl
  unfold rho rhoProj
  simp only [e]

/-! ## Partial traces of product states -/

theorem amp_sites (ph : Fin m → Fin n → ℕ) (g : Fin m → Fin n → ND ℂ) (s : Fin m → Fin n → ℕ) :
    pepsAmp (fun _ _ => 1) (fun _ _ => 1) g s = ∏ j, ∏ i, (g j i).val [s j i, 0, 0, 0, 0] := by
  have h1 : ∀ p q : ℕ, bondVals (fun (_ : Fin p) (_ : Fin q) => 1) = {fun _ _ => 0} := by
    intro p q
    ext v
    simp only [mem_bondVals, Nat.lt_one_iff, mem_singleton]
    exact ⟨fun hh => funext fun j => funext fun i => hh j i, fun hh j i => by rw [hh]⟩
  unfold pepsAmp
  rw [h1, h1, sum_singleton, sum_singleton]

theorem sum_sites (ph : Fin m → Fin n → ℕ) (F : Fin m → Fin n → ℕ → ℂ) :
    ∑ s ∈ bondVals ph, ∏ j, ∏ i, F j i (s j i) = ∏ j, ∏ i, ∑ k ∈ range (ph j i), F j i k := by
  simp only [Finset.prod_univ_sum]
  rfl

/-- **C88**: the partial trace of `|x⟩⟨y|` for product states: the outer product of the two tensors times the overlaps of all other sites. -/
theorem siteRed_product (ph : Fin m → Fin n → ℕ) (g g' : Fin m → Fin n → ND ℂ) (j : Fin m) (i : Fin n) {a : ℕ} (ha : a < ph j i) (b : ℕ) :
    siteRed ph (pepsAmp (fun _ _ => 1) (fun _ _ => 1) g) (pepsAmp (fun _ _ => 1) (fun _ _ => 1) g') j i a b =
      (g j i).val [a, 0, 0, 0, 0] * star ((g' j i).val [b, 0, 0, 0, 0]) *
        ∏ p ∈ univ.erase (j, i), ∑ k ∈ range (ph p.1 p.2), (g p.1 p.2).val [k, 0, 0, 0, 0] * star ((g' p.1 p.2).val [k, 0, 0, 0, 0]) := by
  let F : Fin m → Fin n → ℕ → ℂ := fun j' i' k => if (j', i') = (j, i) then (if k = a then (g j i).val [a, 0, 0, 0, 0] * star ((g' j i).val [b, 0, 0, 0, 0]) else 0)
    else (g j' i').val [k, 0, 0, 0, 0] * star ((g' j' i').val [k, 0, 0, 0, 0])
  have h1 : siteRed ph (pepsAmp (fun _ _ => 1) (fun _ _ => 1) g) (pepsAmp (fun _ _ => 1) (fun _ _ => 1) g') j i a b =
      ∑ s ∈ bondVals ph, ∏ j, ∏ i, F j i (s j i) := by
    unfold siteRed
    refine sum_congr rfl fun s _ => ?_
    rw [amp_sites ph, amp_sites ph, star_prod]
    simp only [star_prod]
    rw [← prod_mul_distrib]
    simp only [← prod_mul_distrib]
    split_ifs with hs
    · refine prod_congr rfl fun j' _ => prod_congr rfl fun i' _ => ?_
      by_cases hp : (j', i') = (j, i)
      · simp only [Prod.mk.injEq] at hp
        obtain ⟨rfl, rfl⟩ := hp
        simp only [F, if_pos, hs]
        simp
      · have := setAt_ne s b hp
        unfold setAt at this
        simp only [F, if_neg hp, this]
    · symm
      refine prod_eq_zero (mem_univ j) (prod_eq_zero (mem_univ i) ?_)
      simp only [F, if_pos, if_neg hs]
  rw [h1, sum_sites, ← Finset.prod_product' univ univ fun j i => ∑ k ∈ range (ph j i), F j i k, univ_product_univ,
    ← Finset.mul_prod_erase univ _ (mem_univ (j, i))]
  refine congrArg₂ (· * ·) ?_ (prod_congr rfl fun p hp => sum_congr rfl fun k _ => ?_)
  · simp only [F, if_pos]
    rw [sum_eq_single_of_mem a (mem_range.2 ha) fun k _ hk => if_neg hk, if_pos rfl]
  · rw [mem_erase] at hp
    exact if_neg hp.1

/-- **C88**: for a product state of normalised tensors `rho` gives the reduced density matrices of the sites. -/
theorem rho_eq (hx : x.Holds m n (fun _ _ => d) (fun _ _ => 1) (fun _ _ => 1) g) (hd : x.d = d)
    (hn : ∀ j i, ∑ k ∈ range d, (g j i).val [k, 0, 0, 0, 0] * star ((g j i).val [k, 0, 0, 0, 0]) = 1) {x0 y0 w h : ℕ} (hw : x0 + w ≤ n) (hh : y0 + h ≤ m) :
    ∃ R, x.rho x0 y0 w h = .ok R ∧ R.shape = [w, h, d, d] ∧ ∀ (i : Fin w) (j : Fin h) (a b : ℕ), a < d → b < d →
      R.val [i, j, a, b] = siteRed (fun _ _ => d) (pepsAmp (fun _ _ => 1) (fun _ _ => 1) g) (pepsAmp (fun _ _ => 1) (fun _ _ => 1) g)
        ⟨y0 + j, by omega⟩ ⟨x0 + i, by omega⟩ a b := by
  obtain ⟨R, h1, h2, h3⟩ := rhoProj_ok hx hx hd hw hh
  refine ⟨R, by rw [rho_eq_rhoProj, h1], h2, fun i j a b ha hb => ?_⟩
  rw [h3 i j a b ha hb, siteRed_product (fun _ _ => d) g g _ _ ha b, prod_congr rfl fun p _ => hn p.1 p.2, prod_const_one, mul_one]

theorem sum_swap {ph : Fin m → Fin n → ℕ} (j : Fin m) (i : Fin n) {a b : ℕ} (ha : a < ph j i) (hb : b < ph j i)
    (F : (Fin m → Fin n → ℕ) → (Fin m → Fin n → ℕ) → ℂ) :
    ∑ s ∈ bondVals ph, (if s j i = a then F s (setAt s j i b) else 0) = ∑ s ∈ bondVals ph, if s j i = b then F (setAt s j i a) s else 0 := by
  have hm : ∀ {s : Fin m → Fin n → ℕ} {c : ℕ}, s ∈ bondVals ph → c < ph j i → setAt s j i c ∈ bondVals ph := by
    intro s c hs hc
    rw [mem_bondVals] at hs ⊢
    intro j' i'
    by_cases hp : (j', i') = (j, i)
    · simp only [Prod.mk.injEq] at hp
      rw [hp.1, hp.2, setAt_same]
      exact hc
    · rw [setAt_ne s c hp]
      exact hs j' i'
  have hb2 : ∀ {s : Fin m → Fin n → ℕ} {c e : ℕ}, s j i = e → setAt (setAt s j i c) j i e = s := by
    intro s c e hs
    funext j' i'
    by_cases hp : (j', i') = (j, i)
    · simp only [Prod.mk.injEq] at hp
      rw [hp.1, hp.2, setAt_same, hs]
    · rw [setAt_ne _ e hp, setAt_ne s c hp]
  rw [← sum_filter, ← sum_filter]
  refine Finset.sum_nbij' (setAt · j i b) (setAt · j i a) ?_ ?_ ?_ ?_ ?_
  · intro s hs
    rw [mem_filter] at hs ⊢
    exact ⟨hm hs.1 hb, setAt_same ..⟩
  · intro s hs
    rw [mem_filter] at hs ⊢
    exact ⟨hm hs.1 ha, setAt_same ..⟩
  · intro s hs
    exact hb2 (mem_filter.1 hs).2
  · intro s hs
    exact hb2 (mem_filter.1 hs).2
  · intro s hs
    rw [hb2 (mem_filter.1 hs).2]

/-- `E` is the trace of the operator with the reduced density matrix of the site. -/
theorem expval_red {ph : Fin m → Fin n → ℕ} {vE : Fin (m + 1) → Fin n → ℕ} {hE : Fin m → Fin (n + 1) → ℕ} (O : Ncon.SetOrder) (hn : 2 ≤ n)
    (hx : x.Holds m n ph vE hE g) (ox : OpenGrid vE hE) (j : Fin m) (i : Fin n) {op : ND ℂ} (hop : op.shape = [ph j i, ph j i]) :
    expval O x op i j = .ok (∑ a ∈ range (ph j i), ∑ b ∈ range (ph j i), op.val [a, b] * siteRed ph (pepsAmp vE hE g) (pepsAmp vE hE g) j i b a).re := by
  rw [expval_grid O hx.rows hn hx ox j i hop]
  refine congrArg (fun z : ℂ => Except.ok z.re) ?_
  have h1 : ∀ s ∈ bondVals ph, ∑ t ∈ range (ph j i), star (pepsAmp vE hE g s) * (op.val [s j i, t] * pepsAmp vE hE g (setAt s j i t)) =
      ∑ a ∈ range (ph j i), ∑ b ∈ range (ph j i), if s j i = a then star (pepsAmp vE hE g s) * (op.val [a, b] * pepsAmp vE hE g (setAt s j i b)) else 0 := by
    intro s hs
    rw [mem_bondVals] at hs
    rw [sum_eq_single_of_mem (s j i) (mem_range.2 (hs j i)) fun a _ ha => sum_eq_zero fun b _ => if_neg (Ne.symm ha)]
    exact sum_congr rfl fun b _ => (if_pos rfl).symm
  rw [sum_congr rfl h1, sum_comm]
  refine sum_congr rfl fun a ha => ?_
  rw [sum_comm]
  refine sum_congr rfl fun b hb => ?_
  rw [sum_swap j i (mem_range.1 ha) (mem_range.1 hb) fun s t => star (pepsAmp vE hE g s) * (op.val [a, b] * pepsAmp vE hE g t)]
  unfold siteRed
  rw [mul_sum]
  refine sum_congr rfl fun s _ => ?_
  rw [mul_ite, mul_zero]
  refine if_congr Iff.rfl ?_ rfl
  unfold setAt
  ring

/-- **C88**: for a product state of normalised tensors `E(op, site)` is the trace of `op` with the matrix `rho` gives for the site. -/
theorem rho_expval (O : Ncon.SetOrder) (hn2 : 2 ≤ n) (hx : x.Holds m n (fun _ _ => d) (fun _ _ => 1) (fun _ _ => 1) g) (hd : x.d = d)
    (hn : ∀ j i, ∑ k ∈ range d, (g j i).val [k, 0, 0, 0, 0] * star ((g j i).val [k, 0, 0, 0, 0]) = 1) {x0 y0 w h : ℕ} (hw : x0 + w ≤ n) (hh : y0 + h ≤ m)
    {op : ND ℂ} (hop : op.shape = [d, d]) :
    ∃ R, x.rho x0 y0 w h = .ok R ∧ ∀ (i : Fin w) (j : Fin h),
      expval O x op (x0 + i) (y0 + j) = .ok (∑ a ∈ range d, ∑ b ∈ range d, op.val [a, b] * R.val [i, j, b, a]).re := by
  obtain ⟨R, h1, _, h3⟩ := rho_eq hx hd hn hw hh
  refine ⟨R, h1, fun i j => ?_⟩
  rw [expval_red O hn2 hx ⟨fun _ => rfl, fun _ => rfl, fun _ => rfl, fun _ => rfl⟩ ⟨y0 + j, by omega⟩ ⟨x0 + i, by omega⟩ hop]
  refine congrArg (fun z : ℂ => Except.ok z.re) (sum_congr rfl fun a ha => sum_congr rfl fun b hb => ?_)
  rw [h3 i j b a (mem_range.1 hb) (mem_range.1 ha)]

/-! ## `rho_proj` leaves out the other sites -/

/-- two sites in a row, in the states `e` and `f` -/
def exTwo (f : ℕ) : Fin 1 → Fin 2 → ℕ := fun _ i => if i = 1 then f else 0

noncomputable def exTwoState (f : ℕ) : FPEPS := ⟨gridList (basisGrid (fun _ _ => 2) (exTwo f)), 1, 2, 2, 1, none⟩

theorem exTwo_holds (f : ℕ) : (exTwoState f).Holds 1 2 (fun _ _ => 2) (fun _ _ => 1) (fun _ _ => 1) (basisGrid (fun _ _ => 2) (exTwo f)) :=
  basisGrid_holds (by omega) (by omega) _ _

/-- **C88** fails for `rho_proj`: the partial trace of `|00⟩⟨01|` over the second site vanishes, `rho_proj` gives `|0⟩⟨0|`. -/
theorem rhoProj_wrong : ∃ R, (exTwoState 0).rhoProj (exTwoState 1) 0 0 1 1 = .ok R ∧ R.val [0, 0, 0, 0] = 1 ∧
    siteRed (fun _ _ => 2) (pepsAmp (fun _ _ => 1) (fun _ _ => 1) (basisGrid (fun _ _ => 2) (exTwo 0)))
      (pepsAmp (fun _ _ => 1) (fun _ _ => 1) (basisGrid (fun _ _ => 2) (exTwo 1))) 0 0 0 0 = 0 := by
  obtain ⟨R, h1, _, h3⟩ := rhoProj_ok (exTwo_holds 0) (exTwo_holds 1) rfl (x0 := 0) (y0 := 0) (w := 1) (h := 1) (by omega) (by omega)
  refine ⟨R, h1, ?_, ?_⟩
  · have := h3 0 0 0 0 (by omega) (by omega)
    simpa [basisGrid, exTwo] using this
  · rw [siteRed_product (fun _ _ => 2) _ _ _ _ (by omega) 0]
    refine mul_eq_zero_of_right _ (prod_eq_zero (i := (0, 1)) (by simp) ?_)
    simp [basisGrid, exTwo, sum_range_succ]

/-! ## Examples -/

theorem exTwo_norm (f : ℕ) (hf : f < 2) (j i) : ∑ k ∈ range 2, (basisGrid (fun _ _ => 2) (exTwo f) j i).val [k, 0, 0, 0, 0] *
    star ((basisGrid (fun _ _ => 2) (exTwo f) j i).val [k, 0, 0, 0, 0]) = 1 := by
  have : exTwo f j i < 2 := by
    unfold exTwo
    split_ifs <;> omega
  simp only [basisGrid, List.headD_cons]
  rw [sum_eq_single_of_mem _ (mem_range.2 this)]
  · simp
  · intro k _ hk
    simp [hk]

example := rhoProj_ok (exTwo_holds 0) (exTwo_holds 1) rfl (x0 := 0) (y0 := 0) (w := 2) (h := 1) (by omega) (by omega)
example := rho_eq (exTwo_holds 1) rfl (exTwo_norm 1 (by omega)) (x0 := 0) (y0 := 0) (w := 2) (h := 1) (by omega) (by omega)
example (O : Ncon.SetOrder) := rho_expval O le_rfl (exTwo_holds 1) rfl (exTwo_norm 1 (by omega)) (x0 := 1) (y0 := 0) (w := 1) (h := 1) (by omega) (by omega)
  (op := sigmaY) rfl
example (O : Ncon.SetOrder) := expval_red O le_rfl exPeps_holds exOpen 0 1 (op := sigmaY) rfl

end Xmps.FPEPS
