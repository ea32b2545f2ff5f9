import Verif.Model.Peps
import Verif.Spec.Peps
import Mathlib.Data.List.OfFn

/-!
# C38: reflections of a PEPS

Specification: Spec/Peps (`PepsGrid`, `pepsAmp`).
-/

namespace Xmps

open Finset Xmps.Spec

/-- the rows of a grid as lists -/
def gridList {α : Type} {m n : ℕ} (g : Fin m → Fin n → α) : List (List α) := List.ofFn fun j => List.ofFn (g j)

namespace FPEPS

/-- The transposed arrays. -/
def tT {m n : ℕ} (g : Fin m → Fin n → ND ℂ) : Fin n → Fin m → ND ℂ := fun i j => (g j i).transposeR [0, 4, 3, 2, 1]
def tR {m n : ℕ} (g : Fin m → Fin n → ND ℂ) : Fin m → Fin n → ND ℂ := fun j i => (g j i.rev).transposeR [0, 1, 4, 3, 2]
def tU {m n : ℕ} (g : Fin m → Fin n → ND ℂ) : Fin m → Fin n → ND ℂ := fun j i => (g j.rev i).transposeR [0, 3, 2, 1, 4]

theorem mapM_ofFn {α β : Type} {n : ℕ} {f : α → Py β} {a : Fin n → α} {b : Fin n → β} (h : ∀ i, f (a i) = .ok (b i)) :
    (List.ofFn a).mapM f = .ok (List.ofFn b) := by
  induction n with
  | zero => simp
  | succ n ih =>
    rw [List.ofFn_succ, List.ofFn_succ, List.mapM_cons, h 0, ok_bind, ih fun i => h i.succ]
    rfl

theorem mapM_grid {α β : Type} {m n : ℕ} {f : α → Py β} {a : Fin m → Fin n → α} {b : Fin m → Fin n → β}
    (h : ∀ j i, f (a j i) = .ok (b j i)) : (gridList a).mapM (fun row => row.mapM f) = .ok (gridList b) :=
  mapM_ofFn fun j => mapM_ofFn fun i => h j i

theorem reverse_ofFn {α : Type} {n : ℕ} (f : Fin n → α) : (List.ofFn f).reverse = List.ofFn fun i => f i.rev := by
  apply List.ext_getElem
  · simp
  · intro i h1 h2
    simp only [List.length_ofFn, List.length_reverse] at h1 h2
    rw [List.getElem_reverse]
    simp only [List.getElem_ofFn]
    congr 1
    ext
    simp [Fin.rev]
    omega

theorem zipStar_grid {α : Type} {m n : ℕ} (hm : 0 < m) (g : Fin m → Fin n → α) :
    zipStar (gridList g) = gridList fun i j => g j i := by
  obtain ⟨m, rfl⟩ : ∃ k, m = k + 1 := ⟨m - 1, by omega⟩
  have hlen : ∀ (k : ℕ) (f : Fin k → Fin n → α), (List.ofFn fun j => List.ofFn (f j)).foldl (fun a l => min a l.length) n = n := by
    intro k f
    induction k with
    | zero => simp
    | succ k ih => rw [List.ofFn_succ, List.foldl_cons, List.length_ofFn, Nat.min_self]; exact ih _
  have hf : ∀ (k : ℕ) (f : Fin k → Fin n → α) (i : ℕ) (hi : i < n),
      (List.ofFn fun j => List.ofFn (f j)).filterMap (·[i]?) = List.ofFn fun j => f j ⟨i, hi⟩ := by
    intro k f i hi
    induction k with
    | zero => simp
    | succ k ih =>
      rw [List.ofFn_succ, List.ofFn_succ, List.filterMap_cons, ih]
      simp [hi]
  unfold gridList
  rw [List.ofFn_succ, zipStar, List.length_ofFn, hlen]
  apply List.ext_getElem
  · simp
  · intro i h1 h2
    have hi : i < n := by simpa using h1
    simp only [List.getElem_map, List.getElem_range, List.getElem_ofFn]
    rw [← hf (m + 1) g i hi, List.ofFn_succ]

theorem maxShape_ok {l : List (ND ℂ)} (h : l ≠ []) (hs : ∀ x ∈ l, x.shape.tail ≠ []) : ∃ X, maxShape l = .ok X := by
  obtain ⟨ms, hms, hl⟩ : ∃ ms, (l.mapM fun x => (if x.shape.tail = [] then .error .valueError else .ok (x.shape.tail.foldl max 0) : Py ℕ)) = .ok ms ∧
      ms.length = l.length := by
    clear h
    induction l with
    | nil => exact ⟨[], rfl, rfl⟩
    | cons a l ih =>
      obtain ⟨ms, h1, h2⟩ := ih fun x hx => hs x (by simp [hx])
      refine ⟨a.shape.tail.foldl max 0 :: ms, ?_, by simp [h2]⟩
      rw [List.mapM_cons, if_neg (hs a (by simp)), ok_bind, h1]
      rfl
  have hne : ms ≠ [] := by
    intro e
    rw [e] at hl
    exact h (List.length_eq_zero_iff.1 hl.symm)
  refine ⟨ms.foldl max 0, ?_⟩
  unfold maxShape
  rw [hms, ok_bind, if_neg hne]

theorem init_grid {m n : ℕ} (hm : 0 < m) (hn : 0 < n) {ph : Fin m → Fin n → ℕ} {vE : Fin (m + 1) → Fin n → ℕ}
    {hE : Fin m → Fin (n + 1) → ℕ} {g : Fin m → Fin n → ND ℂ} (hg : PepsGrid ph vE hE g) :
    ∃ d X, init (gridList g) = .ok ⟨gridList g, m, n, d, X, none⟩ := by
  obtain ⟨m, rfl⟩ : ∃ k, m = k + 1 := ⟨m - 1, by omega⟩
  obtain ⟨n, rfl⟩ : ∃ k, n = k + 1 := ⟨n - 1, by omega⟩
  obtain ⟨X, hX⟩ := maxShape_ok (l := (gridList g).flatten) (by simp [gridList, List.ofFn_succ]) (by
    intro x hx
    simp only [gridList, List.mem_flatten, List.mem_ofFn] at hx
    obtain ⟨l, ⟨j, rfl⟩, hx⟩ := hx
    obtain ⟨i, rfl⟩ := (List.mem_ofFn).1 hx
    rw [hg j i]
    simp)
  have h0 : pyGet (gridList g) 0 = .ok (List.ofFn (g 0)) := by simp [gridList, List.ofFn_succ]
  have h1 : pyGet (List.ofFn (g 0)) 0 = .ok (g 0 0) := by simp [List.ofFn_succ]
  have h2 : pyGet (g 0 0).shape 0 = .ok (ph 0 0) := by rw [hg]; simp
  refine ⟨ph 0 0, X, ?_⟩
  unfold init
  rw [h0, ok_bind, h1, ok_bind, h2, ok_bind, hX, ok_bind]
  simp [gridList]

section

variable {m n : ℕ} {ph : Fin m → Fin n → ℕ} {vE : Fin (m + 1) → Fin n → ℕ} {hE : Fin m → Fin (n + 1) → ℕ}
  {g : Fin m → Fin n → ND ℂ}

theorem tp5 {A : ND ℂ} {a b c d e : ℕ} (h : A.shape = [a, b, c, d, e]) {p : List ℕ} (hp : p.Perm (List.range 5)) :
    A.transpose p = .ok (A.transposeR p) := ND.transpose_ok (by simpa [ND.rank, h] using hp)

theorem tT_grid (hg : PepsGrid ph vE hE g) : PepsGrid (fun i j => ph j i) (fun i j => hE j i) (fun i j => vE j i) (tT g) := by
  intro i j
  simp [tT, ND.transposeR, ND.dim, hg j i]

theorem tR_grid (hg : PepsGrid ph vE hE g) :
    PepsGrid (fun j i => ph j i.rev) (fun j i => vE j i.rev) (fun j i => hE j i.rev) (tR g) := by
  intro j i
  simp [tR, ND.transposeR, ND.dim, hg j i.rev, Fin.rev_succ, Fin.rev_castSucc]

theorem tU_grid (hg : PepsGrid ph vE hE g) :
    PepsGrid (fun j i => ph j.rev i) (fun j i => vE j.rev i) (fun j i => hE j.rev i) (tU g) := by
  intro j i
  simp [tU, ND.transposeR, ND.dim, hg j.rev i, Fin.rev_succ, Fin.rev_castSucc]

theorem tT_val (hg : PepsGrid ph vE hE g) (i : Fin n) (j : Fin m) (s u r d l : ℕ) :
    (tT g i j).val [s, u, r, d, l] = (g j i).val [s, l, d, r, u] := by
  simp [tT, ND.transposeR, hg j i, ND.rank, ND.dim, List.range_succ]

theorem tR_val (hg : PepsGrid ph vE hE g) (j : Fin m) (i : Fin n) (s u r d l : ℕ) :
    (tR g j i).val [s, u, r, d, l] = (g j i.rev).val [s, u, l, d, r] := by
  simp [tR, ND.transposeR, hg j i.rev, ND.rank, ND.dim, List.range_succ]

theorem tU_val (hg : PepsGrid ph vE hE g) (j : Fin m) (i : Fin n) (s u r d l : ℕ) :
    (tU g j i).val [s, u, r, d, l] = (g j.rev i).val [s, d, r, u, l] := by
  simp [tU, ND.transposeR, hg j.rev i, ND.rank, ND.dim, List.range_succ]

theorem mem_bondVals {a b : ℕ} {e v : Fin a → Fin b → ℕ} : v ∈ bondVals e ↔ ∀ j i, v j i < e j i := by
  simp [bondVals]

/-- sums over bond values are carried over by a renaming of the bonds -/
theorem sum_bondVals {K : Type} [AddCommMonoid K] {a b a' b' : ℕ} (e : Fin a → Fin b → ℕ) (e' : Fin a' → Fin b' → ℕ)
    (φ : (Fin a → Fin b → ℕ) → (Fin a' → Fin b' → ℕ)) (ψ : (Fin a' → Fin b' → ℕ) → (Fin a → Fin b → ℕ))
    (h1 : ∀ v, ψ (φ v) = v) (h2 : ∀ v, φ (ψ v) = v) (h3 : ∀ v, v ∈ bondVals e ↔ φ v ∈ bondVals e')
    (F : (Fin a' → Fin b' → ℕ) → K) : ∑ v ∈ bondVals e', F v = ∑ v ∈ bondVals e, F (φ v) := by
  refine (Finset.sum_nbij' φ ψ (fun v hv => (h3 v).1 hv) (fun v hv => (h3 _).2 (by rw [h2]; exact hv)) (fun v _ => h1 v)
    (fun v _ => h2 v) fun v _ => rfl).symm

/-- **C38**: `T` on the grid: the amplitudes are those of the transposed basis state. -/
theorem pepsAmp_tT (hg : PepsGrid ph vE hE g) (s : Fin m → Fin n → ℕ) :
    pepsAmp (fun i j => hE j i) (fun i j => vE j i) (tT g) (fun i j => s j i) = pepsAmp vE hE g s := by
  unfold pepsAmp
  rw [sum_bondVals hE (fun i j => hE j i) (fun v i j => v j i) (fun v i j => v j i) (fun _ => rfl) (fun _ => rfl)
    (fun v => by simp only [mem_bondVals]; exact forall_comm), sum_comm]
  rw [sum_bondVals vE (fun i j => vE j i) (fun v i j => v j i) (fun v i j => v j i) (fun _ => rfl) (fun _ => rfl)
    (fun v => by simp only [mem_bondVals]; exact forall_comm)]
  refine sum_congr rfl fun v _ => sum_congr rfl fun h _ => ?_
  rw [prod_comm]
  exact prod_congr rfl fun j _ => prod_congr rfl fun i _ => tT_val hg i j _ _ _ _ _

/-- **C38**: `R` on the grid: the amplitudes are those of the basis state mirrored left to right. -/
theorem pepsAmp_tR (hg : PepsGrid ph vE hE g) (s : Fin m → Fin n → ℕ) :
    pepsAmp (fun j i => vE j i.rev) (fun j i => hE j i.rev) (tR g) (fun j i => s j i.rev) = pepsAmp vE hE g s := by
  unfold pepsAmp
  rw [sum_bondVals vE (fun j i => vE j i.rev) (fun v j i => v j i.rev) (fun v j i => v j i.rev) (fun v => by simp) (fun v => by simp)
    (fun v => by simp only [mem_bondVals]; exact ⟨fun h j i => h j i.rev, fun h j i => by simpa using h j i.rev⟩)]
  refine sum_congr rfl fun v _ => ?_
  rw [sum_bondVals hE (fun j i => hE j i.rev) (fun v j i => v j i.rev) (fun v j i => v j i.rev) (fun v => by simp) (fun v => by simp)
    (fun v => by simp only [mem_bondVals]; exact ⟨fun h j i => h j i.rev, fun h j i => by simpa using h j i.rev⟩)]
  refine sum_congr rfl fun h _ => prod_congr rfl fun j _ => ?_
  refine Fintype.prod_equiv Fin.revPerm _ _ fun i => ?_
  rw [tR_val hg]
  simp [Fin.rev_succ, Fin.rev_castSucc]

/-- **C38**: `U` on the grid: the amplitudes are those of the basis state mirrored top to bottom. -/
theorem pepsAmp_tU (hg : PepsGrid ph vE hE g) (s : Fin m → Fin n → ℕ) :
    pepsAmp (fun j i => vE j.rev i) (fun j i => hE j.rev i) (tU g) (fun j i => s j.rev i) = pepsAmp vE hE g s := by
  unfold pepsAmp
  rw [sum_bondVals vE (fun j i => vE j.rev i) (fun v j i => v j.rev i) (fun v j i => v j.rev i) (fun v => by simp) (fun v => by simp)
    (fun v => by simp only [mem_bondVals]; exact ⟨fun h j i => h j.rev i, fun h j i => by simpa using h j.rev i⟩)]
  refine sum_congr rfl fun v _ => ?_
  rw [sum_bondVals hE (fun j i => hE j.rev i) (fun v j i => v j.rev i) (fun v j i => v j.rev i) (fun v => by simp) (fun v => by simp)
    (fun v => by simp only [mem_bondVals]; exact ⟨fun h j i => h j.rev i, fun h j i => by simpa using h j.rev i⟩)]
  refine sum_congr rfl fun h _ => ?_
  refine Fintype.prod_equiv Fin.revPerm _ _ fun j => prod_congr rfl fun i _ => ?_
  rw [tU_val hg]
  simp [Fin.rev_succ, Fin.rev_castSucc]

/-! ## The properties `T`, `R`, `U` -/

/-- The object holds the grid `g` (`m` rows, `n` columns), as after `fPEPS(data)`. -/
structure Holds (x : FPEPS) (m n : ℕ) (ph : Fin m → Fin n → ℕ) (vE : Fin (m + 1) → Fin n → ℕ)
    (hE : Fin m → Fin (n + 1) → ℕ) (g : Fin m → Fin n → ND ℂ) : Prop where
  grid : PepsGrid ph vE hE g
  data : x.data = gridList g
  rows : 0 < m
  cols : 0 < n

theorem Holds.T {x : FPEPS} (h : x.Holds m n ph vE hE g) :
    ∃ y, x.T = .ok y ∧ y.Holds n m (fun i j => ph j i) (fun i j => hE j i) (fun i j => vE j i) (tT g) ∧
      y.Lx = n ∧ y.Ly = m ∧ y.d = x.d ∧ y.X = x.X ∧ y.oc = x.oc.map Prod.swap := by
  obtain ⟨d, X, hi⟩ := init_grid h.cols h.rows (tT_grid h.grid)
  refine ⟨⟨gridList (tT g), n, m, x.d, x.X, x.oc.map Prod.swap⟩, ?_, ⟨tT_grid h.grid, rfl, h.cols, h.rows⟩, rfl, rfl, rfl, rfl, rfl⟩
  unfold FPEPS.T
  rw [h.data, zipStar_grid h.rows, mapM_grid (b := tT g) fun i j => tp5 (h.grid j i) (by decide), ok_bind, hi]
  rfl

theorem Holds.R {x : FPEPS} (h : x.Holds m n ph vE hE g) :
    ∃ y, x.R = .ok y ∧ y.Holds m n (fun j i => ph j i.rev) (fun j i => vE j i.rev) (fun j i => hE j i.rev) (tR g) ∧
      y.Lx = m ∧ y.Ly = n ∧ y.d = x.d ∧ y.X = x.X ∧ y.oc = x.oc.map fun o => ((x.Lx : ℤ) - 1 - o.1, o.2) := by
  obtain ⟨d, X, hi⟩ := init_grid h.rows h.cols (tR_grid h.grid)
  refine ⟨⟨gridList (tR g), m, n, x.d, x.X, x.oc.map fun o => ((x.Lx : ℤ) - 1 - o.1, o.2)⟩, ?_,
    ⟨tR_grid h.grid, rfl, h.rows, h.cols⟩, rfl, rfl, rfl, rfl, rfl⟩
  have hm : (gridList g).mapM (fun row => do
      let row ← row.mapM (fun A : ND ℂ => A.transpose [0, 1, 4, 3, 2])
      (.ok row.reverse : Py (List (ND ℂ)))) = .ok (gridList (tR g)) := by
    refine mapM_ofFn fun j => ?_
    rw [mapM_ofFn (b := fun i => (g j i).transposeR [0, 1, 4, 3, 2]) fun i => tp5 (h.grid j i) (by decide), ok_bind, reverse_ofFn]
    rfl
  unfold FPEPS.R
  rw [h.data, hm, ok_bind, hi]
  rfl

theorem Holds.U {x : FPEPS} (h : x.Holds m n ph vE hE g) :
    ∃ y, x.U = .ok y ∧ y.Holds m n (fun j i => ph j.rev i) (fun j i => vE j.rev i) (fun j i => hE j.rev i) (tU g) ∧
      y.Lx = m ∧ y.Ly = n ∧ y.d = x.d ∧ y.X = x.X ∧ y.oc = x.oc.map fun o => (o.1, (x.Ly : ℤ) - o.2 - 1) := by
  obtain ⟨d, X, hi⟩ := init_grid h.rows h.cols (tU_grid h.grid)
  refine ⟨⟨gridList (tU g), m, n, x.d, x.X, x.oc.map fun o => (o.1, (x.Ly : ℤ) - o.2 - 1)⟩, ?_,
    ⟨tU_grid h.grid, rfl, h.rows, h.cols⟩, rfl, rfl, rfl, rfl, rfl⟩
  have hr : (gridList fun j i => (g j i).transposeR [0, 3, 2, 1, 4]).reverse = gridList (tU g) := by
    rw [gridList, reverse_ofFn]
    rfl
  unfold FPEPS.U
  rw [h.data, mapM_grid (b := fun j i => (g j i).transposeR [0, 3, 2, 1, 4]) fun j i => tp5 (h.grid j i) (by decide), ok_bind, hr, hi]
  rfl

theorem eqv5 {A B : ND ℂ} {a b c d e : ℕ} (hA : A.shape = [a, b, c, d, e]) (hB : B.shape = [a, b, c, d, e])
    (h : ∀ s u r q l, A.val [s, u, r, q, l] = B.val [s, u, r, q, l]) : A ≈ B := by
  refine ⟨by rw [hA, hB], fun idx hi => ?_⟩
  rw [hA] at hi
  match idx, hi with
  | [s, u, r, q, l], _ => exact h s u r q l

theorem tT_tT (hg : PepsGrid ph vE hE g) (j : Fin m) (i : Fin n) : tT (tT g) j i ≈ g j i :=
  eqv5 (tT_grid (tT_grid hg) j i) (hg j i) fun s u r q l => by rw [tT_val (tT_grid hg), tT_val hg]

theorem tR_tR (hg : PepsGrid ph vE hE g) (j : Fin m) (i : Fin n) : tR (tR g) j i ≈ g j i := by
  refine eqv5 (tR_grid (tR_grid hg) j i) ?_ fun s u r q l => ?_
  · simp only [Fin.rev_rev]
    exact hg j i
  · rw [tR_val (tR_grid hg), tR_val hg, Fin.rev_rev]

theorem tU_tU (hg : PepsGrid ph vE hE g) (j : Fin m) (i : Fin n) : tU (tU g) j i ≈ g j i := by
  refine eqv5 (tU_grid (tU_grid hg) j i) ?_ fun s u r q l => ?_
  · simp only [Fin.rev_rev]
    exact hg j i
  · rw [tU_val (tU_grid hg), tU_val hg, Fin.rev_rev]

/-- **C38** for `T`: the result is a PEPS with `n` rows and `m` columns whose neighbouring bonds
match; its amplitudes are those of the transposed basis states, the centre moves with its tensor,
and `T` twice gives back the same arrays, centre, `d` and `X`. -/
theorem T_reflection {x : FPEPS} (h : x.Holds m n ph vE hE g) :
    ∃ y z g' g'', x.T = .ok y ∧ y.Holds n m (fun i j => ph j i) (fun i j => hE j i) (fun i j => vE j i) g' ∧
      (∀ s, pepsAmp (fun i j => hE j i) (fun i j => vE j i) g' (fun i j => s j i) = pepsAmp vE hE g s) ∧
      (∀ a b, x.oc = some (a, b) → y.oc = some (b, a)) ∧ y.T = .ok z ∧ z.Holds m n ph vE hE g'' ∧ (∀ j i, g'' j i ≈ g j i) ∧
      z.oc = x.oc ∧ z.d = x.d ∧ z.X = x.X := by
  obtain ⟨y, h1, h2, _, _, h5, h6, h7⟩ := h.T
  obtain ⟨z, k1, k2, _, _, k5, k6, k7⟩ := h2.T
  refine ⟨y, z, _, _, h1, h2, pepsAmp_tT h.grid, fun a b e => by rw [h7, e]; rfl, k1, k2, tT_tT h.grid, ?_, by rw [k5, h5], by rw [k6, h6]⟩
  rw [k7, h7]
  cases x.oc <;> rfl

/-- **C38** for `R`, apart from the centre. -/
theorem R_reflection {x : FPEPS} (h : x.Holds m n ph vE hE g) :
    ∃ y z g' g'', x.R = .ok y ∧ y.Holds m n (fun j i => ph j i.rev) (fun j i => vE j i.rev) (fun j i => hE j i.rev) g' ∧
      (∀ s, pepsAmp (fun j i => vE j i.rev) (fun j i => hE j i.rev) g' (fun j i => s j i.rev) = pepsAmp vE hE g s) ∧
      y.R = .ok z ∧ z.Holds m n ph vE hE g'' ∧ (∀ j i, g'' j i ≈ g j i) ∧ z.d = x.d ∧ z.X = x.X := by
  obtain ⟨y, h1, h2, _, _, h5, h6, _⟩ := h.R
  obtain ⟨z, k1, k2, _, _, k5, k6, _⟩ := h2.R
  simp only [Fin.rev_rev] at k2
  exact ⟨y, z, _, _, h1, h2, pepsAmp_tR h.grid, k1, k2, tR_tR h.grid, by rw [k5, h5], by rw [k6, h6]⟩

/-- **C38** for `U`, apart from the centre. -/
theorem U_reflection {x : FPEPS} (h : x.Holds m n ph vE hE g) :
    ∃ y z g' g'', x.U = .ok y ∧ y.Holds m n (fun j i => ph j.rev i) (fun j i => vE j.rev i) (fun j i => hE j.rev i) g' ∧
      (∀ s, pepsAmp (fun j i => vE j.rev i) (fun j i => hE j.rev i) g' (fun j i => s j.rev i) = pepsAmp vE hE g s) ∧
      y.U = .ok z ∧ z.Holds m n ph vE hE g'' ∧ (∀ j i, g'' j i ≈ g j i) ∧ z.d = x.d ∧ z.X = x.X := by
  obtain ⟨y, h1, h2, _, _, h5, h6, _⟩ := h.U
  obtain ⟨z, k1, k2, _, _, k5, k6, _⟩ := h2.U
  simp only [Fin.rev_rev] at k2
  exact ⟨y, z, _, _, h1, h2, pepsAmp_tU h.grid, k1, k2, tU_tU h.grid, by rw [k5, h5], by rw [k6, h6]⟩

/-- **C38**, the centre under `R`: it follows its tensor (column `a` goes to column `n - 1 - a`)
exactly when the attribute `Lx` is the number of columns, and it comes back after a second `R`
exactly when `Lx` is the number of rows; `fPEPS(data)` sets `Lx` to the number of rows,
`fPEPS().random(Lx, Ly, …)` to the number of columns.  So one of the two fails on every grid that
is not square. -/
theorem R_centre {x : FPEPS} (h : x.Holds m n ph vE hE g) {a b : ℤ} (ho : x.oc = some (a, b)) :
    ∃ y z, x.R = .ok y ∧ y.R = .ok z ∧ (y.oc = some ((n : ℤ) - 1 - a, b) ↔ x.Lx = n) ∧ (z.oc = x.oc ↔ x.Lx = m) := by
  obtain ⟨y, h1, h2, h3, _, _, _, h7⟩ := h.R
  obtain ⟨z, k1, _, _, _, _, _, k7⟩ := h2.R
  refine ⟨y, z, h1, k1, ?_, ?_⟩
  · rw [h7, ho]
    simp
  · rw [k7, h7, ho, h3]
    simp
    omega

/-- the same for `U`: `Ly` must be the number of rows for the centre to follow its tensor, and the
number of columns for it to come back -/
theorem U_centre {x : FPEPS} (h : x.Holds m n ph vE hE g) {a b : ℤ} (ho : x.oc = some (a, b)) :
    ∃ y z, x.U = .ok y ∧ y.U = .ok z ∧ (y.oc = some (a, (m : ℤ) - 1 - b) ↔ x.Ly = m) ∧ (z.oc = x.oc ↔ x.Ly = n) := by
  obtain ⟨y, h1, h2, _, h4, _, _, h7⟩ := h.U
  obtain ⟨z, k1, _, _, _, _, _, k7⟩ := h2.U
  refine ⟨y, z, h1, k1, ?_, ?_⟩
  · rw [h7, ho]
    simp
    omega
  · rw [k7, h7, ho, h4]
    simp
    omega

end

/-! ## Examples -/

/-- one row, two columns, bond 2 between them, all entries different -/
noncomputable def exGrid : Fin 1 → Fin 2 → ND ℂ := fun _ i =>
  if i = 0 then ⟨[2, 1, 2, 1, 1], fun idx => (ravel [2, 1, 2, 1, 1] idx : ℂ)⟩
  else ⟨[2, 1, 1, 1, 2], fun idx => (ravel [2, 1, 1, 1, 2] idx : ℂ) + Complex.I⟩

/-- what `fPEPS(data)` makes of it, with centre on the second column -/
noncomputable def exPeps : FPEPS := ⟨gridList exGrid, 1, 2, 2, 2, some (1, 0)⟩

theorem exPeps_holds : exPeps.Holds 1 2 (fun _ _ => 2) (fun _ _ => 1) (fun _ i => if i = 1 then 2 else 1) exGrid :=
  ⟨fun j i => by match i with | 0 => rfl | 1 => rfl, rfl, by simp, by simp⟩

example := T_reflection exPeps_holds
example := R_reflection exPeps_holds
example := U_reflection exPeps_holds
example := R_centre exPeps_holds rfl
example := U_centre exPeps_holds rfl

/-- the centre of the example is sent outside the grid: `R` gives column `-1` -/
theorem R_centre_outside : ∃ y, exPeps.R = .ok y ∧ y.oc = some (-1, 0) := by
  obtain ⟨y, h1, _, _, _, _, _, h7⟩ := exPeps_holds.R
  exact ⟨y, h1, by rw [h7]; rfl⟩

end FPEPS

end Xmps
