import Verif.Lemmas.IsoTrunc
import Verif.Lemmas.IsoTensor
import Verif.Props.PepsAdd

/-!
# `isometrise` on a grid: extents of the bonds, isometries, the cases in which it raises
-/

namespace Xmps.FPEPS

open Finset Spec

theorem mapM_error_or {α β : Type} {f : α → Py β} {e : PyErr} : ∀ {l : List α}, (∀ a ∈ l, (∃ b, f a = .ok b) ∨ f a = .error e) →
    (∃ a ∈ l, f a = .error e) → l.mapM f = .error e
  | [], _, h => by simp at h
  | a :: l, h, hex => by
    rw [List.mapM_cons]
    rcases h a (by simp) with ⟨b, hb⟩ | he
    · rw [hb, ok_bind]
      have : l.mapM f = .error e := mapM_error_or (fun c hc => h c (by simp [hc])) (by
        obtain ⟨c, hc, hce⟩ := hex
        rcases List.mem_cons.1 hc with rfl | hc
        · rw [hb] at hce; cases hce
        · exact ⟨c, hc, hce⟩)
      rw [this, err_bind]
    · rw [he, err_bind]

section

variable {m n : ℕ} {ph : Fin m → Fin n → ℕ} {vE : Fin (m + 1) → Fin n → ℕ} {hE : Fin m → Fin (n + 1) → ℕ}
  {g : Fin m → Fin n → ND ℂ} {x : FPEPS} {svd : ND ℂ → Py (ND ℂ × List ℝ × ND ℂ)}

/-- the vertical bonds after the truncations -/
def vIso (d : ℕ) (vE : Fin (m + 1) → Fin n → ℕ) : Fin (m + 1) → Fin n → ℕ := fun j i =>
  if 1 < m ∧ 1 < n ∧ (j.1 = 1 ∨ j.1 = m - 1) then min (min (vE j i) (d ^ min i.1 (n - 1 - i.1))) d
  else min (vE j i) (d ^ min i.1 (n - 1 - i.1))

/-- the horizontal bonds after the truncations; those next to the borders are cut in the first `n` rows only -/
def hIso (d : ℕ) (hE : Fin m → Fin (n + 1) → ℕ) : Fin m → Fin (n + 1) → ℕ := fun j i =>
  if 1 < m ∧ 1 < n ∧ (i.1 = 1 ∨ i.1 = n - 1) ∧ j.1 < n then min (min (hE j i) (d ^ min j.1 (m - 1 - j.1))) d
  else min (hE j i) (d ^ min j.1 (m - 1 - j.1))

theorem truncList_lt {L d : ℕ} (hL : 0 < L) : ∀ p ∈ truncList L d, p.1 < L := by
  rintro ⟨i, D⟩ h
  rcases mem_truncList.1 h with ⟨h, _⟩ | ⟨_, h, _⟩
  · show i < L
    omega
  · exact h

/-- the truncations of an object whose `Lx` is the number of columns, `Ly` the number of rows -/
theorem truncateAll_ok (hx : x.Holds m n ph vE hE g) (hd : 0 < x.d) (hLx : x.Lx = n) (hLy : x.Ly = m) (hs : m = 1 ∨ n = 1 ∨ n ≤ m ∧ m ≠ n + 1) :
    x.truncateAll = .ok (x.withGrid (cutGrid ph (vIso x.d vE) (hIso x.d hE) g)) := by
  have hm := hx.rows
  have hn := hx.cols
  have e1 : x.truncateAll = (x.withGrid (cutGrid ph vE hE g)).truncateAll := by rw [← hx.withGrid_eq]
  rw [e1]
  unfold truncateAll
  show (do
    let y ← (truncList x.Lx x.d).foldlM (fun (x : FPEPS) (iD : ℕ × ℕ) => x.truncateAlongColumn iD.1 iD.2) (x.withGrid (cutGrid ph vE hE g))
    let y ← (truncList y.Ly y.d).foldlM (fun (x : FPEPS) (jD : ℕ × ℕ) => x.truncateAlongRow jD.1 jD.2) y
    y.truncateEdges) = _
  rw [hLx, truncCols_ok _ _ (truncList_lt hn), ok_bind]
  show (do
    let y ← (truncList x.Ly x.d).foldlM (fun (x : FPEPS) (jD : ℕ × ℕ) => x.truncateAlongRow jD.1 jD.2) (x.withGrid (cutGrid ph (cutCols (truncList n x.d) vE) hE g))
    y.truncateEdges) = _
  rw [hLy, truncRows_ok _ _ (truncList_lt hm), ok_bind]
  have ev : cutCols (truncList n x.d) vE = fun j i => min (vE j i) (x.d ^ min i.1 (n - 1 - i.1)) := by
    funext j i
    exact cutCols_truncList hd vE j i i.2
  have eh : cutRows (truncList m x.d) hE = fun j i => min (hE j i) (x.d ^ min j.1 (m - 1 - j.1)) := by
    funext j i
    exact cutRows_truncList hd hE j i j.2
  rw [ev, eh]
  unfold truncateEdges
  show (if 1 < x.Ly ∧ 1 < x.Lx then _ else _) = _
  rw [hLx, hLy]
  by_cases hmn : 1 < m ∧ 1 < n
  · rw [if_pos hmn]
    obtain ⟨h1, h2⟩ := hmn
    have hs : n ≤ m ∧ m ≠ n + 1 := by omega
    show (do
      let y ← (x.withGrid (cutGrid ph (fun j i => min (vE j i) (x.d ^ min i.1 (n - 1 - i.1))) (fun j i => min (hE j i) (x.d ^ min j.1 (m - 1 - j.1))) g)).truncateBelow 0 x.d
      let y ← y.truncateBelow (y.Ly - 2) y.d
      let y ← y.truncateLeft 1 y.d
      y.truncateLeft (y.Lx - 1) y.d) = _
    rw [truncBelow_ok (by omega) (by omega), ok_bind]
    show (do
      let y ← (x.withGrid _).truncateBelow (x.Ly - 2) x.d
      let y ← y.truncateLeft 1 y.d
      y.truncateLeft (y.Lx - 1) y.d) = _
    rw [truncBelow_ok (by omega) (by omega), ok_bind]
    show (do
      let y ← (x.withGrid _).truncateLeft 1 x.d
      y.truncateLeft (y.Lx - 1) y.d) = _
    rw [truncLeft_ok (by omega) (by omega) (by omega), ok_bind]
    show (x.withGrid _).truncateLeft (x.Lx - 1) x.d = _
    rw [truncLeft_ok (by omega) (by omega) (by omega), hLx, hLy]
    congr 3
    · funext j i
      simp only [cutBelow, vIso, h1, h2, true_and]
      have e : m - 2 + 1 = m - 1 := by omega
      rw [e]
      by_cases ha : j.1 = 1 <;> by_cases hb : j.1 = m - 1 <;> simp [ha, hb]
      · split_ifs <;> simp
    · funext j i
      simp only [cutLeftE, hIso, h1, h2, true_and]
      by_cases ha : i.1 = 1 <;> by_cases hb : i.1 = n - 1 <;> by_cases hc : j.1 < n <;> simp [ha, hb, hc]
      split_ifs <;> simp
  · rw [if_neg (by omega)]
    congr 3
    · funext j i
      simp only [vIso]
      rw [if_neg (by omega)]
    · funext j i
      simp only [hIso]
      rw [if_neg (by omega)]

theorem vIso_le (d : ℕ) (j : Fin (m + 1)) (i : Fin n) : vIso d vE j i ≤ vE j i := by
  unfold vIso
  split_ifs <;> simp

theorem hIso_le (d : ℕ) (j : Fin m) (i : Fin (n + 1)) : hIso d hE j i ≤ hE j i := by
  unfold hIso
  split_ifs <;> simp

theorem vIso_pos {d : ℕ} (hd : 0 < d) (h : ∀ j i, 0 < vE j i) (j : Fin (m + 1)) (i : Fin n) : 0 < vIso d vE j i := by
  unfold vIso
  split_ifs <;> simp [h, hd, Nat.pow_pos hd]

theorem hIso_pos {d : ℕ} (hd : 0 < d) (h : ∀ j i, 0 < hE j i) (j : Fin m) (i : Fin (n + 1)) : 0 < hIso d hE j i := by
  unfold hIso
  split_ifs <;> simp [h, hd, Nat.pow_pos hd]

theorem openGrid_iso {d : ℕ} (hd : 0 < d) (ox : OpenGrid vE hE) : OpenGrid (vIso d vE) (hIso d hE) := by
  have p : ∀ k, 1 ≤ d ^ k := fun k => Nat.pow_pos hd
  refine ⟨fun i => ?_, fun i => ?_, fun j => ?_, fun j => ?_⟩
  · unfold vIso
    split_ifs <;> simp [ox.top, p, Nat.succ_le_of_lt hd]
  · unfold vIso
    split_ifs <;> simp [ox.bottom, p, Nat.succ_le_of_lt hd]
  · unfold hIso
    split_ifs <;> simp [ox.left, p, Nat.succ_le_of_lt hd]
  · unfold hIso
    split_ifs <;> simp [ox.right, p, Nat.succ_le_of_lt hd]

/-- the tensor at a site is large enough -/
def Fits (ph : Fin m → Fin n → ℕ) (vE : Fin (m + 1) → Fin n → ℕ) (hE : Fin m → Fin (n + 1) → ℕ) (cj : Fin m) (ci : Fin n) (j : Fin m) (i : Fin n) : Prop :=
  outSize (vE j.castSucc i) (hE j i.succ) (vE j.succ i) (hE j i.castSucc) (j ≤ cj) (ci ≤ i) (cj ≤ j) (i ≤ ci) ≤
    inSize (ph j i) (vE j.castSucc i) (hE j i.succ) (vE j.succ i) (hE j i.castSucc) (j ≤ cj) (ci ≤ i) (cj ≤ j) (i ≤ ci)

/-- one site of the loop -/
theorem isoTensor_step (hsvd : SVDLaw svd) {A : ND ℂ} {p u r d l : ℕ} (hA : A.shape = [p, u, r, d, l]) (hpos : ∀ e ∈ A.shape, 0 < e)
    {cj j : Fin m} {ci i : Fin n} (hne : (j, i) ≠ (cj, ci)) :
    (outSize u r d l (j ≤ cj) (ci ≤ i) (cj ≤ j) (i ≤ ci) ≤ inSize p u r d l (j ≤ cj) (ci ≤ i) (cj ≤ j) (i ≤ ci) →
      ∃ B, isoTensor svd (ci.1 : ℤ) (cj.1 : ℤ) j i A = .ok B ∧ B.shape = A.shape ∧ IsoSite B p u r d l (j ≤ cj) (ci ≤ i) (cj ≤ j) (i ≤ ci)) ∧
    (inSize p u r d l (j ≤ cj) (ci ≤ i) (cj ≤ j) (i ≤ ci) < outSize u r d l (j ≤ cj) (ci ≤ i) (cj ≤ j) (i ≤ ci) →
      isoTensor svd (ci.1 : ℤ) (cj.1 : ℤ) j i A = .error .exception) := by
  unfold isoTensor
  simp only [Nat.cast_lt, Fin.val_fin_lt]
  rcases lt_trichotomy ci i with h | h | h
  · rw [if_pos h]
    have hi1 : ci ≤ i := h.le
    have hi2 : ¬ i ≤ ci := not_le.2 h
    rcases lt_trichotomy cj j with k | k | k
    · rw [if_pos k]
      exact step_diag2 hsvd hA hpos (not_le.2 k) hi1 k.le hi2
    · subst k
      rw [if_neg (lt_irrefl _), if_neg (lt_irrefl _)]
      exact step_lrud2 hsvd hA hpos le_rfl hi1 le_rfl hi2
    · rw [if_neg (not_lt.2 k.le), if_pos k]
      exact step_diag1 hsvd hA hpos k.le hi1 (not_le.2 k) hi2
  · subst h
    rw [if_neg (lt_irrefl _), if_neg (lt_irrefl _)]
    rcases lt_trichotomy cj j with k | k | k
    · rw [if_pos k]
      exact step_lrud3 hsvd hA hpos (not_le.2 k) le_rfl k.le le_rfl
    · exact absurd (by rw [k]) hne
    · rw [if_neg (not_lt.2 k.le), if_pos k]
      exact step_lrud1 hsvd hA hpos k.le le_rfl (not_le.2 k) le_rfl
  · rw [if_neg (not_lt.2 h.le), if_pos h]
    have hi1 : i ≤ ci := h.le
    have hi2 : ¬ ci ≤ i := not_le.2 h
    rcases lt_trichotomy cj j with k | k | k
    · rw [if_pos k]
      exact step_diag3 hsvd hA hpos (not_le.2 k) hi2 k.le hi1
    · subst k
      rw [if_neg (lt_irrefl _), if_neg (lt_irrefl _)]
      exact step_lrud4 hsvd hA hpos le_rfl hi2 le_rfl hi1
    · rw [if_neg (not_lt.2 k.le), if_pos k]
      exact step_diag4 hsvd hA hpos k.le hi2 (not_le.2 k) hi1

theorem isoTensor_center (A : ND ℂ) (cj : Fin m) (ci : Fin n) : isoTensor svd (ci.1 : ℤ) (cj.1 : ℤ) cj ci A = .ok (isometriseCenter A) := by
  unfold isoTensor
  simp

theorem gridM_ok {f : ℕ → ℕ → ND ℂ → Py (ND ℂ)} {a b : Fin m → Fin n → ND ℂ} (h : ∀ j i, f j.1 i.1 (a j i) = .ok (b j i)) :
    (gridList a).zipIdx.mapM (fun rj => rj.1.zipIdx.mapM fun Ai => f rj.2 Ai.2 Ai.1) = .ok (gridList b) := by
  unfold gridList
  rw [zipIdx_ofFn]
  refine mapM_ofFn fun j => ?_
  rw [zipIdx_ofFn]
  exact mapM_ofFn fun i => h j i

theorem gridM_err {f : ℕ → ℕ → ND ℂ → Py (ND ℂ)} {a : Fin m → Fin n → ND ℂ} {e : PyErr}
    (h : ∀ j i, (∃ b, f j.1 i.1 (a j i) = .ok b) ∨ f j.1 i.1 (a j i) = .error e) (hex : ∃ j i, f j.1 i.1 (a j i) = .error e) :
    (gridList a).zipIdx.mapM (fun rj => rj.1.zipIdx.mapM fun Ai => f rj.2 Ai.2 Ai.1) = .error e := by
  have row : ∀ j : Fin m, (∃ i, f j.1 i.1 (a j i) = .error e) → (List.ofFn (a j)).zipIdx.mapM (fun Ai => f j.1 Ai.2 Ai.1) = .error e := by
    intro j hj
    rw [zipIdx_ofFn]
    refine mapM_error_or ?_ ?_
    · intro p hp
      obtain ⟨i, rfl⟩ := List.mem_ofFn.1 hp
      exact h j i
    · obtain ⟨i, hi⟩ := hj
      exact ⟨_, List.mem_ofFn.2 ⟨i, rfl⟩, hi⟩
  unfold gridList
  rw [zipIdx_ofFn]
  refine mapM_error_or ?_ ?_
  · intro p hp
    obtain ⟨j, rfl⟩ := List.mem_ofFn.1 hp
    by_cases hj : ∃ i, f j.1 i.1 (a j i) = .error e
    · exact .inr (row j hj)
    · left
      have : ∀ i, ∃ b, f j.1 i.1 (a j i) = .ok b := fun i => (h j i).resolve_right fun hh => hj ⟨i, hh⟩
      choose b hb using this
      refine ⟨List.ofFn b, ?_⟩
      show (List.ofFn (a j)).zipIdx.mapM (fun Ai => f j.1 Ai.2 Ai.1) = _
      rw [zipIdx_ofFn]
      exact mapM_ofFn hb
  · obtain ⟨j, hj⟩ := hex
    exact ⟨_, List.mem_ofFn.2 ⟨j, rfl⟩, row j hj⟩

theorem isometrise_eq {ci cj : ℤ} (h : 0 ≤ ci ∧ ci < x.Lx ∧ 0 ≤ cj ∧ cj < x.Ly) :
    isometrise svd x ci cj = (do
      let y ← truncateAll x
      let data ← y.data.zipIdx.mapM fun rj => rj.1.zipIdx.mapM fun Ai => isoTensor svd ci cj rj.2 Ai.2 Ai.1
      .ok { y with data := data, oc := some (ci, cj) }) := by
  unfold isometrise
  have hg : decide (0 ≤ ci ∧ ci < x.Lx ∧ 0 ≤ cj ∧ cj < x.Ly) = true := decide_eq_true h
  rw [hg, guardPy_true, ok_bind]

/-- `isometrise` when every tensor is large enough -/
theorem isometrise_fits (hsvd : SVDLaw svd) (hx : x.Holds m n ph vE hE g) (hp : ∀ j i, 0 < ph j i) (hv : ∀ j i, 0 < vE j i) (hh : ∀ j i, 0 < hE j i)
    (hd : 0 < x.d) (hLx : x.Lx = n) (hLy : x.Ly = m) (hs : m = 1 ∨ n = 1 ∨ n ≤ m ∧ m ≠ n + 1) (cj : Fin m) (ci : Fin n)
    (hf : ∀ j i, (j, i) ≠ (cj, ci) → Fits ph (vIso x.d vE) (hIso x.d hE) cj ci j i) :
    ∃ y g', isometrise svd x (ci.1 : ℤ) (cj.1 : ℤ) = .ok y ∧ y.Holds m n ph (vIso x.d vE) (hIso x.d hE) g' ∧ IsoGrid ph (vIso x.d vE) (hIso x.d hE) g' cj ci ∧
      y.oc = some ((ci.1 : ℤ), (cj.1 : ℤ)) ∧ y.d = x.d ∧ y.X = x.X ∧ y.Lx = x.Lx ∧ y.Ly = x.Ly ∧
      g' cj ci = isometriseCenter (cutGrid ph (vIso x.d vE) (hIso x.d hE) g cj ci) := by
  set V := vIso x.d vE with hV
  set W := hIso x.d hE with hW
  have hVp : ∀ j i, 0 < V j i := vIso_pos hd hv
  have hWp : ∀ j i, 0 < W j i := hIso_pos hd hh
  have hstep : ∀ (j : Fin m) (i : Fin n), ∃ B, isoTensor svd (ci.1 : ℤ) (cj.1 : ℤ) j i (cutGrid ph V W g j i) = .ok B ∧ B.shape = (cutGrid ph V W g j i).shape ∧
      (((j, i) ≠ (cj, ci) → IsoSite B (ph j i) (V j.castSucc i) (W j i.succ) (V j.succ i) (W j i.castSucc) (j ≤ cj) (ci ≤ i) (cj ≤ j) (i ≤ ci)) ∧
        ((j, i) = (cj, ci) → B = isometriseCenter (cutGrid ph V W g j i))) := by
    intro j i
    by_cases hne : (j, i) = (cj, ci)
    · obtain ⟨rfl, rfl⟩ := Prod.ext_iff.1 hne
      exact ⟨_, isoTensor_center _ _ _, rfl, fun h => absurd rfl h, fun _ => rfl⟩
    · obtain ⟨B, h1, h2, h3⟩ := (isoTensor_step hsvd (A := cutGrid ph V W g j i) rfl (by
        intro e he
        simp only [cutGrid, List.mem_cons, List.not_mem_nil, or_false] at he
        rcases he with rfl | rfl | rfl | rfl | rfl <;> simp [hp, hVp, hWp]) hne).1 (hf j i hne)
      exact ⟨B, h1, h2, fun _ => h3, fun h => absurd h hne⟩
  choose g' h1 h2 h3 using hstep
  refine ⟨{ x with data := gridList g', oc := some ((ci.1 : ℤ), (cj.1 : ℤ)) }, g', ?_, ⟨fun j i => h2 j i, rfl, hx.rows, hx.cols⟩,
    fun j i hne => (h3 j i).1 hne, rfl, rfl, rfl, rfl, rfl, (h3 cj ci).2 rfl⟩
  rw [isometrise_eq (by rw [hLx, hLy]; simp), truncateAll_ok hx hd hLx hLy hs, ok_bind]
  show (do
    let data ← (gridList (cutGrid ph V W g)).zipIdx.mapM fun rj => rj.1.zipIdx.mapM fun Ai => isoTensor svd (ci.1 : ℤ) (cj.1 : ℤ) rj.2 Ai.2 Ai.1
    .ok { x.withGrid (cutGrid ph V W g) with data := data, oc := some ((ci.1 : ℤ), (cj.1 : ℤ)) } : Py FPEPS) = _
  rw [gridM_ok h1, ok_bind]
  rfl

/-- `isometrise` when some tensor is too small -/
theorem isometrise_unfit (hsvd : SVDLaw svd) (hx : x.Holds m n ph vE hE g) (hp : ∀ j i, 0 < ph j i) (hv : ∀ j i, 0 < vE j i) (hh : ∀ j i, 0 < hE j i)
    (hd : 0 < x.d) (hLx : x.Lx = n) (hLy : x.Ly = m) (hs : m = 1 ∨ n = 1 ∨ n ≤ m ∧ m ≠ n + 1) (cj : Fin m) (ci : Fin n)
    (hf : ∃ j i, (j, i) ≠ (cj, ci) ∧ ¬ Fits ph (vIso x.d vE) (hIso x.d hE) cj ci j i) 
    : isometrise svd x (ci.1 : ℤ) (cj.1 : ℤ) = .error .exception := by
  set V := vIso x.d vE with hV
  set W := hIso x.d hE with hW
  have hVp : ∀ j i, 0 < V j i := vIso_pos hd hv
  have hWp : ∀ j i, 0 < W j i := hIso_pos hd hh
  have hpos : ∀ j i, ∀ e ∈ (cutGrid ph V W g j i).shape, 0 < e := by
    intro j i e he
    simp only [cutGrid, List.mem_cons, List.not_mem_nil, or_false] at he
    rcases he with rfl | rfl | rfl | rfl | rfl <;> simp [hp, hVp, hWp]
  rw [isometrise_eq (by rw [hLx, hLy]; simp), truncateAll_ok hx hd hLx hLy hs, ok_bind]
  show (do
    let data ← (gridList (cutGrid ph V W g)).zipIdx.mapM fun rj => rj.1.zipIdx.mapM fun Ai => isoTensor svd (ci.1 : ℤ) (cj.1 : ℤ) rj.2 Ai.2 Ai.1
    .ok { x.withGrid (cutGrid ph V W g) with data := data, oc := some ((ci.1 : ℤ), (cj.1 : ℤ)) } : Py FPEPS) = _
  rw [gridM_err (e := .exception), err_bind]
  · intro j i
    by_cases hne : (j, i) = (cj, ci)
    · obtain ⟨rfl, rfl⟩ := Prod.ext_iff.1 hne
      exact .inl ⟨_, isoTensor_center _ _ _⟩
    · by_cases hfit : Fits ph V W cj ci j i
      · obtain ⟨B, h1, _⟩ := (isoTensor_step hsvd (A := cutGrid ph V W g j i) rfl (hpos j i) hne).1 hfit
        exact .inl ⟨B, h1⟩
      · exact .inr ((isoTensor_step hsvd (A := cutGrid ph V W g j i) rfl (hpos j i) hne).2 (not_le.1 hfit))
  · obtain ⟨j, i, hne, hfit⟩ := hf
    exact ⟨j, i, (isoTensor_step hsvd (A := cutGrid ph V W g j i) rfl (hpos j i) hne).2 (not_le.1 hfit)⟩

end

end Xmps.FPEPS
