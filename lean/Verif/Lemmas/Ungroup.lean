import Verif.Props.Legs

/-!
# Ungrouping a matrix with the pipe of another array
-/

namespace Xmps

variable {K : Type}

/-- what `group_legs` returns, with the pipe -/
theorem groupLegs_pipe {T : ND K} {legs : List (List ℕ)} (h : AxisPartition legs T.rank) :
    ∃ R, groupLegs T legs = .ok (R, (legs.flatten, legs.map fun leg => leg.map T.dim)) ∧ R.shape = (legs.map fun leg => (leg.map T.dim).prod) := by
  obtain ⟨hne, hp⟩ := h
  have hsz : (T.transposeR legs.flatten).size == (legs.map fun leg => (leg.map T.dim).prod).prod := by
    rw [prod_flatten]; simp [ND.size]
  refine ⟨_, by
    unfold groupLegs
    simp only [ND.transpose_ok hp, ok_bind, ND.shape_transposeR, groupShapes_ok legs T.dim hne]
    rw [ND.reshape, if_pos hsz, ok_bind], rfl⟩

theorem ungroupLegs_val {n : ℕ} {f : ℕ → ℕ} {legs : List (List ℕ)} (h : AxisPartition legs n) {U : ND K}
    (hU : U.shape = legs.map fun leg => (leg.map f).prod) :
    ∃ S, ungroupLegs U (legs.flatten, legs.map fun leg => leg.map f) = .ok S ∧ S.shape = (List.range n).map f ∧
      ∀ idx, InB ((List.range n).map f) idx → S.val idx = U.val (legs.map fun leg => ravel (leg.map f) (leg.map fun p => idx.getD p 0)) := by
  obtain ⟨hne, hp⟩ := h
  have hplen : legs.flatten.length = n := by simpa using hp.length_eq
  have hp' : legs.flatten.Perm (List.range legs.flatten.length) := by rw [hplen]; exact hp
  obtain ⟨inv, h1, h2, h3⟩ := inverseTranspose_spec hp'
  obtain ⟨i1, i2⟩ := inv_perm hp' h2 h3
  have hsz2 : U.size == (legs.flatten.map f).prod := by
    rw [← prod_flatten]; simp [ND.size, hU]
  have hr : (U.reshapeR (legs.flatten.map f)).rank = legs.flatten.length := by
    rw [ND.rank, ND.shape_reshapeR, List.length_map]
  refine ⟨(U.reshapeR (legs.flatten.map f)).transposeR inv, ?_, ?_, ?_⟩
  · unfold ungroupLegs
    have hl : ((legs.map fun leg => leg.map f).length == U.rank) = true := by
      simp [ND.rank, hU]
    simp only [hl, guardPy_true, ok_bind]
    rw [hU, ungroupShape_ok, ND.reshape, if_pos hsz2, ok_bind, h1, ok_bind]
    exact ND.transpose_ok (by rw [hr]; exact i1)
  · rw [ND.shape_transposeR]
    apply List.ext_getElem
    · simp [h2, hplen]
    · intro i g1 g2
      have hi : i ∈ legs.flatten := hp.mem_iff.2 (by simpa using g2)
      obtain ⟨k, hk, rfl⟩ := List.getElem_of_mem hi
      have e := h3 k hk
      have hlt : legs.flatten[k] < inv.length := by simpa using g1
      rw [List.getElem?_eq_getElem hlt] at e
      injection e with e
      rw [List.getElem_map, e]
      have : (U.reshapeR (legs.flatten.map f)).dim k = f legs.flatten[k] := by
        simp only [ND.dim, ND.shape_reshapeR]
        rw [List.getD_eq_getElem _ _ (by rw [List.length_map]; exact hk), List.getElem_map]
      rw [this]
      simp
  · intro idx hi
    show (U.reshapeR (legs.flatten.map f)).val _ = _
    have e1 : (List.range (U.reshapeR (legs.flatten.map f)).rank).map
        (fun p => idx.getD (inv.idxOf p) 0) = legs.flatten.map fun p => idx.getD p 0 := by
      rw [hr]
      apply List.ext_getElem
      · rw [List.length_map, List.length_map, List.length_range]
      · intro i g1 g2
        have hi' : i < legs.flatten.length := by rw [List.length_map] at g2; exact g2
        simp only [List.getElem_map, List.getElem_range]
        rw [i2 i hi']
    rw [e1]
    show U.val (unravel U.shape (ravel (legs.flatten.map f) _)) = _
    rw [hU, ← ravel_groups f (fun p => idx.getD p 0) legs, unravel_ravel]
    have key : ∀ leg : List ℕ, (∀ p ∈ leg, p < n) → InB (leg.map f) (leg.map fun p => idx.getD p 0) := by
      intro leg hleg
      have := InB_perm_map (perm := leg) hi fun p hp' => by simpa using hleg p hp'
      have e : leg.map (fun p => ((List.range n).map f).getD p 0) = leg.map f := List.map_congr_left fun p hp' => by simp [hleg p hp']
      rwa [e] at this
    have hall : ∀ leg ∈ legs, ∀ p ∈ leg, p < n := fun leg hl p hp' => by
      simpa using hp.mem_iff.1 (List.mem_flatten.2 ⟨leg, hl, hp'⟩)
    clear hp hplen hp' h1 h2 h3 i1 i2 hsz2 hr e1 hU hne
    induction legs with
    | nil => trivial
    | cons leg legs ih =>
      exact ⟨ravel_lt (key leg (hall leg (by simp))), ih fun l hl => hall l (by simp [hl])⟩

end Xmps
