import Verif.Model.TensorTools

/-! # Property C05: `group_legs`, `inverse_transpose`, `ungroup_legs` -/

namespace Xmps

open Finset

variable {K : Type}

/-- Setting positions one after the other. -/
theorem invFold : ∀ (l : List (ℕ × ℕ)) (inv : List ℕ), (l.map Prod.fst).Nodup → (∀ p ∈ l, p.1 < inv.length) →
    ∃ R, l.foldlM (fun (inv : List ℕ) (p : ℕ × ℕ) =>
      if p.1 < inv.length then (.ok (inv.set p.1 p.2) : Py (List ℕ)) else .error .indexError) inv = .ok R ∧
      R.length = inv.length ∧ (∀ p ∈ l, R[p.1]? = some p.2) ∧
      ∀ i, i ∉ l.map Prod.fst → R[i]? = inv[i]?
  | [], inv, _, _ => ⟨inv, rfl, rfl, by simp, fun _ _ => rfl⟩
  | q :: l, inv, hn, hb => by
    rw [List.map_cons, List.nodup_cons] at hn
    have hq := hb q (by simp)
    obtain ⟨R, h1, h2, h3, h4⟩ := invFold l (inv.set q.1 q.2) hn.2 (by
      intro p hp; rw [List.length_set]; exact hb p (by simp [hp]))
    refine ⟨R, ?_, by simpa using h2, ?_, ?_⟩
    · rw [List.foldlM_cons, if_pos hq, ok_bind, h1]
    · intro p hp
      rcases List.mem_cons.1 hp with rfl | hp
      · rw [h4 _ hn.1]; simp [hq]
      · exact h3 p hp
    · intro i hi
      simp only [List.map_cons, List.mem_cons, not_or] at hi
      rw [h4 i hi.2, List.getElem?_set_ne (Ne.symm hi.1)]

/-- **C05**: `inverse_transpose` of a permutation is its inverse. -/
theorem inverseTranspose_spec {perm : List ℕ} (h : perm.Perm (List.range perm.length)) :
    ∃ inv, inverseTranspose perm = .ok inv ∧ inv.length = perm.length ∧
      ∀ i (hi : i < perm.length), inv[perm[i]]? = some i := by
  have hnd : perm.Nodup := h.nodup_iff.2 List.nodup_range
  have hm : perm.zipIdx.map Prod.fst = perm := by simp
  obtain ⟨R, h1, h2, h3, _⟩ := invFold perm.zipIdx (List.replicate perm.length 0) (by rw [hm]; exact hnd) (by
    intro p hp
    have : p.1 ∈ perm := by rw [← hm]; exact List.mem_map_of_mem hp
    simpa using h.mem_iff.1 this)
  refine ⟨R, h1, by simpa using h2, fun i hi => ?_⟩
  exact h3 (perm[i], i) (by
    rw [List.mem_iff_getElem]
    exact ⟨i, by simpa using hi, by simp⟩)

theorem inv_perm {perm inv : List ℕ} (h : perm.Perm (List.range perm.length)) (hl : inv.length = perm.length)
    (hv : ∀ i (hi : i < perm.length), inv[perm[i]]? = some i) :
    inv.Perm (List.range perm.length) ∧ ∀ i (hi : i < perm.length), inv.idxOf i = perm[i] := by
  have hnd : perm.Nodup := h.nodup_iff.2 List.nodup_range
  have hlt : ∀ i (hi : i < perm.length), perm[i] < inv.length := by
    intro i hi
    have := h.mem_iff.1 (List.getElem_mem hi)
    rw [hl]; simpa using this
  have hsub : ∀ x ∈ List.range perm.length, x ∈ inv := by
    intro x hx
    have hx' : x < perm.length := by simpa using hx
    have := hv x hx'
    rw [List.getElem?_eq_getElem (hlt x hx')] at this
    injection this with e
    rw [← e]
    exact List.getElem_mem _
  have hp : (List.range perm.length).Perm inv :=
    (List.subperm_of_subset List.nodup_range hsub).perm_of_length_le (by simp [hl])
  have hnd' : inv.Nodup := hp.nodup_iff.1 List.nodup_range
  refine ⟨hp.symm, fun i hi => ?_⟩
  have := hv i hi
  rw [List.getElem?_eq_getElem (hlt i hi)] at this
  injection this with e
  have e2 := List.Nodup.idxOf_getElem hnd' _ (hlt i hi)
  rw [e] at e2
  exact e2

theorem groupShapes_ok : ∀ (legs : List (List ℕ)) (f : ℕ → ℕ), (∀ leg ∈ legs, leg ≠ []) →
    groupShapes legs (legs.flatten.map f) = .ok (legs.map fun leg => (leg.map f).prod, legs.map fun leg => leg.map f)
  | [], _, _ => rfl
  | leg :: legs, f, h => by
    have ih := groupShapes_ok legs f (fun l hl => h l (by simp [hl]))
    have h0 : leg ≠ [] := h leg (by simp)
    have e1 : (leg.length != 0) = true := by simpa using h0
    have e2 : ((leg :: legs).flatten.map f).take leg.length = leg.map f := by simp
    have e3 : ((leg :: legs).flatten.map f).drop leg.length = legs.flatten.map f := by simp
    rw [groupShapes, e1, guardPy_true, ok_bind, e2, e3, ih]
    rfl

theorem ungroupShape_ok (f : ℕ → ℕ) : ∀ (legs : List (List ℕ)),
    ungroupShape (legs.map fun leg => leg.map f) (legs.map fun leg => (leg.map f).prod) = legs.flatten.map f
  | [] => rfl
  | leg :: legs => by
    simp only [List.map_cons, ungroupShape, ungroupShape_ok f legs, List.length_map]
    split
    · rename_i h
      obtain ⟨a, rfl⟩ := List.length_eq_one_iff.1 h
      simp
    · simp

theorem prod_flatten (f : ℕ → ℕ) : ∀ (legs : List (List ℕ)),
    (legs.map fun leg => (leg.map f).prod).prod = (legs.flatten.map f).prod
  | [] => rfl
  | l :: legs => by simp [prod_flatten f legs]

/-- Ravelling group by group and then over the groups is ravelling everything. -/
theorem ravel_groups (f g : ℕ → ℕ) : ∀ (legs : List (List ℕ)),
    ravel (legs.map fun leg => (leg.map f).prod) (legs.map fun leg => ravel (leg.map f) (leg.map g)) =
      ravel (legs.flatten.map f) (legs.flatten.map g)
  | [] => rfl
  | leg :: legs => by
    simp only [List.map_cons, ravel_cons, List.flatten_cons, List.map_append]
    rw [ravel_append _ _ (by simp), ravel_groups f g legs, prod_flatten]

/-- A partition of the axes of an array of rank `n` into ordered non-empty groups. -/
def AxisPartition (legs : List (List ℕ)) (n : ℕ) : Prop :=
  (∀ leg ∈ legs, leg ≠ []) ∧ legs.flatten.Perm (List.range n)

theorem map_getD_dim (T : ND K) : (List.range T.rank).map T.dim = T.shape := by
  apply List.ext_getElem
  · simp [ND.rank]
  · intro i h1 h2
    simp [ND.dim, h2]

theorem InB_perm_map {perm : List ℕ} {sh idx : List ℕ} (h : InB sh idx) (hp : ∀ p ∈ perm, p < sh.length) :
    InB (perm.map fun p => sh.getD p 0) (perm.map fun p => idx.getD p 0) := by
  induction perm with
  | nil => trivial
  | cons p perm ih =>
    refine ⟨?_, ih fun q hq => hp q (by simp [hq])⟩
    have hps := hp p (by simp)
    clear ih hp
    induction sh generalizing idx p with
    | nil => simp at hps
    | cons n sh ihs =>
      match idx, h with
      | i :: idx, h =>
        cases p with
        | zero => exact h.1
        | succ p => simpa using ihs h.2 p (by simpa using hps)

theorem transposeR_val_map (T : ND K) {perm idx : List ℕ} (hp : perm.Perm (List.range T.rank)) (hl : idx.length = T.rank) :
    (T.transposeR perm).val (perm.map fun p => idx.getD p 0) = T.val idx := by
  have h := ND.val_transposeR_label T perm (List.range T.rank) (fun p => idx.getD p 0) 0 (by simp) (by simpa using hp)
  have e1 : perm.map (fun p => (List.range T.rank).getD p 0) = perm := by
    conv_rhs => rw [← List.map_id perm]
    refine List.map_congr_left fun p hp' => ?_
    have : p < T.rank := by simpa using hp.mem_iff.1 hp'
    simp [this]
  have e2 : (List.range T.rank).map (fun p => idx.getD p 0) = idx := by
    apply List.ext_getElem
    · simp [hl]
    · intro i h1 h2; simp [h2]
  rw [e1, e2] at h
  exact h

/-- **C05**: `group_legs(T, legs)` returns, for a partition of the axes, the array whose entry at the
row-major group indices is the entry of `T`. -/
theorem groupLegs_entries {T : ND K} {legs : List (List ℕ)} (h : AxisPartition legs T.rank) :
    ∃ R pipe, groupLegs T legs = .ok (R, pipe) ∧ R.shape = (legs.map fun leg => (leg.map T.dim).prod) ∧
      ∀ idx, InB T.shape idx →
        R.val (legs.map fun leg => ravel (leg.map T.dim) (leg.map fun p => idx.getD p 0)) = T.val idx := by
  obtain ⟨hne, hp⟩ := h
  have hsz : (T.transposeR legs.flatten).size == (legs.map fun leg => (leg.map T.dim).prod).prod := by
    rw [prod_flatten]; simp [ND.size]
  refine ⟨_, _, by
    unfold groupLegs
    simp only [ND.transpose_ok hp, ok_bind, ND.shape_transposeR, groupShapes_ok legs T.dim hne]
    rw [ND.reshape, if_pos hsz, ok_bind], rfl, fun idx hi => ?_⟩
  show (T.transposeR legs.flatten).val (unravel _ (ravel _ _)) = _
  rw [ravel_groups T.dim (fun p => idx.getD p 0) legs, ND.shape_transposeR, unravel_ravel]
  · exact transposeR_val_map T hp hi.length_eq
  · exact InB_perm_map hi fun p hp' => by simpa [ND.rank] using hp.mem_iff.1 hp'

/-- **C05**: `ungroup_legs(*group_legs(T, legs))` is `T`. -/
theorem ungroup_group {T : ND K} {legs : List (List ℕ)} (h : AxisPartition legs T.rank) :
    ∃ R pipe S, groupLegs T legs = .ok (R, pipe) ∧ ungroupLegs R pipe = .ok S ∧ S ≈ T := by
  obtain ⟨hne, hp⟩ := h
  have hplen : legs.flatten.length = T.rank := by simpa using hp.length_eq
  have hsz : (T.transposeR legs.flatten).size == (legs.map fun leg => (leg.map T.dim).prod).prod := by
    rw [prod_flatten]; simp [ND.size]
  have hp' : legs.flatten.Perm (List.range legs.flatten.length) := by rw [hplen]; exact hp
  obtain ⟨inv, h1, h2, h3⟩ := inverseTranspose_spec hp'
  obtain ⟨i1, i2⟩ := inv_perm hp' h2 h3
  set T' := T.transposeR legs.flatten with hT'
  set ns := (legs.map fun leg => (leg.map T.dim).prod) with hns
  have hsz2 : (T'.reshapeR ns).size == (legs.flatten.map T.dim).prod := by
    rw [← prod_flatten]; simp [ND.size, hns]
  have hr : ((T'.reshapeR ns).reshapeR (legs.flatten.map T.dim)).rank = legs.flatten.length := by
    rw [ND.rank, ND.shape_reshapeR, List.length_map]
  refine ⟨T'.reshapeR ns, (legs.flatten, legs.map fun leg => leg.map T.dim),
    ((T'.reshapeR ns).reshapeR (legs.flatten.map T.dim)).transposeR inv, ?_, ?_, ?_⟩
  · unfold groupLegs
    simp only [ND.transpose_ok hp, ok_bind, ND.shape_transposeR, groupShapes_ok legs T.dim hne]
    rw [ND.reshape, if_pos hsz, ok_bind]
  · unfold ungroupLegs
    have hl : ((legs.map fun leg => leg.map T.dim).length == (T'.reshapeR ns).rank) = true := by
      simp [ND.rank, hns]
    simp only [hl, guardPy_true, ok_bind, ND.shape_reshapeR]
    rw [hns, ungroupShape_ok, ← hns, ND.reshape, if_pos hsz2, ok_bind, h1, ok_bind]
    exact ND.transpose_ok (by rw [hr]; exact i1)
  · -- entries
    have hshape : (((T'.reshapeR ns).reshapeR (legs.flatten.map T.dim)).transposeR inv).shape = T.shape := by
      rw [ND.shape_transposeR]
      apply List.ext_getElem
      · simp [h2, hplen, ND.rank]
      · intro i g1 g2
        have hi : i ∈ legs.flatten := hp.mem_iff.2 (by simpa [ND.rank] using g2)
        obtain ⟨k, hk, rfl⟩ := List.getElem_of_mem hi
        have e := h3 k hk
        have hlt : legs.flatten[k] < inv.length := by simpa using g1
        rw [List.getElem?_eq_getElem hlt] at e
        injection e with e
        rw [List.getElem_map, e]
        have : (((T'.reshapeR ns).reshapeR (legs.flatten.map T.dim))).dim k = T.dim legs.flatten[k] := by
          simp only [ND.dim, ND.shape_reshapeR]
          rw [List.getD_eq_getElem _ _ (by rw [List.length_map]; exact hk), List.getElem_map]
          rfl
        rw [this]
        simp only [ND.dim]
        rw [List.getD_eq_getElem _ _ g2]
    refine ⟨hshape, fun idx hi => ?_⟩
    rw [hshape] at hi
    show ((T'.reshapeR ns).reshapeR (legs.flatten.map T.dim)).val _ = _
    have e1 : (List.range ((T'.reshapeR ns).reshapeR (legs.flatten.map T.dim)).rank).map
        (fun p => idx.getD (inv.idxOf p) 0) = legs.flatten.map fun p => idx.getD p 0 := by
      rw [hr]
      apply List.ext_getElem
      · rw [List.length_map, List.length_map, List.length_range]
      · intro i g1 g2
        have hi' : i < legs.flatten.length := by rw [List.length_map] at g2; exact g2
        simp only [List.getElem_map, List.getElem_range]
        rw [i2 i hi']
    rw [e1]
    show T'.val (unravel T'.shape (ravel ns (unravel ns (ravel (legs.flatten.map T.dim) _)))) = _
    have hb : InB (legs.flatten.map T.dim) (legs.flatten.map fun p => idx.getD p 0) :=
      InB_perm_map hi fun p hp'' => by simpa [ND.rank] using hp.mem_iff.1 hp''
    have hlt := ravel_lt hb
    rw [ravel_unravel (by rw [hns, prod_flatten]; exact hlt), hT', ND.shape_transposeR, unravel_ravel hb]
    exact transposeR_val_map T hp hi.length_eq

/-- `ungroup_legs` refuses a tensor whose rank is not the number of groups. -/
theorem ungroupLegs_rank {T : ND K} {pipe : List ℕ × List (List ℕ)} (h : pipe.2.length ≠ T.rank) :
    ungroupLegs T pipe = .error .valueError := by
  have : (pipe.2.length == T.rank) = false := by simpa using h
  simp [ungroupLegs, this]

/-- a rank 4 array of distinct extents and a partition with a permutation inside a group -/
example : AxisPartition [[2, 0], [3], [1]] (⟨[2, 3, 4, 5], fun idx => idx.sum⟩ : ND ℕ).rank :=
  ⟨by decide, by decide⟩

example : (groupLegs (⟨[2, 3, 4, 5], fun idx => idx.getD 2 0⟩ : ND ℕ) [[2, 0], [3], [1]]).map (fun r => (r.1.shape, r.2)) =
    .ok ([8, 5, 3], ([2, 0, 3, 1], [[4, 2], [5], [3]])) := by decide

end Xmps
