import Verif.Lemmas.LabelSum
import Verif.Model.Ncon

/-! # Contraction and trace in terms of labels -/

namespace Xmps.Ncon

open Finset Function Xmps.Spec

variable {K : Type}

/-! ### positions -/

theorem mem_positions {l : List ℤ} {e : ℤ} {i : ℕ} :
    i ∈ positions l e ↔ ∃ h : i < l.length, l[i] = e := by
  simp only [positions, List.mem_filter, List.mem_range, decide_eq_true_eq]
  constructor
  · rintro ⟨h, he⟩
    rw [List.getD_eq_getElem _ _ h] at he
    exact ⟨h, he⟩
  · rintro ⟨h, he⟩
    rw [List.getD_eq_getElem _ _ h]
    exact ⟨h, he⟩

theorem nodup_positions (l : List ℤ) (e : ℤ) : (positions l e).Nodup := List.nodup_range.filter _

theorem map_getD_range {α : Type} (l : List α) (z : α) :
    (List.range l.length).map (fun i => l.getD i z) = l := by
  apply List.ext_getElem
  · simp
  · intro i h1 h2
    simp only [List.getElem_map, List.getElem_range]
    rw [List.getD_eq_getElem _ _ h2]

theorem length_positions (l : List ℤ) (e : ℤ) : (positions l e).length = l.count e := by
  conv_rhs => rw [← map_getD_range l 0]
  unfold positions
  rw [List.count_eq_countP, List.countP_map, ← List.countP_eq_length_filter]
  congr 1

theorem positions_eq_of_count_one {l : List ℤ} {e : ℤ} (h : l.count e = 1) :
    positions l e = [l.idxOf e] := by
  have hlen : (positions l e).length = 1 := by rw [length_positions, h]
  obtain ⟨a, ha⟩ := List.length_eq_one_iff.1 hlen
  have hm : e ∈ l := List.count_pos_iff.1 (by omega)
  have h2 : l.idxOf e ∈ positions l e :=
    mem_positions.2 ⟨List.idxOf_lt_length_of_mem hm, List.getElem_idxOf _⟩
  rw [ha] at h2 ⊢
  simp at h2
  rw [h2]

theorem getPos_eq {l icon : List ℤ} (h : ∀ e ∈ icon, l.count e = 1) :
    getPos l icon = icon.map (l.idxOf ·) := by
  unfold getPos
  induction icon with
  | nil => rfl
  | cons x xs ih =>
    rw [List.flatMap_cons, ih fun e he => h e (by simp [he]), positions_eq_of_count_one (h x (by simp))]
    rfl

/-- The labels of the axes that are not contracted. -/
theorem map_others {l icon : List ℤ} {ax : List ℕ}
    (hax : ∀ i (h : i < l.length), i ∈ ax ↔ l[i] ∈ icon) :
    (ND.others l.length ax).map (fun i => l.getD i 0) = l.filter (· ∉ icon) := by
  conv_rhs => rw [← map_getD_range l 0]
  rw [List.filter_map]
  congr 1
  unfold ND.others
  apply List.filter_congr
  intro i hi
  have hi' : i < l.length := by simpa using hi
  simp only [Function.comp]
  refine decide_eq_decide.2 ?_
  rw [List.getD_eq_getElem _ _ hi', hax i hi']

theorem mem_pos_iff {l icon : List ℤ} (h : ∀ e ∈ icon, l.count e = 1) (i : ℕ) (hi : i < l.length) :
    i ∈ icon.map (l.idxOf ·) ↔ l[i] ∈ icon := by
  rw [← getPos_eq h]
  unfold getPos
  simp only [List.mem_flatMap, mem_positions]
  constructor
  · rintro ⟨e, he, _, rfl⟩; exact he
  · intro hm; exact ⟨_, hm, hi, rfl⟩

theorem nodup_pos {l icon : List ℤ} (hn : icon.Nodup) (h : ∀ e ∈ icon, e ∈ l) :
    (icon.map (l.idxOf ·)).Nodup := by
  refine (List.nodup_map_iff_inj_on hn).2 ?_
  intro x hx y hy hxy
  have h1 := List.getElem_idxOf (List.idxOf_lt_length_of_mem (h x hx))
  have h2 := List.getElem_idxOf (List.idxOf_lt_length_of_mem (h y hy))
  rw [← h1, ← h2]
  congr 1

theorem lt_pos {l icon : List ℤ} (h : ∀ e ∈ icon, e ∈ l) : ∀ a ∈ icon.map (l.idxOf ·), a < l.length := by
  intro a ha
  obtain ⟨e, he, rfl⟩ := List.mem_map.1 ha
  exact List.idxOf_lt_length_of_mem (h e he)

theorem getD_pos {l icon : List ℤ} (h : ∀ e ∈ icon, e ∈ l) :
    (icon.map (l.idxOf ·)).map (fun i => l.getD i 0) = icon := by
  rw [List.map_map]
  conv_rhs => rw [← List.map_id icon]
  apply List.map_congr_left
  intro e he
  simp only [Function.comp, id]
  rw [List.getD_eq_getElem _ _ (List.idxOf_lt_length_of_mem (h e he)), List.getElem_idxOf]

theorem dim_getD {A : ND K} {l : List ℤ} {dim : ℤ → ℕ} (hA : A.shape = l.map dim) {i : ℕ}
    (hi : i < l.length) : A.dim i = dim (l.getD i 0) := by
  unfold ND.dim
  rw [hA, List.getD_eq_getElem _ _ (by simpa using hi), List.getD_eq_getElem _ _ hi]
  simp

theorem map_dim {A : ND K} {l : List ℤ} {dim : ℤ → ℕ} (hA : A.shape = l.map dim) {ax : List ℕ}
    (hax : ∀ a ∈ ax, a < l.length) : ax.map A.dim = (ax.map (fun i => l.getD i 0)).map dim := by
  rw [List.map_map]
  exact List.map_congr_left fun a ha => dim_getD hA (hax a ha)

theorem rank_eq {A : ND K} {l : List ℤ} {dim : ℤ → ℕ} (hA : A.shape = l.map dim) : A.rank = l.length := by
  unfold ND.rank; rw [hA]; simp

/-- Contraction of two labelled tensors over the labels `icon`. -/
theorem tensordot_label [CommSemiring K] {A B : ND K} {v w icon : List ℤ} {dim : ℤ → ℕ}
    (hA : A.shape = v.map dim) (hB : B.shape = w.map dim) (hn : icon.Nodup)
    (hv : ∀ e ∈ icon, v.count e = 1) (hw : ∀ e ∈ icon, w.count e = 1) :
    ∃ C, A.tensordot B (getPos v icon) (getPos w icon) = .ok C ∧
      C.shape = (findNewv (v ++ w) icon).map dim ∧
      ∀ ρ, C.val ((findNewv (v ++ w) icon).map ρ) =
        labelSum icon dim (fun ρ => A.val (v.map ρ) * B.val (w.map ρ)) ρ := by
  have hvm : ∀ e ∈ icon, e ∈ v := fun e he => List.count_pos_iff.1 (by rw [hv e he]; exact Nat.one_pos)
  have hwm : ∀ e ∈ icon, e ∈ w := fun e he => List.count_pos_iff.1 (by rw [hw e he]; exact Nat.one_pos)
  have hrA : A.rank = v.length := rank_eq hA
  have hrB : B.rank = w.length := rank_eq hB
  rw [getPos_eq hv, getPos_eq hw]
  have e1 : (icon.map (v.idxOf ·)).map A.dim = icon.map dim := by
    rw [map_dim hA (lt_pos hvm), getD_pos hvm]
  have e2 : (icon.map (w.idxOf ·)).map B.dim = icon.map dim := by
    rw [map_dim hB (lt_pos hwm), getD_pos hwm]
  have o1 := map_others (mem_pos_iff hv)
  have o2 := map_others (mem_pos_iff hw)
  have hnew : findNewv (v ++ w) icon = v.filter (· ∉ icon) ++ w.filter (· ∉ icon) := by
    simp [findNewv]
  refine ⟨A.tensordotR B (icon.map (v.idxOf ·)) (icon.map (w.idxOf ·)), ?_, ?_, ?_⟩
  · unfold ND.tensordot
    have c1 : (icon.map (v.idxOf ·)).all (· < A.rank) = true := by
      simp only [List.all_eq_true, decide_eq_true_eq, hrA]; exact lt_pos hvm
    have c2 : (icon.map (w.idxOf ·)).all (· < B.rank) = true := by
      simp only [List.all_eq_true, decide_eq_true_eq, hrB]; exact lt_pos hwm
    rw [c1, c2, e1, e2]
    simp [nodup_pos hn hvm, nodup_pos hn hwm]
  · unfold ND.tensordotR
    simp only
    rw [hrA, hrB, hnew, List.map_append, ← o1, ← o2,
      map_dim hA (fun a ha => (ND.mem_others.1 ha).1), map_dim hB (fun a ha => (ND.mem_others.1 ha).1)]
  · intro ρ
    have hlen : (ND.others v.length (icon.map (v.idxOf ·))).length = ((v.filter (· ∉ icon)).map ρ).length := by
      rw [← o1]; simp
    unfold ND.tensordotR
    simp only
    rw [hrA, hrB, hnew, e1, labelSum_eq_sumIdx, List.map_append, hlen, List.take_left, List.drop_left]
    refine sumIdx_congr fun ks hks => ?_
    have hkl : ks.length = icon.length := by simpa using hks.length_eq
    have hk := map_updates ρ icon ks hn hkl
    have hd1 : (v.filter (· ∉ icon)).map ρ = (v.filter (· ∉ icon)).map (updates ρ icon ks) :=
      (map_updates_disjoint _ _ _ _ (by intro x hx; simpa using (List.mem_filter.1 hx).2)).symm
    have hd2 : (w.filter (· ∉ icon)).map ρ = (w.filter (· ∉ icon)).map (updates ρ icon ks) :=
      (map_updates_disjoint _ _ _ _ (by intro x hx; simpa using (List.mem_filter.1 hx).2)).symm
    have p1 := ND.others_append_perm (nodup_pos hn hvm) (lt_pos hvm)
    have p2 := ND.append_others_perm (nodup_pos hn hwm) (lt_pos hwm)
    have t1 := ND.val_transposeR_label A _ v (updates ρ icon ks) 0 hrA p1
    have t2 := ND.val_transposeR_label B _ w (updates ρ icon ks) 0 hrB p2
    rw [List.map_append, o1, getD_pos hvm, List.map_append, hk, ← hd1] at t1
    rw [List.map_append, o2, getD_pos hwm, List.map_append, hk, ← hd2] at t2
    rw [t1, t2]

theorem positions_count_two {l : List ℤ} {x : ℤ} (h : l.count x = 2) :
    ∃ a b, positions l x = [a, b] ∧ a ≠ b ∧ a < l.length ∧ b < l.length := by
  have hlen : (positions l x).length = 2 := by rw [length_positions, h]
  obtain ⟨a, b, hab⟩ := List.length_eq_two.1 hlen
  have hnd := nodup_positions l x
  have ha : a ∈ positions l x := by rw [hab]; simp
  have hb : b ∈ positions l x := by rw [hab]; simp
  rw [hab] at hnd
  exact ⟨a, b, hab, by simpa using hnd, (mem_positions.1 ha).1, (mem_positions.1 hb).1⟩

/-- Trace of a labelled tensor over a label that it carries twice. -/
theorem trace_label [CommSemiring K] {A : ND K} {v : List ℤ} {x : ℤ} {dim : ℤ → ℕ}
    (hA : A.shape = v.map dim) (hv : v.count x = 2) :
    ∃ a b C, getPos v [x] = [a, b] ∧ A.trace a b = .ok C ∧
      C.shape = (findNewv v [x]).map dim ∧
      ∀ ρ, C.val ((findNewv v [x]).map ρ) = labelSum [x] dim (fun ρ => A.val (v.map ρ)) ρ := by
  obtain ⟨a, b, hab, hne, ha, hb⟩ := positions_count_two hv
  have hrA : A.rank = v.length := rank_eq hA
  have hax : ∀ i (h : i < v.length), i ∈ [a, b] ↔ v[i] ∈ [x] := by
    intro i hi
    rw [← hab, mem_positions]
    simp [hi]
  have o1 := map_others hax
  have hga : v.getD a 0 = x := by
    have : a ∈ positions v x := by rw [hab]; simp
    obtain ⟨h, e⟩ := mem_positions.1 this
    rw [List.getD_eq_getElem _ _ h, e]
  have hgb : v.getD b 0 = x := by
    have : b ∈ positions v x := by rw [hab]; simp
    obtain ⟨h, e⟩ := mem_positions.1 this
    rw [List.getD_eq_getElem _ _ h, e]
  refine ⟨a, b, A.traceR a b, ?_, ?_, ?_, ?_⟩
  · simp [getPos, hab]
  · simp [ND.trace, hrA, ha, hb, hne]
  · unfold ND.traceR findNewv
    simp only
    rw [hrA, ← o1, map_dim hA (fun a ha => (ND.mem_others.1 ha).1)]
  · intro ρ
    unfold ND.traceR findNewv
    simp only [labelSum]
    rw [dim_getD hA ha, dim_getD hA hb, hga, hgb, min_self, hrA]
    refine Finset.sum_congr rfl fun k _ => ?_
    have p1 := ND.others_append_perm (n := v.length) (ax := [a, b]) (by simpa using hne)
      (by simp [ha, hb])
    have t1 := ND.val_transposeR_label A _ v (update ρ x k) 0 hrA p1
    rw [List.map_append, o1, List.map_append] at t1
    rw [← t1]
    congr 2
    · rw [map_update_not_mem]
      simp
    · simp only [List.map_cons, hga, hgb, update_self, List.map_nil]

end Xmps.Ncon
