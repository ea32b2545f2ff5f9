import Verif.Lemmas.NconConnect
import Mathlib.Data.List.Forall2
import Mathlib.Data.List.Dedup
import Mathlib.Data.List.Sort

/-! # `do_check_indices`, `create_order`, `create_forder`, `permute_final` -/

namespace Xmps.Ncon

open Function Xmps.Spec

variable {K : Type}

theorem mem_occurrences {v : List (List ℤ)} {e : ℤ} {i j : ℕ} :
    (i, j) ∈ occurrences v e ↔ ∃ (h : i < v.length) (h' : j < v[i].length), v[i][j] = e := by
  simp only [occurrences, List.mem_flatMap, List.mem_range, List.mem_map, mem_positions, Prod.mk.injEq]
  constructor
  · rintro ⟨i', hi', j', ⟨h, h'⟩, rfl, rfl⟩
    have e' : v.getD i' [] = v[i'] := List.getD_eq_getElem _ _ hi'
    simp only [e'] at h h'
    exact ⟨hi', h, h'⟩
  · rintro ⟨hi, hj, h⟩
    have e' : v.getD i [] = v[i] := List.getD_eq_getElem _ _ hi
    exact ⟨i, hi, j, ⟨by rw [e']; exact hj, by simp only [e']; exact h⟩, rfl, rfl⟩

theorem length_occurrences (v : List (List ℤ)) (e : ℤ) :
    (occurrences v e).length = v.flatten.count e := by
  unfold occurrences
  rw [List.length_flatMap, List.count_flatten]
  congr 1
  conv_rhs => rw [← map_getD_range v []]
  rw [List.map_map]
  apply List.map_congr_left
  intro i _
  simp only [List.length_map, length_positions, Function.comp]

/-- All legs with label `e` have the same extent. -/
def SameExtent (AA : List (ND K)) (v : List (List ℤ)) (e : ℤ) : Prop :=
  ∀ p ∈ occurrences v e, ∀ q ∈ occurrences v e,
    (AA[p.1]?).map (fun A => A.dim p.2) = (AA[q.1]?).map (fun A => A.dim q.2)

theorem checkContracted_cases {AA : List (ND K)} {v : List (List ℤ)} (hl : AA.length = v.length)
    (hr : ∀ i (h : i < v.length), v[i].length = (AA[i]'(hl ▸ h)).rank) (e : ℤ) :
    ((v.flatten.count e = 2 ∧ SameExtent AA v e) ∧ checkContracted AA v e = .ok ()) ∨
    (¬ (v.flatten.count e = 2 ∧ SameExtent AA v e) ∧ checkContracted AA v e = .error .valueError) := by
  by_cases hc : v.flatten.count e = 2
  · have hlen := length_occurrences v e
    rw [hc] at hlen
    obtain ⟨⟨a0, i0⟩, ⟨a1, i1⟩, hocc⟩ := List.length_eq_two.1 hlen
    have m0 : (a0, i0) ∈ occurrences v e := by rw [hocc]; simp
    have m1 : (a1, i1) ∈ occurrences v e := by rw [hocc]; simp
    obtain ⟨ha0, hi0, _⟩ := mem_occurrences.1 m0
    obtain ⟨ha1, hi1, _⟩ := mem_occurrences.1 m1
    have hA0 : a0 < AA.length := by omega
    have hA1 : a1 < AA.length := by omega
    have hI0 : i0 < AA[a0].shape.length := by rw [hr a0 ha0] at hi0; exact hi0
    have hI1 : i1 < AA[a1].shape.length := by rw [hr a1 ha1] at hi1; exact hi1
    have hd0 : AA[a0].dim i0 = AA[a0].shape[i0] := List.getD_eq_getElem _ _ hI0
    have hd1 : AA[a1].dim i1 = AA[a1].shape[i1] := List.getD_eq_getElem _ _ hI1
    have hS : SameExtent AA v e ↔ AA[a0].shape[i0] = AA[a1].shape[i1] := by
      unfold SameExtent
      rw [hocc]
      constructor
      · intro h
        have := h (a0, i0) (by simp) (a1, i1) (by simp)
        simpa [hA0, hA1, hd0, hd1] using this
      · intro h p hp q hq
        have : ∀ p ∈ [(a0, i0), (a1, i1)], (AA[p.1]?).map (fun A => A.dim p.2) = some AA[a0].shape[i0] := by
          intro p hp
          rcases List.mem_cons.1 hp with rfl | hp
          · simp [hA0, hd0]
          · rw [List.mem_singleton.1 hp]
            simp [hA1, hd1, h]
        rw [this p hp, this q hq]
    rw [hS]
    unfold checkContracted
    rw [hocc]
    simp only [pyGet_ok hA0, pyGet_ok hA1, ok_bind, pyGet_ok hI0, pyGet_ok hI1]
    by_cases h : AA[a0].shape[i0] = AA[a1].shape[i1]
    · left; simp [hc, h]
    · right; simp [h]
  · right
    refine ⟨fun h => hc h.1, ?_⟩
    have hlen := length_occurrences v e
    unfold checkContracted
    split
    · next h => rw [h] at hlen; simp at hlen; omega
    · rfl

theorem forM_cases {α : Type} {P : α → Prop} {f : α → Py Unit} {er : PyErr} (l : List α)
    (h : ∀ x ∈ l, (P x ∧ f x = .ok ()) ∨ (¬ P x ∧ f x = .error er)) :
    ((∀ x ∈ l, P x) ∧ l.forM f = .ok ()) ∨ (¬ (∀ x ∈ l, P x) ∧ l.forM f = .error er) := by
  induction l with
  | nil => left; simp
  | cons a l ih =>
    have e0 : (a :: l).forM f = (f a >>= fun _ => l.forM f) := rfl
    rw [e0]
    rcases h a (by simp) with ⟨h1, h2⟩ | ⟨h1, h2⟩
    · rw [h2]
      rcases ih (fun x hx => h x (by simp [hx])) with ⟨h3, h4⟩ | ⟨h3, h4⟩
      · left
        refine ⟨?_, by simpa using h4⟩
        intro x hx
        rcases List.mem_cons.1 hx with rfl | hx
        · exact h1
        · exact h3 x hx
      · right
        exact ⟨fun h' => h3 fun x hx => h' x (by simp [hx]), by simpa using h4⟩
    · right
      rw [h2]
      exact ⟨fun h' => h1 (h' a (by simp)), by simp⟩

/-- What `do_check_indices` checks. -/
def Checked (AA : List (ND K)) (v : List (List ℤ)) (order forder : List ℤ) : Prop :=
  List.Forall₂ (fun (A : ND K) (l : List ℤ) => A.rank = l.length) AA v ∧
  (∀ e ∈ order, v.flatten.count e = 2 ∧ SameExtent AA v e) ∧ ∀ e ∈ forder, v.flatten.count e = 1

theorem forall2_rank_iff {AA : List (ND K)} {v : List (List ℤ)} (hl : AA.length = v.length) :
    List.Forall₂ (fun (A : ND K) (l : List ℤ) => A.rank = l.length) AA v ↔
      ∀ i ∈ List.range v.length, (v.getD i []).length = (AA[i]?.map ND.rank).getD 0 := by
  rw [List.forall₂_iff_get]
  constructor
  · rintro ⟨_, h⟩ i hi
    have hi := List.mem_range.1 hi
    have := h i (by omega) hi
    rw [List.getD_eq_getElem _ _ hi, List.getElem?_eq_getElem (by omega)]
    simpa using this.symm
  · intro h
    refine ⟨hl, fun i h1 h2 => ?_⟩
    have := h i (List.mem_range.2 h2)
    rw [List.getD_eq_getElem _ _ h2, List.getElem?_eq_getElem h1] at this
    simpa using this.symm

theorem doCheckIndices_cases (AA : List (ND K)) (v : List (List ℤ)) (order forder : List ℤ) :
    (Checked AA v order forder ∧ doCheckIndices AA v order forder = .ok ()) ∨
    (¬ Checked AA v order forder ∧ doCheckIndices AA v order forder = .error .valueError) := by
  by_cases hl : AA.length = v.length
  · have hb : (AA.length == v.length) = true := by simpa using hl
    unfold doCheckIndices
    rw [hb, guardPy_true, ok_bind]
    have h1 := forM_cases (P := fun i => (v.getD i []).length = (AA[i]?.map ND.rank).getD 0)
      (f := fun i => (do
        let l ← pyGet v i
        let A ← pyGet AA i
        guardPy (l.length == A.rank) .valueError)) (er := .valueError) (List.range v.length) (by
        intro i hi
        have hi := List.mem_range.1 hi
        have hi' : i < AA.length := by omega
        simp only [pyGet_ok hi, pyGet_ok hi', ok_bind]
        rw [List.getD_eq_getElem _ _ hi, List.getElem?_eq_getElem hi']
        simp only [Option.map_some, Option.getD_some]
        by_cases h : v[i].length = AA[i].rank
        · left; simp [h]
        · right; simp [h, guardPy])
    rcases h1 with ⟨h1, h2⟩ | ⟨h1, h2⟩
    · rw [h2, ok_bind]
      have hF := (forall2_rank_iff hl).2 h1
      have hr : ∀ i (h : i < v.length), v[i].length = (AA[i]'(hl ▸ h)).rank := by
        intro i h
        have := (List.forall₂_iff_get.1 hF).2 i (by omega) h
        simpa using this.symm
      have h3 := forM_cases (P := fun e => v.flatten.count e = 2 ∧ SameExtent AA v e)
        (f := fun e => checkContracted AA v e) (er := .valueError) order
        (fun e _ => checkContracted_cases hl hr e)
      rcases h3 with ⟨h3, h4⟩ | ⟨h3, h4⟩
      · rw [h4, ok_bind]
        have h5 := forM_cases (P := fun e => v.flatten.count e = 1)
          (f := fun e => guardPy (v.flatten.count e == 1) .valueError) (er := .valueError) forder (by
            intro e _
            by_cases h : v.flatten.count e = 1
            · left; simp [h]
            · right; simp [h, guardPy])
        rcases h5 with ⟨h5, h6⟩ | ⟨h5, h6⟩
        · left; exact ⟨⟨hF, h3, h5⟩, h6⟩
        · right; exact ⟨fun h => h5 h.2.2, h6⟩
      · right
        exact ⟨fun h => h3 h.2.1, by rw [h4]; rfl⟩
    · right
      exact ⟨fun h => h1 ((forall2_rank_iff hl).1 h.1), by rw [h2]; rfl⟩
  · right
    refine ⟨fun h => hl h.1.length_eq, ?_⟩
    have hb : (AA.length == v.length) = false := by simpa using hl
    unfold doCheckIndices
    rw [hb]; rfl

theorem forall2_shape_get {AA : List (ND K)} {v : List (List ℤ)} {dim : ℤ → ℕ}
    (h : List.Forall₂ (fun (A : ND K) (l : List ℤ) => A.shape = l.map dim) AA v) {i : ℕ}
    (hi : i < v.length) : ∃ A, AA[i]? = some A ∧ A.shape = v[i].map dim := by
  have hl := h.length_eq
  refine ⟨AA[i], List.getElem?_eq_getElem (by omega), ?_⟩
  simpa using (List.forall₂_iff_get.1 h).2 i (by omega) hi

theorem checked_of_shapes {AA : List (ND K)} {v : List (List ℤ)} {dim : ℤ → ℕ} {order forder : List ℤ}
    (h : List.Forall₂ (fun (A : ND K) (l : List ℤ) => A.shape = l.map dim) AA v)
    (h2 : ∀ e ∈ order, v.flatten.count e = 2) (h1 : ∀ e ∈ forder, v.flatten.count e = 1) :
    Checked AA v order forder := by
  refine ⟨h.imp fun A l hA => by simp [ND.rank, hA], fun e he => ⟨h2 e he, ?_⟩, h1⟩
  have : ∀ p ∈ occurrences v e, (AA[p.1]?).map (fun A => A.dim p.2) = some (dim e) := by
    rintro ⟨i, j⟩ hp
    obtain ⟨hi, hj, he⟩ := mem_occurrences.1 hp
    obtain ⟨A, hA, hs⟩ := forall2_shape_get h hi
    simp only [hA, Option.map_some]
    rw [dim_getD hs hj, List.getD_eq_getElem _ _ hj, he]
  intro p hp q hq
  rw [this p hp, this q hq]

/-- If the check passes and all labels are listed, the extents define a dimension per label. -/
theorem shapes_of_checked {AA : List (ND K)} {v : List (List ℤ)} {order forder : List ℤ}
    (h : Checked AA v order forder) (hall : ∀ x ∈ v.flatten, x ∈ order ∨ x ∈ forder) :
    ∃ dim : ℤ → ℕ, List.Forall₂ (fun (A : ND K) (l : List ℤ) => A.shape = l.map dim) AA v := by
  obtain ⟨hF, h2, h1⟩ := h
  have hl := hF.length_eq
  -- equal extents for all labels
  have hsame : ∀ x ∈ v.flatten, SameExtent AA v x := by
    intro x hx
    rcases hall x hx with h | h
    · exact (h2 x h).2
    · have hlen := length_occurrences v x
      rw [h1 x h] at hlen
      obtain ⟨p, hp⟩ := List.length_eq_one_iff.1 hlen
      intro a ha b hb
      rw [hp] at ha hb
      rw [List.mem_singleton.1 ha, List.mem_singleton.1 hb]
  let dim : ℤ → ℕ := fun x =>
    match occurrences v x with
    | [] => 0
    | p :: _ => ((AA[p.1]?).map (fun A : ND K => A.dim p.2)).getD 0
  refine ⟨dim, ?_⟩
  rw [List.forall₂_iff_get]
  refine ⟨hl, fun i hi hi' => ?_⟩
  have hr := (List.forall₂_iff_get.1 hF).2 i hi hi'
  simp only [List.get_eq_getElem] at hr ⊢
  apply List.ext_getElem
  · simpa [ND.rank] using hr
  · intro j hj hj'
    have hjv : j < v[i].length := by simpa using hj'
    rw [List.getElem_map]
    have hmem : (i, j) ∈ occurrences v v[i][j] := mem_occurrences.2 ⟨hi', hjv, rfl⟩
    have hx : v[i][j] ∈ v.flatten :=
      List.mem_flatten.2 ⟨v[i], List.getElem_mem hi', List.getElem_mem hjv⟩
    show _ = (match occurrences v v[i][j] with
      | [] => 0
      | p :: _ => ((AA[p.1]?).map (fun A : ND K => A.dim p.2)).getD 0)
    have hs := hsame _ hx
    cases hocc : occurrences v v[i][j] with
    | nil => rw [hocc] at hmem; simp at hmem
    | cons p t =>
      have := hs (i, j) hmem p (by rw [hocc]; simp)
      simp only [← this, List.getElem?_eq_getElem hi, Option.map_some, Option.getD_some]
      exact (List.getD_eq_getElem _ _ hj).symm

theorem mem_createOrder {v : List (List ℤ)} {x : ℤ} :
    x ∈ createOrder v ↔ x ∈ v.flatten ∧ 0 < x := by
  unfold createOrder
  rw [List.mem_mergeSort, List.mem_dedup, List.mem_filter, decide_eq_true_eq]

theorem mem_createForder {v : List (List ℤ)} {x : ℤ} :
    x ∈ createForder v ↔ x ∈ v.flatten ∧ x < 0 := by
  unfold createForder
  rw [List.mem_mergeSort, List.mem_dedup, List.mem_filter, decide_eq_true_eq]

theorem nodup_createOrder (v : List (List ℤ)) : (createOrder v).Nodup := by
  unfold createOrder
  rw [(List.mergeSort_perm _ _).nodup_iff]
  exact List.nodup_dedup _

theorem nodup_createForder (v : List (List ℤ)) : (createForder v).Nodup := by
  unfold createForder
  rw [(List.mergeSort_perm _ _).nodup_iff]
  exact List.nodup_dedup _

theorem good_iff_checked {AA : List (ND K)} {v : List (List ℤ)} (hz : ∀ x ∈ v.flatten, x ≠ 0) :
    GoodNetwork AA v ↔ Checked AA v (createOrder v) (createForder v) := by
  constructor
  · rintro ⟨⟨dim, hd⟩, hc⟩
    refine checked_of_shapes hd ?_ ?_
    · intro e he
      obtain ⟨h1, h2⟩ := mem_createOrder.1 he
      rcases hc e h1 with h | h
      · exact h.2
      · omega
    · intro e he
      obtain ⟨h1, h2⟩ := mem_createForder.1 he
      rcases hc e h1 with h | h
      · omega
      · exact h.2
  · intro h
    refine ⟨shapes_of_checked h ?_, ?_⟩
    · intro x hx
      rcases lt_or_gt_of_ne (hz x hx) with h' | h'
      · exact Or.inr (mem_createForder.2 ⟨hx, h'⟩)
      · exact Or.inl (mem_createOrder.2 ⟨hx, h'⟩)
    · intro x hx
      rcases lt_or_gt_of_ne (hz x hx) with h' | h'
      · exact Or.inr ⟨h', h.2.2 x (mem_createForder.2 ⟨hx, h'⟩)⟩
      · exact Or.inl ⟨h', (h.2.1 x (mem_createOrder.2 ⟨hx, h'⟩)).1⟩

theorem GoodNetwork.wellLabelled {AA : List (ND K)} {v : List (List ℤ)} (hne : v ≠ [])
    (h : GoodNetwork AA v) : ∃ dim, WellLabelled AA v dim (createOrder v) (createForder v) := by
  obtain ⟨⟨dim, hd⟩, hc⟩ := h
  refine ⟨dim, ?_, hd, fun x hx => (mem_createOrder.1 hx).2, fun x hx => (mem_createForder.1 hx).2,
    nodup_createOrder v, nodup_createForder v, ?_, ?_, ?_⟩
  · rintro rfl
    have := hd.length_eq
    exact hne (List.length_eq_zero_iff.1 this.symm)
  · intro e he
    obtain ⟨h1, h2⟩ := mem_createOrder.1 he
    rcases hc e h1 with h | h
    · exact h.2
    · omega
  · intro e he
    obtain ⟨h1, h2⟩ := mem_createForder.1 he
    rcases hc e h1 with h | h
    · omega
    · exact h.2
  · intro x hx
    rcases hc x hx with h | h
    · exact Or.inl (mem_createOrder.2 ⟨hx, h.1⟩)
    · exact Or.inr (mem_createForder.2 ⟨hx, h.1⟩)

theorem mapM_indexOf {l F : List ℤ} (h : ∀ x ∈ F, x ∈ l) :
    F.mapM (indexOf l) = .ok (F.map (l.idxOf ·)) := by
  induction F with
  | nil => rfl
  | cons a F ih =>
    rw [List.mapM_cons, ih (fun x hx => h x (by simp [hx]))]
    simp [indexOf, h a (by simp)]

theorem permuteFinal_spec {A : ND K} {l F : List ℤ} {dim : ℤ → ℕ} (hA : A.shape = l.map dim)
    (hp : l.Perm F) (hn : F.Nodup) :
    ∃ R, permuteFinal A l F = .ok R ∧ R.shape = F.map dim ∧ ∀ ρ, R.val (F.map ρ) = A.val (l.map ρ) := by
  have hmem : ∀ x ∈ F, x ∈ l := fun x hx => hp.mem_iff.2 hx
  have hr : A.rank = l.length := rank_eq hA
  have hperm : (F.map (l.idxOf ·)).Perm (List.range l.length) := by
    have hnd : (F.map (l.idxOf ·)).Nodup := nodup_pos hn hmem
    refine (List.subperm_of_subset hnd ?_).perm_of_length_le (by simp [hp.length_eq])
    intro x hx
    exact List.mem_range.2 (lt_pos hmem x hx)
  refine ⟨A.transposeR (F.map (l.idxOf ·)), ?_, ?_, ?_⟩
  · unfold permuteFinal
    rw [mapM_indexOf hmem, ok_bind, ND.transpose_ok (by rw [hr]; exact hperm)]
  · show (F.map (l.idxOf ·)).map A.dim = _
    rw [map_dim hA (lt_pos hmem), getD_pos hmem]
  · intro ρ
    have := ND.val_transposeR_label A (F.map (l.idxOf ·)) l ρ 0 hr hperm
    rwa [getD_pos hmem] at this

theorem netTerm_eq_term [CommMonoid K] (N : List (LT K)) (ρ : ℤ → ℕ) :
    netTerm (N.map Prod.fst) (N.map Prod.snd) ρ = term N ρ := by
  unfold netTerm term
  congr 1
  induction N with
  | nil => rfl
  | cons p N ih => simp only [List.map_cons, List.zipWith_cons_cons, ih]

theorem WellLabelled.net {AA : List (ND K)} {v : List (List ℤ)} {dim : ℤ → ℕ} {P F : List ℤ}
    (h : WellLabelled AA v dim P F) :
    ∃ N : List (LT K), N.map Prod.fst = AA ∧ N.map Prod.snd = v ∧ Inv0 N P F dim := by
  have hl := h.shapes.length_eq
  refine ⟨AA.zip v, by rw [List.map_fst_zip hl.le], by rw [List.map_snd_zip hl.ge], ?_⟩
  have hv : labs (AA.zip v) = v.flatten := by
    unfold labs
    rw [List.flatMap_def, List.map_snd_zip hl.ge]
  refine ⟨?_, ?_, h.nodupP, ?_, ?_, ?_⟩
  · intro e
    have : (AA.zip v).length = 0 := by rw [e]; rfl
    rw [List.length_zip, ← hl, min_self] at this
    exact h.nonempty (List.length_eq_zero_iff.1 this)
  · rintro ⟨A, l⟩ hp
    exact List.forall₂_zip h.shapes hp
  · rw [hv]; exact h.twice
  · rw [hv]
    intro x hx hxP
    rcases h.only x hx with h' | h'
    · exact absurd h' hxP
    · exact h.once x h'
  · rw [hv]
    intro x
    constructor
    · rintro ⟨hx, hxP⟩
      exact (h.only x hx).resolve_left hxP
    · intro hx
      have h1 := h.once x hx
      refine ⟨List.count_pos_iff.1 (by omega), fun hP => ?_⟩
      have := h.twice x hP
      omega

/-- Everything after the check, for a well-labelled network. -/
theorem nconBody_spec [CommSemiring K] (O : SetOrder) {AA : List (ND K)} {v : List (List ℤ)} {dim : ℤ → ℕ}
    {P F : List ℤ} (h : WellLabelled AA v dim P F) (check : Bool) :
    ∃ R P', nconBody O AA v P F check = .ok (R, P') ∧
      (P <+: P' ∧ (P' = P ↔ Connected v) ∧ (∀ x ∈ P', 0 < x) ∧ P'.Nodup) ∧ R.shape = F.map dim ∧
      ∀ ρ, R.val (F.map ρ) = labelSum P dim (netTerm AA v) ρ := by
  obtain ⟨N, hN1, hN2, hI⟩ := WellLabelled.net h
  obtain ⟨N', P', dim', hcg, hI', hdim, hpre, ⟨hcon, hpos'⟩, hsum⟩ := connectGraph_spec O hI h.posP h.negF
  obtain ⟨A, l, hml, hIA, hval⟩ := mainLoop_spec O P'.length le_rfl hI'
  have hAs : A.shape = l.map dim' := hIA.shapes (A, l) (by simp)
  have hlF : l.Perm F := by
    have hnd : l.Nodup := by
      rw [List.nodup_iff_count_le_one]
      intro x
      by_cases hx : x ∈ l
      · have := hIA.once x (by simpa [labs] using hx) (by simp)
        simp [labs] at this
        omega
      · simp [List.count_eq_zero.2 hx]
    rw [List.perm_ext_iff_of_nodup hnd h.nodupF]
    intro x
    have := hIA.free x
    simpa [labs] using this
  obtain ⟨R, hR, hRs, hRv⟩ := permuteFinal_spec hAs hlF h.nodupF
  refine ⟨R, P', ?_, ⟨hpre, by rw [hcon, hN2], hpos', hI'.nodup⟩, ?_, ?_⟩
  · have hchk : (if check = true then doCheckIndices AA v P F else pure PUnit.unit) = .ok () := by
      cases check
      · rfl
      · rcases doCheckIndices_cases AA v P F with h' | h'
        · simpa using h'.2
        · exact absurd (checked_of_shapes h.shapes h.twice h.once) h'.1
    unfold nconBody
    rw [hN1, hN2] at hcg
    have e : ∀ (f : Unit → Py (ND K × List ℤ)),
        ((if check = true then doCheckIndices AA v P F else pure PUnit.unit) >>= f) = f () := by
      intro f; rw [hchk]; rfl
    cases check
    · simp only [Bool.false_eq_true, if_false, hcg, ok_bind, hml, pyGet_cons_zero, hR]
    · simp only [if_true] at hchk
      simp only [if_true, hchk, hcg, ok_bind, hml, pyGet_cons_zero, hR]
  · rw [hRs]; exact List.map_congr_left hdim
  · intro ρ
    rw [hRv, hval, hsum]
    exact labelSum_congr _ _ (fun ρ => by rw [← netTerm_eq_term, hN1, hN2]) _

end Xmps.Ncon
