import Verif.Lemmas.NconLoop
import Mathlib.Logic.Relation
import Mathlib.Data.Finset.Card

/-! # `connect_graph` makes the network connected and keeps its value -/

namespace Xmps.Ncon

open Finset Function Xmps.Spec

variable {K : Type}

/-- Tensors `i` and `j` have a common label. -/
def share (v : List (List ℤ)) (i j : ℕ) : Prop := ∃ x ∈ v.getD i [], x ∈ v.getD j []

/-- Connected by a chain of common labels. -/
abbrev Reach (v : List (List ℤ)) : ℕ → ℕ → Prop := Linked v

theorem share_symm {v : List (List ℤ)} {i j : ℕ} (h : share v i j) : share v j i := by
  obtain ⟨x, h1, h2⟩ := h; exact ⟨x, h2, h1⟩

theorem mem_neighs {v : List (List ℤ)} {i j : ℕ} (hi : i < v.length) :
    j ∈ neighs v v[i] ↔ j < v.length ∧ share v i j := by
  simp only [neighs, List.mem_filter, List.mem_range, List.any_eq_true, decide_eq_true_eq, share]
  rw [List.getD_eq_getElem _ _ hi]

theorem mem_visit_fold (l : List ℕ) (vis t : Finset ℕ) (x : ℕ) :
    x ∈ l.foldl (fun t j => if j ∈ vis then t else insert j t) t ↔ x ∈ t ∨ (x ∈ l ∧ x ∉ vis) := by
  induction l generalizing t with
  | nil => simp
  | cons a l ih =>
    rw [List.foldl_cons, ih]
    by_cases ha : a ∈ vis
    · simp only [ha, if_true, List.mem_cons]
      constructor
      · rintro (h | h)
        · exact Or.inl h
        · exact Or.inr ⟨Or.inr h.1, h.2⟩
      · rintro (h | ⟨h | h, h'⟩)
        · exact Or.inl h
        · subst h; exact absurd ha h'
        · exact Or.inr ⟨h, h'⟩
    · simp only [ha, if_false, List.mem_cons, Finset.mem_insert]
      constructor
      · rintro ((h | h) | h)
        · subst h; exact Or.inr ⟨Or.inl rfl, ha⟩
        · exact Or.inl h
        · exact Or.inr ⟨Or.inr h.1, h.2⟩
      · rintro (h | ⟨h | h, h'⟩)
        · exact Or.inl (Or.inr h)
        · exact Or.inl (Or.inl h)
        · exact Or.inr ⟨h, h'⟩

/-- The inner loop collects a set `D` of new tensors, all reachable from `s`. -/
theorem innerLoop_spec (O : SetOrder) (v : List (List ℤ)) (s : ℕ) :
    ∀ (fuel : ℕ) (un vis comp tv : Finset ℕ),
    ((range v.length) \ vis).card ≤ fuel → tv ⊆ range v.length → Disjoint tv vis →
    (∀ j ∈ tv, Reach v s j) →
    ∃ D, innerLoop O v fuel un vis comp tv = .ok (un \ D, vis ∪ D, comp ∪ D) ∧ Disjoint D vis ∧
      tv ⊆ D ∧ D ⊆ range v.length ∧ (∀ j ∈ D, Reach v s j) ∧
      ∀ i ∈ D, ∀ j < v.length, share v i j → j ∈ vis ∪ D := by
  intro fuel
  induction fuel with
  | zero =>
    intro un vis comp tv hf htv hd hr
    have h0 : (range v.length) \ vis = ∅ := by simpa using hf
    have : tv = ∅ := by
      rw [Finset.eq_empty_iff_forall_notMem]
      intro x hx
      have : x ∈ (range v.length) \ vis :=
        Finset.mem_sdiff.2 ⟨htv hx, Finset.disjoint_left.1 hd hx⟩
      rw [h0] at this
      simp at this
    subst this
    exact ⟨∅, by simp [innerLoop], by simp, by simp, by simp, by simp, by simp⟩
  | succ fuel ih =>
    intro un vis comp tv hf htv hd hr
    by_cases h0 : tv = ∅
    · subst h0
      exact ⟨∅, by simp [innerLoop], by simp, by simp, by simp, by simp, by simp⟩
    · have hpop := O.pop_mem tv (Finset.nonempty_iff_ne_empty.2 h0)
      set i := O.pop tv with hi
      have hin : i < v.length := by simpa using htv hpop
      have hivis : i ∉ vis := Finset.disjoint_left.1 hd hpop
      set tv' := (neighs v v[i]).foldl (fun t j => if j ∈ insert i vis then t else insert j t)
        (tv.erase i) with htv'
      have hmem : ∀ x, x ∈ tv' ↔ x ∈ tv.erase i ∨ (x ∈ neighs v v[i] ∧ x ∉ insert i vis) :=
        fun x => mem_visit_fold _ _ _ _
      obtain ⟨D, hD, hDd, hDt, hDr, hDR, hDc⟩ := ih (un.erase i) (insert i vis) (insert i comp) tv' (by
          have : (range v.length) \ insert i vis = ((range v.length) \ vis).erase i := by
            ext x; simp only [Finset.mem_sdiff, Finset.mem_insert, Finset.mem_erase, not_or]; tauto
          rw [this, Finset.card_erase_of_mem (by simp [hin, hivis])]
          omega) (by
          intro x hx
          rcases (hmem x).1 hx with h | h
          · exact htv (Finset.mem_of_mem_erase h)
          · simpa using ((mem_neighs hin).1 h.1).1) (by
          rw [Finset.disjoint_left]
          intro x hx
          rcases (hmem x).1 hx with h | h
          · rw [Finset.mem_insert, not_or]
            exact ⟨Finset.ne_of_mem_erase h, Finset.disjoint_left.1 hd (Finset.mem_of_mem_erase h)⟩
          · exact h.2) (by
          intro x hx
          rcases (hmem x).1 hx with h | h
          · exact hr x (Finset.mem_of_mem_erase h)
          · exact (hr i hpop).trans _ _ _ (Relation.EqvGen.rel _ _ ((mem_neighs hin).1 h.1).2))
      refine ⟨insert i D, ?_, ?_, ?_, ?_, ?_, ?_⟩
      · rw [innerLoop, if_neg h0]
        simp only [← hi, pyGet_ok hin, ok_bind]
        rw [← htv', hD]
        have e1 : un.erase i \ D = un \ insert i D := by
          ext x; simp only [Finset.mem_sdiff, Finset.mem_insert, Finset.mem_erase, not_or]; tauto
        rw [e1, Finset.insert_union, Finset.union_insert, Finset.insert_union, Finset.union_insert]
      · rw [Finset.disjoint_insert_left]
        refine ⟨hivis, ?_⟩
        rw [Finset.disjoint_insert_right] at hDd
        exact hDd.2
      · intro x hx
        by_cases hxi : x = i
        · simp [hxi]
        · exact Finset.mem_insert_of_mem (hDt ((hmem x).2 (Or.inl (Finset.mem_erase.2 ⟨hxi, hx⟩))))
      · intro x hx
        rcases Finset.mem_insert.1 hx with h | h
        · subst h; simpa using hin
        · exact hDr h
      · intro x hx
        rcases Finset.mem_insert.1 hx with h | h
        · subst h; exact hr _ hpop
        · exact hDR x h
      · intro x hx y hy hxy
        have hsub : insert i vis ∪ D = vis ∪ insert i D := by
          rw [Finset.insert_union, Finset.union_insert]
        rcases Finset.mem_insert.1 hx with h | h
        · subst h
          rw [← hsub]
          by_cases hyv : y ∈ insert i vis
          · exact Finset.mem_union_left _ hyv
          · exact Finset.mem_union_right _ (hDt ((hmem y).2 (Or.inr ⟨(mem_neighs hin).2 ⟨hy, hxy⟩, hyv⟩)))
        · rw [← hsub]
          exact hDc x h y hy hxy

/-- What the list of components satisfies. -/
structure Comps (v : List (List ℤ)) (cc : List (Finset ℕ)) : Prop where
  disj : cc.Pairwise Disjoint
  ne : ∀ s ∈ cc, s.Nonempty
  sub : ∀ s ∈ cc, s ⊆ range v.length
  reach : ∀ s ∈ cc, ∀ i ∈ s, ∀ j ∈ s, Reach v i j

theorem outerLoop_spec (O : SetOrder) (v : List (List ℤ)) :
    ∀ (fuel : ℕ) (un vis : Finset ℕ) (acc : List (Finset ℕ)),
    un.card ≤ fuel → un ⊆ range v.length → Disjoint un vis → Comps v acc →
    (∀ i, i ∈ vis ↔ ∃ s ∈ acc, i ∈ s) →
    ∃ cc, outerLoop O v v.length fuel un vis acc = .ok cc ∧ Comps v cc ∧
      ∀ i, i ∈ un ∪ vis → ∃ s ∈ cc, i ∈ s := by
  intro fuel
  induction fuel with
  | zero =>
    intro un vis acc hf hun hd hC hv
    have : un = ∅ := by simpa using hf
    subst this
    exact ⟨acc, by simp [outerLoop], hC, fun i hi => (hv i).1 (by simpa using hi)⟩
  | succ fuel ih =>
    intro un vis acc hf hun hd hC hv
    by_cases h0 : un = ∅
    · subst h0
      exact ⟨acc, by simp [outerLoop], hC, fun i hi => (hv i).1 (by simpa using hi)⟩
    · have hpop := O.pop_mem un (Finset.nonempty_iff_ne_empty.2 h0)
      set s := O.pop un with hs
      obtain ⟨D, hD, hDd, hDt, hDr, hDR, hDc⟩ := innerLoop_spec O v s (v.length + 1) (un.erase s) vis ∅ {s}
        (by
          have := Finset.card_le_card (Finset.sdiff_subset (s := range v.length) (t := vis))
          rw [Finset.card_range] at this; omega)
        (by simpa using hun hpop)
        (by simpa using Finset.disjoint_left.1 hd hpop)
        (by intro j hj; rw [Finset.mem_singleton.1 hj]; exact Relation.EqvGen.refl _)
      have hsD : s ∈ D := hDt (by simp)
      obtain ⟨cc, hcc, hCC, hcov⟩ := ih (un.erase s \ D) (vis ∪ D) (acc ++ [D])
        (by
          have h1 : (un.erase s \ D).card ≤ (un.erase s).card := Finset.card_le_card Finset.sdiff_subset
          rw [Finset.card_erase_of_mem hpop] at h1
          omega)
        (by
          intro x hx
          exact hun (Finset.mem_of_mem_erase (Finset.mem_sdiff.1 hx).1))
        (by
          rw [Finset.disjoint_left]
          intro x hx hx'
          rw [Finset.mem_sdiff] at hx
          rcases Finset.mem_union.1 hx' with h | h
          · exact Finset.disjoint_left.1 hd (Finset.mem_of_mem_erase hx.1) h
          · exact hx.2 h)
        (by
          refine ⟨?_, ?_, ?_, ?_⟩
          · rw [List.pairwise_append]
            refine ⟨hC.disj, by simp, ?_⟩
            intro t ht t' ht'
            rw [List.mem_singleton.1 ht', Finset.disjoint_left]
            intro x hx hxD
            exact Finset.disjoint_left.1 hDd hxD ((hv x).2 ⟨t, ht, hx⟩)
          · intro t ht
            rcases List.mem_append.1 ht with h | h
            · exact hC.ne t h
            · rw [List.mem_singleton.1 h]; exact ⟨s, hsD⟩
          · intro t ht
            rcases List.mem_append.1 ht with h | h
            · exact hC.sub t h
            · rw [List.mem_singleton.1 h]; exact hDr
          · intro t ht
            rcases List.mem_append.1 ht with h | h
            · exact hC.reach t h
            · rw [List.mem_singleton.1 h]
              intro i hi j hj
              exact ((hDR i hi).symm).trans _ _ _ (hDR j hj))
        (by
          intro i
          simp only [Finset.mem_union, List.mem_append, List.mem_singleton, hv]
          constructor
          · rintro (⟨t, ht, hi⟩ | h)
            · exact ⟨t, Or.inl ht, hi⟩
            · exact ⟨D, Or.inr rfl, h⟩
          · rintro ⟨t, ht | ht, hi⟩
            · exact Or.inl ⟨t, ht, hi⟩
            · subst ht; exact Or.inr hi)
      refine ⟨cc, ?_, hCC, ?_⟩
      · rw [outerLoop, if_neg h0]
        simp only [← hs, hD, ok_bind]
        rw [Finset.empty_union]
        exact hcc
      · intro i hi
        apply hcov
        simp only [Finset.mem_union, Finset.mem_sdiff, Finset.mem_erase] at hi ⊢
        by_cases hiD : i ∈ D
        · exact Or.inr (Or.inr hiD)
        · rcases hi with h | h
          · exact Or.inl ⟨⟨fun e => hiD (e ▸ hsD), h⟩, hiD⟩
          · exact Or.inr (Or.inl h)

/-! ### linking two tensors by a trivial index -/

theorem expandDims_label {A : ND K} {l : List ℤ} {dim : ℤ → ℕ} (hA : A.shape = l.map dim) :
    ∃ A', expandDims A l.length = .ok A' ∧
      (∀ (x : ℤ) (dim' : ℤ → ℕ), dim' x = 1 → (∀ y ∈ l, dim' y = dim y) → A'.shape = (l ++ [x]).map dim') ∧
      ∀ (x : ℤ) ρ, A'.val ((l ++ [x]).map ρ) = A.val (l.map ρ) := by
  have hr : A.rank = l.length := rank_eq hA
  have hsl : A.shape.length = l.length := hr
  refine ⟨_, by rw [expandDims, if_pos (by omega)], ?_, ?_⟩
  · intro x dim' h1 h2
    simp only
    rw [← hsl, List.take_length, List.drop_length, hA, List.map_append, List.map_congr_left h2]
    simp [h1]
  · intro x ρ
    simp only
    have e : (List.map ρ (l ++ [x])) = l.map ρ ++ [ρ x] := by simp
    rw [e, List.take_left' (by simp), List.drop_of_length_le (by simp), List.append_nil]

theorem labs_set {N : List (LT K)} {c : ℕ} (h : c < N.length) (A' : ND K) (x : ℤ) :
    (labs (N.set c (A', N[c].2 ++ [x]))).Perm (x :: labs N) := by
  have h1 : (N.set c (A', N[c].2 ++ [x])).Perm ((A', N[c].2 ++ [x]) :: N.eraseIdx c) :=
    List.set_perm_cons_eraseIdx h _
  have h2 : (N[c] :: N.eraseIdx c).Perm N := List.getElem_cons_eraseIdx_perm h
  have h3 := labs_perm h1
  have h4 := labs_perm h2
  rw [labs_cons] at h3 h4
  refine h3.trans ?_
  simp only [List.append_assoc, List.singleton_append]
  exact List.perm_middle.trans (h4.cons x)

theorem term_set [CommMonoid K] {N : List (LT K)} {c : ℕ} (h : c < N.length) (p : LT K) (ρ : ℤ → ℕ)
    (hp : p.1.val (p.2.map ρ) = N[c].1.val (N[c].2.map ρ)) : term (N.set c p) ρ = term N ρ := by
  unfold term
  congr 1
  rw [List.map_set, hp]
  apply List.ext_getElem
  · simp
  · intro i h1 h2
    rw [List.getElem_set]
    split
    · next e => subst e; simp
    · rfl

theorem lt_dimNum {order : List ℤ} {x : ℤ} (h : x ∈ order) : x < dimNum order := by
  cases order with
  | nil => simp at h
  | cons a l =>
    have h1 : ∀ (l : List ℤ) (a : ℤ), a ≤ l.foldl max a := by
      intro l
      induction l with
      | nil => intro a; simp
      | cons b l ih => intro a; exact (le_max_left a b).trans (ih _)
    have h2 : ∀ (l : List ℤ) (a y : ℤ), y ∈ l → y ≤ l.foldl max a := by
      intro l
      induction l with
      | nil => intro a y hy; simp at hy
      | cons b l ih =>
        intro a y hy
        rcases List.mem_cons.1 hy with h | h
        · subst h; exact (le_max_right a y).trans (h1 _ _)
        · exact ih _ _ h
    simp only [dimNum]
    rcases List.mem_cons.1 h with h | h
    · subst h; have := h1 l x; omega
    · have := h2 l a x h; omega

theorem dimNum_pos {order : List ℤ} (h : ∀ x ∈ order, 0 < x) : 0 < dimNum order := by
  cases order with
  | nil => simp [dimNum]
  | cons a l =>
    have := lt_dimNum (order := a :: l) (x := a) (by simp)
    have := h a (by simp)
    omega

/-- The effect of one link. -/
theorem link_spec [CommSemiring K] {N : List (LT K)} {order F : List ℤ} {dim : ℤ → ℕ} {c d : ℕ}
    (hI : Inv0 N order F dim) (hpos : ∀ x ∈ order, 0 < x) (hneg : ∀ x ∈ F, x < 0)
    (hc : c < N.length) (hd : d < N.length) (hcd : c ≠ d) :
    ∃ N' dim', link ⟨N.map Prod.fst, N.map Prod.snd, order⟩ c d =
        .ok ⟨N'.map Prod.fst, N'.map Prod.snd, order ++ [dimNum order]⟩ ∧
      Inv0 N' (order ++ [dimNum order]) F dim' ∧ N'.length = N.length ∧
      (∀ y ∈ F, dim' y = dim y) ∧
      (∀ i j, share (N.map Prod.snd) i j → share (N'.map Prod.snd) i j) ∧
      share (N'.map Prod.snd) c d ∧
      ∀ ρ, labelSum (order ++ [dimNum order]) dim' (term N') ρ = labelSum order dim (term N) ρ := by
  set x := dimNum order with hx
  have hxo : x ∉ order := fun h => lt_irrefl _ (lt_dimNum h)
  have hxF : x ∉ F := fun h => by have := hneg x h; have := dimNum_pos hpos; omega
  have hxN : x ∉ labs N := fun h => hxF ((hI.free x).1 ⟨h, hxo⟩)
  set dim' : ℤ → ℕ := update dim x 1 with hdim'
  have hd1 : dim' x = 1 := by simp [hdim']
  have hd2 : ∀ y, y ≠ x → dim' y = dim y := fun y hy => by simp [hdim', hy]
  have hxl : ∀ p ∈ N, x ∉ p.2 := fun p hp h => hxN (List.mem_flatMap.2 ⟨p, hp, h⟩)
  have hd3 : ∀ p ∈ N, ∀ y ∈ p.2, dim' y = dim y := by
    intro p hp y hy
    exact hd2 y (fun e => hxl p hp (e ▸ hy))
  obtain ⟨Ac, hAc, hAcs, hAcv⟩ := expandDims_label (hI.shapes N[c] (List.getElem_mem hc))
  obtain ⟨Ad, hAd, hAds, hAdv⟩ := expandDims_label (hI.shapes N[d] (List.getElem_mem hd))
  set N1 := N.set c (Ac, N[c].2 ++ [x]) with hN1
  have hd' : d < N1.length := by simpa [hN1] using hd
  have hN1d : N1[d] = N[d] := by simp [hN1, List.getElem_set, hcd]
  set N2 := N1.set d (Ad, N1[d].2 ++ [x]) with hN2
  have hl1 : (labs N1).Perm (x :: labs N) := labs_set hc Ac x
  have hl2 : (labs N2).Perm (x :: x :: labs N) := (labs_set hd' Ad x).trans (hl1.cons x)
  have hcx : (labs N2).count x = 2 := by
    rw [hl2.count_eq]; simp [List.count_eq_zero.2 hxN]
  have hcy : ∀ y, y ≠ x → (labs N2).count y = (labs N).count y := by
    intro y hy
    rw [hl2.count_eq]; simp [List.count_cons, Ne.symm hy]
  refine ⟨N2, dim', ?_, ⟨?_, ?_, ?_, ?_, ?_, ?_⟩, by simp [hN2, hN1], ?_, ?_, ?_, ?_⟩
  · have g1 : pyGet (N.map Prod.snd) c = .ok N[c].2 := by rw [pyGet_ok (by simpa using hc)]; simp
    have g2 : pyGet (N.map Prod.snd) d = .ok N[d].2 := by rw [pyGet_ok (by simpa using hd)]; simp
    have g3 : pyGet (N.map Prod.fst) c = .ok N[c].1 := by rw [pyGet_ok (by simpa using hc)]; simp
    have g4 : pyGet (N.map Prod.fst) d = .ok N[d].1 := by rw [pyGet_ok (by simpa using hd)]; simp
    have g5 : pyGet ((N.map Prod.snd).set c (N[c].2 ++ [x])) d = .ok N[d].2 := by
      rw [pyGet_ok (by simpa using hd)]
      simp [List.getElem_set, hcd]
    unfold link
    simp only [g1, g2, g3, g4, ok_bind, hAc, hAd, ← hx, g5]
    congr 1
    rw [hN2, hN1d, hN1]
    simp only [List.map_set]
  · intro h
    have : N2.length = 0 := by rw [h]; rfl
    simp only [hN2, hN1, List.length_set] at this
    omega
  · intro p hp
    rcases List.mem_or_eq_of_mem_set hp with h | h
    · rcases List.mem_or_eq_of_mem_set h with h | h
      · rw [hI.shapes p h]; exact (List.map_congr_left (hd3 p h)).symm
      · subst h; exact hAcs x dim' hd1 (hd3 _ (List.getElem_mem hc))
    · subst h; rw [hN1d]; exact hAds x dim' hd1 (hd3 _ (List.getElem_mem hd))
  · rw [List.nodup_append]
    refine ⟨hI.nodup, List.nodup_singleton _, ?_⟩
    intro a ha b hb
    rw [List.mem_singleton.1 hb]
    rintro rfl
    exact hxo ha
  · intro y hy
    by_cases e : y = x
    · rw [e]; exact hcx
    · rw [hcy y e]
      rcases List.mem_append.1 hy with h | h
      · exact hI.twice y h
      · exact absurd (List.mem_singleton.1 h) e
  · intro y hy hyo
    have e : y ≠ x := fun e => hyo (by simp [e])
    have hyN : y ∈ labs N := by
      rw [← List.count_pos_iff, ← hcy y e]; exact List.count_pos_iff.2 hy
    rw [hcy y e]
    exact hI.once y hyN (fun h => hyo (by simp [h]))
  · intro y
    rw [← hI.free y]
    constructor
    · rintro ⟨hy, hyo⟩
      have e : y ≠ x := fun e => hyo (by simp [e])
      refine ⟨?_, fun h => hyo (by simp [h])⟩
      rw [← List.count_pos_iff, ← hcy y e]; exact List.count_pos_iff.2 hy
    · rintro ⟨hy, hyo⟩
      have e : y ≠ x := fun e => hxN (e ▸ hy)
      refine ⟨?_, ?_⟩
      · rw [← List.count_pos_iff, hcy y e]; exact List.count_pos_iff.2 hy
      · simp [hyo, e]
  · intro y hy
    exact hd2 y (fun e => hxF (e ▸ hy))
  · -- monotone
    have hsub : ∀ i y, y ∈ (N.map Prod.snd).getD i [] → y ∈ (N2.map Prod.snd).getD i [] := by
      intro i y hy
      by_cases hi : i < N.length
      · rw [List.getD_eq_getElem _ _ (by simpa using hi)] at hy
        rw [List.getD_eq_getElem _ _ (by simpa [hN2, hN1] using hi)]
        simp only [List.getElem_map] at hy ⊢
        simp only [hN2, List.getElem_set, hN1d]
        split
        · next e => subst e; simp [hy]
        · simp only [hN1, List.getElem_set]
          split
          · next e => subst e; simp [hy]
          · exact hy
      · rw [List.getD_eq_default _ _ (by simpa using hi)] at hy
        simp at hy
    rintro i j ⟨y, h1, h2⟩
    exact ⟨y, hsub i y h1, hsub j y h2⟩
  · refine ⟨x, ?_, ?_⟩
    · rw [List.getD_eq_getElem _ _ (by simpa [hN2, hN1] using hc)]
      simp only [List.getElem_map]
      simp [hN2, hN1, List.getElem_set, Ne.symm hcd]
    · rw [List.getD_eq_getElem _ _ (by simpa [hN2, hN1] using hd)]
      simp [hN2]
  · intro ρ
    rw [labelSum_append]
    rw [← labelSum_dim_congr order (dim := dim') (dim' := dim) (fun y hy => hd2 y (fun e => hxo (e ▸ hy)))]
    refine labelSum_congr _ _ (fun ρ => ?_) _
    simp only [labelSum, hd1, Finset.range_one, Finset.sum_singleton]
    rw [term_set hd', term_set hc, term_update_not_mem _ _ _ _ hxN]
    · exact hAcv _ _
    · rw [hN1d]; exact hAdv _ _

theorem Reach.mono {v v' : List (List ℤ)} (h : ∀ i j, share v i j → share v' i j) {i j : ℕ}
    (hr : Reach v i j) : Reach v' i j := Relation.EqvGen.mono (fun i j => h i j) _ _ hr

theorem linkLoop_spec [CommSemiring K] (O : SetOrder) {F : List ℤ} {c : ℕ} (hneg : ∀ x ∈ F, x < 0) :
    ∀ (rest : List (Finset ℕ)) {N : List (LT K)} {order : List ℤ} {dim : ℤ → ℕ},
    Inv0 N order F dim → (∀ x ∈ order, 0 < x) → c < N.length →
    (∀ s ∈ rest, s.Nonempty ∧ s ⊆ range N.length ∧ c ∉ s) →
    ∃ N' order' dim', linkLoop O c rest ⟨N.map Prod.fst, N.map Prod.snd, order⟩ =
        .ok ⟨N'.map Prod.fst, N'.map Prod.snd, order'⟩ ∧
      Inv0 N' order' F dim' ∧ N'.length = N.length ∧ (∀ y ∈ F, dim' y = dim y) ∧
      (∀ i j, share (N.map Prod.snd) i j → share (N'.map Prod.snd) i j) ∧
      (∀ s ∈ rest, share (N'.map Prod.snd) c (O.pop s)) ∧
      (order'.length = order.length + rest.length ∧ ∀ x ∈ order', 0 < x) ∧ order <+: order' ∧
      ∀ ρ, labelSum order' dim' (term N') ρ = labelSum order dim (term N) ρ := by
  intro rest
  induction rest with
  | nil =>
    intro N order dim hI hpos _ _
    exact ⟨N, order, dim, rfl, hI, rfl, fun _ _ => rfl, fun _ _ h => h, by simp, ⟨by simp, hpos⟩, List.prefix_refl _, fun _ => rfl⟩
  | cons s rest ih =>
    intro N order dim hI hpos hc hs
    obtain ⟨h1, h2, h3⟩ := hs s (by simp)
    have hp := O.pop_mem s h1
    have hd : O.pop s < N.length := by simpa using h2 hp
    have hcd : c ≠ O.pop s := fun e => h3 (e ▸ hp)
    obtain ⟨N1, dim1, hl, hI1, hlen1, hF1, hm1, hsh1, hs1⟩ := link_spec hI hpos hneg hc hd hcd
    have hpos1 : ∀ x ∈ order ++ [dimNum order], 0 < x := by
      intro x hx
      rcases List.mem_append.1 hx with h | h
      · exact hpos x h
      · rw [List.mem_singleton.1 h]; exact dimNum_pos hpos
    obtain ⟨N2, order2, dim2, hl2, hI2, hlen2, hF2, hm2, hsh2, hol2, hpre2, hs2⟩ :=
      ih hI1 hpos1 (by omega) (by
        intro t ht
        rw [hlen1]
        exact hs t (by simp [ht]))
    refine ⟨N2, order2, dim2, ?_, hI2, by omega, ?_, ?_, ?_, ?_, ?_, ?_⟩
    · rw [linkLoop]; simp only [hl, ok_bind, hl2]
    · intro y hy; rw [hF2 y hy, hF1 y hy]
    · intro i j h; exact hm2 i j (hm1 i j h)
    · intro t ht
      rcases List.mem_cons.1 ht with h | h
      · subst h; exact hm2 _ _ hsh1
      · exact hsh2 t h
    · refine ⟨?_, hol2.2⟩
      have := hol2.1
      simp at this ⊢; omega
    · exact (List.prefix_append _ _).trans hpre2
    · intro ρ; rw [hs2, hs1]

/-! ### reachability gives connectivity -/

theorem eqvGen_ne {r : ℕ → ℕ → Prop} {i j : ℕ} (h : Relation.EqvGen r i j) :
    i = j ∨ ((∃ k, r i k ∨ r k i) ∧ ∃ k, r j k ∨ r k j) := by
  induction h with
  | rel x y h => exact Or.inr ⟨⟨y, Or.inl h⟩, ⟨x, Or.inr h⟩⟩
  | refl x => exact Or.inl rfl
  | symm x y _ ih => rcases ih with h | h
                     · exact Or.inl h.symm
                     · exact Or.inr ⟨h.2, h.1⟩
  | trans x y z _ _ ih1 ih2 =>
    rcases ih1 with h | h
    · subst h; exact ih2
    · rcases ih2 with h' | h'
      · subst h'; exact Or.inr h
      · exact Or.inr ⟨h.1, h'.2⟩

theorem eqvGen_closed {r : ℕ → ℕ → Prop} (hs : ∀ i j, r i j → r j i) {Q : ℕ → Prop}
    (hQ : ∀ i j, r i j → Q i → Q j) {i j : ℕ} (h : Relation.EqvGen r i j) : Q i ↔ Q j := by
  induction h with
  | rel x y h => exact ⟨hQ _ _ h, hQ _ _ (hs _ _ h)⟩
  | refl x => exact Iff.rfl
  | symm x y _ ih => exact ih.symm
  | trans x y z _ _ ih1 ih2 => exact ih1.trans ih2

theorem conn_of_reach {N : List (LT K)} {c : ℕ}
    (h : ∀ i < N.length, Reach (N.map Prod.snd) c i) : Conn N := by
  intro S T hP hS hT
  by_contra hcon
  push Not at hcon
  have hg : ∀ i (hi : i < N.length), (N.map Prod.snd).getD i [] = N[i].2 := by
    intro i hi
    rw [List.getD_eq_getElem _ _ (by simpa using hi)]; simp
  have hlt : ∀ i x, x ∈ (N.map Prod.snd).getD i [] → i < N.length := by
    intro i x hx
    by_contra hi
    rw [List.getD_eq_default _ _ (by simpa using hi)] at hx
    simp at hx
  have hmemS : ∀ p ∈ S, ∀ x ∈ p.2, x ∈ labs S := fun p hp x hx => List.mem_flatMap.2 ⟨p, hp, hx⟩
  have hmemT : ∀ p ∈ T, ∀ x ∈ p.2, x ∈ labs T := fun p hp x hx => List.mem_flatMap.2 ⟨p, hp, hx⟩
  let Q : ℕ → Prop := fun i => ∃ x ∈ (N.map Prod.snd).getD i [], x ∈ labs S
  have hQ : ∀ i j, share (N.map Prod.snd) i j → Q i → Q j := by
    rintro i j ⟨x, h1, h2⟩ ⟨y, hy1, hy2⟩
    have hi := hlt i x h1
    rw [hg i hi] at h1 hy1
    have hm : N[i] ∈ S ++ T := hP.mem_iff.1 (List.getElem_mem hi)
    rcases List.mem_append.1 hm with hm | hm
    · exact ⟨x, h2, hmemS _ hm x h1⟩
    · exact absurd (hmemT _ hm y hy1) (hcon y hy2)
  have hall : ∀ i < N.length, ∀ j < N.length, Q i → Q j := by
    intro i hi j hj hq
    exact (eqvGen_closed (fun _ _ => share_symm) hQ ((h j hj))).1
      ((eqvGen_closed (fun _ _ => share_symm) hQ ((h i hi))).2 hq)
  -- an element of S and one of T
  obtain ⟨p, S', rfl⟩ := List.exists_cons_of_ne_nil hS
  obtain ⟨q, T', rfl⟩ := List.exists_cons_of_ne_nil hT
  have hlen : 2 ≤ N.length := by
    have := hP.length_eq
    simp at this; omega
  have hpN : p ∈ N := hP.mem_iff.2 (by simp)
  have hqN : q ∈ N := hP.mem_iff.2 (by simp)
  obtain ⟨i, hi, rfl⟩ := List.getElem_of_mem hpN
  obtain ⟨j, hj, rfl⟩ := List.getElem_of_mem hqN
  have hne : ∀ k < N.length, ∃ x, x ∈ (N.map Prod.snd).getD k [] := by
    intro k hk
    obtain ⟨k', hk', hkk⟩ : ∃ k', k' < N.length ∧ k ≠ k' := by
      by_cases h0 : k = 0
      · exact ⟨1, by omega, by omega⟩
      · exact ⟨0, by omega, h0⟩
    have hr : Relation.EqvGen (share (N.map Prod.snd)) k k' := ((h k hk).symm).trans _ _ _ (h k' hk')
    rcases eqvGen_ne hr with e | ⟨⟨m, hm | hm⟩, _⟩
    · exact absurd e hkk
    · obtain ⟨x, hx, _⟩ := hm; exact ⟨x, hx⟩
    · obtain ⟨x, _, hx⟩ := hm; exact ⟨x, hx⟩
  obtain ⟨x, hx⟩ := hne i hi
  have hQi : Q i := ⟨x, hx, by
    rw [hg i hi] at hx
    exact hmemS _ (by simp) x hx⟩
  obtain ⟨y, hy1, hy2⟩ := hall i hi j hj hQi
  rw [hg j hj] at hy1
  exact hcon y hy2 (hmemT _ (by simp) y hy1)

/-- For a connected network there is one component. -/
theorem outerLoop_connected (O : SetOrder) {v : List (List ℤ)} (hv : v ≠ []) (hc : Connected v) :
    ∃ s, outerLoop O v v.length (v.length + 1) (range v.length) ∅ [] = .ok [s] := by
  have hn : 0 < v.length := List.length_pos_iff.2 hv
  have h0 : range v.length ≠ ∅ := by
    intro e
    have : (0 : ℕ) ∈ range v.length := by simpa using hn
    rw [e] at this
    simp at this
  have hpop := O.pop_mem (range v.length) (Finset.nonempty_iff_ne_empty.2 h0)
  set s := O.pop (range v.length) with hs
  have hsn : s < v.length := by simpa using hpop
  obtain ⟨D, hD, hDd, hDt, hDr, hDR, hDc⟩ := innerLoop_spec O v s (v.length + 1)
    ((range v.length).erase s) ∅ ∅ {s} (by simp) (by simpa using hsn) (by simp)
    (by intro j hj; rw [Finset.mem_singleton.1 hj]; exact Relation.EqvGen.refl _)
  have hsD : s ∈ D := hDt (by simp)
  have hall : ∀ j < v.length, j ∈ D := by
    intro j hj
    have h1 := eqvGen_closed (r := share v) (Q := fun i => i < v.length → i ∈ D) (fun _ _ => share_symm) (by
      intro a b hab ha hb
      by_cases hal : a < v.length
      · have := hDc a (ha hal) b hb hab
        simpa using this
      · obtain ⟨x, hx, _⟩ := hab
        rw [List.getD_eq_default _ _ (by omega)] at hx
        simp at hx) (hc s hsn j hj)
    exact h1.1 (fun _ => hsD) hj
  have hemp : (range v.length).erase s \ D = ∅ := by
    rw [Finset.sdiff_eq_empty_iff_subset]
    intro x hx
    exact hall x (by simpa using Finset.mem_of_mem_erase hx)
  refine ⟨D, ?_⟩
  rw [outerLoop, if_neg h0]
  simp only [← hs, hD, ok_bind, Finset.empty_union, List.nil_append]
  rw [hemp]
  obtain ⟨m, hm⟩ : ∃ m, v.length = m + 1 := ⟨v.length - 1, by omega⟩
  rw [hm]
  simp [outerLoop]

/-- `connect_graph` returns a connected network of the same value. -/
theorem connectGraph_spec [CommSemiring K] (O : SetOrder) {N : List (LT K)} {order F : List ℤ} {dim : ℤ → ℕ}
    (hI : Inv0 N order F dim) (hpos : ∀ x ∈ order, 0 < x) (hneg : ∀ x ∈ F, x < 0) :
    ∃ N' order' dim', connectGraph O ⟨N.map Prod.fst, N.map Prod.snd, order⟩ =
        .ok ⟨N'.map Prod.fst, N'.map Prod.snd, order'⟩ ∧
      Inv N' order' F dim' ∧ (∀ y ∈ F, dim' y = dim y) ∧ order <+: order' ∧
      ((order' = order ↔ Connected (N.map Prod.snd)) ∧ ∀ x ∈ order', 0 < x) ∧
      ∀ ρ, labelSum order' dim' (term N') ρ = labelSum order dim (term N) ρ := by
  have hn : 0 < N.length := List.length_pos_iff.2 hI.ne
  have hvl : (N.map Prod.snd).length = N.length := by simp
  obtain ⟨cc, hcc, hC, hcov⟩ := outerLoop_spec O (N.map Prod.snd) (N.length + 1) (range N.length) ∅ []
    (by simp) (by simp) (by simp) ⟨List.Pairwise.nil, by simp, by simp, by simp⟩ (by simp)
  rw [hvl] at hcc
  have hrev : ∀ s, s ∈ cc.reverse ↔ s ∈ cc := fun s => List.mem_reverse
  have hdis : cc.reverse.Pairwise Disjoint := by
    rw [List.pairwise_reverse]
    exact hC.disj.imp fun h => h.symm
  cases hr : cc.reverse with
  | nil =>
    obtain ⟨s, hs, _⟩ := hcov 0 (by simp [hn])
    have : s ∈ cc.reverse := (hrev s).2 hs
    rw [hr] at this
    simp at this
  | cons s rest =>
    have hs : s ∈ cc := (hrev s).1 (by rw [hr]; simp)
    have hcs := O.pop_mem s (hC.ne s hs)
    have hcN : O.pop s < N.length := by simpa using hC.sub s hs hcs
    rw [hr, List.pairwise_cons] at hdis
    have hrest : ∀ t ∈ rest, t ∈ cc := fun t ht => (hrev t).1 (by rw [hr]; simp [ht])
    obtain ⟨N', order', dim', hl, hI', hlen, hF, hm, hsh, ⟨hol, hpos'⟩, hpre, hsum⟩ :=
      linkLoop_spec O hneg rest hI hpos hcN (by
        intro t ht
        refine ⟨hC.ne t (hrest t ht), by simpa using hC.sub t (hrest t ht), ?_⟩
        exact Finset.disjoint_left.1 (hdis.1 t ht) hcs)
    refine ⟨N', order', dim', ?_, ⟨hI', ?_⟩, hF, hpre, ⟨?_, hpos'⟩, hsum⟩
    · unfold connectGraph
      simp only [List.length_map, hcc, ok_bind, hr]
      exact hl
    · apply conn_of_reach (c := O.pop s)
      intro i hi
      rw [hlen] at hi
      obtain ⟨t, ht, hit⟩ := hcov i (by simp [hi])
      have ht' : t ∈ cc.reverse := (hrev t).2 ht
      rw [hr] at ht'
      rcases List.mem_cons.1 ht' with e | h
      · subst e
        exact Reach.mono hm (hC.reach t ht _ hcs _ hit)
      · have h1 : Reach (N'.map Prod.snd) (O.pop s) (O.pop t) := Relation.EqvGen.rel _ _ (hsh t h)
        have h2 : Reach (N'.map Prod.snd) (O.pop t) i :=
          Reach.mono hm (hC.reach t ht _ (O.pop_mem t (hC.ne t ht)) _ hit)
        exact h1.trans _ _ _ h2
    · constructor
      · intro e
        have hr0 : rest = [] := by
          rw [e] at hol
          exact List.length_eq_zero_iff.1 (by omega)
        subst hr0
        intro i hi j hj
        have hin : ∀ i < (N.map Prod.snd).length, i ∈ s := by
          intro i hi
          obtain ⟨t, ht, hit⟩ := hcov i (by simpa using hi)
          have ht' : t ∈ cc.reverse := (hrev t).2 ht
          rw [hr, List.mem_singleton] at ht'
          exact ht' ▸ hit
        exact hC.reach s hs i (hin i hi) j (hin j hj)
      · intro hconn
        obtain ⟨t, ht⟩ := outerLoop_connected O (v := N.map Prod.snd) (by simpa using hI.ne) hconn
        rw [hvl, hcc] at ht
        have hcct : cc = [t] := by injection ht
        rw [hcct] at hr
        have hr0 : rest = [] := by
          simp only [List.reverse_cons, List.reverse_nil, List.nil_append, List.cons.injEq] at hr
          exact hr.2.symm
        subst hr0
        have := hpre.eq_of_length (by simp at hol; omega)
        exact this.symm

end Xmps.Ncon
