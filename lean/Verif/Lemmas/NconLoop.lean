import Verif.Lemmas.NconStep
import Mathlib.Algebra.Order.BigOperators.Group.List
import Mathlib.Algebra.BigOperators.Group.List.Lemmas

/-! # The main loop of `ncon` preserves the labelled sum of the network -/

namespace Xmps.Ncon

open Finset Function Xmps.Spec

variable {K : Type}

/-- A tensor with its labels. -/
abbrev LT (K : Type) := ND K × List ℤ

/-- All labels of a network. -/
def labs (N : List (LT K)) : List ℤ := N.flatMap Prod.snd

/-- Product of entries. -/
def term [CommMonoid K] (N : List (LT K)) (ρ : ℤ → ℕ) : K := (N.map fun p => p.1.val (p.2.map ρ)).prod

/-- No splitting of the network into two label-disjoint parts. -/
def Conn (N : List (LT K)) : Prop :=
  ∀ S T : List (LT K), N.Perm (S ++ T) → S ≠ [] → T ≠ [] → ∃ x ∈ labs S, x ∈ labs T

/-- Loop invariant without connectivity. -/
structure Inv0 (N : List (LT K)) (order F : List ℤ) (dim : ℤ → ℕ) : Prop where
  ne : N ≠ []
  shapes : ∀ p ∈ N, p.1.shape = p.2.map dim
  nodup : order.Nodup
  twice : ∀ x ∈ order, (labs N).count x = 2
  once : ∀ x ∈ labs N, x ∉ order → (labs N).count x = 1
  free : ∀ x, (x ∈ labs N ∧ x ∉ order) ↔ x ∈ F

/-- Loop invariant. -/
structure Inv (N : List (LT K)) (order F : List ℤ) (dim : ℤ → ℕ) : Prop extends Inv0 N order F dim where
  conn : Conn N

@[simp] theorem labs_nil : labs ([] : List (LT K)) = [] := rfl
@[simp] theorem labs_cons (p : LT K) (N : List (LT K)) : labs (p :: N) = p.2 ++ labs N := by simp [labs]
@[simp] theorem labs_append (N M : List (LT K)) : labs (N ++ M) = labs N ++ labs M := by simp [labs]

theorem labs_perm {N M : List (LT K)} (h : N.Perm M) : (labs N).Perm (labs M) := h.flatMap_right _

theorem term_perm [CommMonoid K] {N M : List (LT K)} (h : N.Perm M) (ρ : ℤ → ℕ) : term N ρ = term M ρ :=
  (h.map _).prod_eq

theorem term_append [CommMonoid K] (N M : List (LT K)) (ρ : ℤ → ℕ) : term (N ++ M) ρ = term N ρ * term M ρ := by
  simp [term]

theorem term_update_not_mem [CommMonoid K] (N : List (LT K)) (ρ : ℤ → ℕ) (x : ℤ) (i : ℕ) (h : x ∉ labs N) :
    term N (update ρ x i) = term N ρ := by
  unfold term
  congr 1
  refine List.map_congr_left fun p hp => ?_
  rw [map_update_not_mem]
  intro hx
  exact h (List.mem_flatMap.2 ⟨p, hp, hx⟩)

/-- Replacing a group `G` of tensors by their contraction over `icon`. -/
theorem inv_merge [CommSemiring K] {N G rest : List (LT K)} {order F icon : List ℤ} {dim : ℤ → ℕ}
    (hI : Inv N order F dim) (hP : N.Perm (G ++ rest)) (hG : G ≠ [])
    (hicon : icon.Nodup) (hio : ∀ e ∈ icon, e ∈ order) (hcnt : ∀ e ∈ icon, (labs G).count e = 2)
    (C : ND K) (hCs : C.shape = ((labs G).filter (· ∉ icon)).map dim)
    (hCv : ∀ ρ, C.val (((labs G).filter (· ∉ icon)).map ρ) = labelSum icon dim (term G) ρ) :
    Inv (rest ++ [(C, (labs G).filter (· ∉ icon))]) (order.filter (· ∉ icon)) F dim ∧
    ∀ ρ, labelSum (order.filter (· ∉ icon)) dim
        (term (rest ++ [(C, (labs G).filter (· ∉ icon))])) ρ = labelSum order dim (term N) ρ := by
  have hLP : (labs N).Perm (labs G ++ labs rest) := by simpa using labs_perm hP
  have hcN : ∀ x, (labs N).count x = (labs G).count x + (labs rest).count x := by
    intro x; rw [hLP.count_eq, List.count_append]
  have hrest : ∀ e ∈ icon, e ∉ labs rest := by
    intro e he hm
    have h1 := hcN e
    rw [hI.twice e (hio e he), hcnt e he] at h1
    have := List.count_pos_iff.2 hm
    omega
  set r : LT K := (C, (labs G).filter (· ∉ icon)) with hr
  have hlN' : labs (rest ++ [r]) = labs rest ++ (labs G).filter (· ∉ icon) := by simp [hr]
  have hcN' : ∀ x, x ∉ icon → (labs (rest ++ [r])).count x = (labs N).count x := by
    intro x hx
    rw [hlN', List.count_append, hcN, List.count_filter (by simpa using hx), Nat.add_comm]
  have hnot : ∀ x ∈ labs (rest ++ [r]), x ∉ icon := by
    intro x hx hxi
    rw [hlN', List.mem_append] at hx
    rcases hx with h | h
    · exact hrest x hxi h
    · simpa [hxi] using (List.mem_filter.1 h).2
  refine ⟨⟨⟨by simp, ?_, hI.nodup.filter _, ?_, ?_, ?_⟩, ?_⟩, ?_⟩
  · intro p hp
    rw [List.mem_append] at hp
    rcases hp with h | h
    · exact hI.shapes p (hP.mem_iff.2 (List.mem_append_right _ h))
    · simp only [List.mem_singleton] at h
      subst h
      exact hCs
  · intro x hx
    simp only [List.mem_filter, decide_eq_true_eq] at hx
    rw [hcN' x hx.2, hI.twice x hx.1]
  · intro x hx hxo
    have hxi := hnot x hx
    have hxo' : x ∉ order := fun h => hxo (by simp [h, hxi])
    rw [hcN' x hxi]
    refine hI.once x ?_ hxo'
    rw [← List.count_pos_iff, ← hcN' x hxi]
    exact List.count_pos_iff.2 hx
  · intro x
    rw [← hI.free x]
    constructor
    · rintro ⟨hx, hxo⟩
      have hxi := hnot x hx
      refine ⟨?_, fun h => hxo (by simp [h, hxi])⟩
      rw [← List.count_pos_iff, ← hcN' x hxi]
      exact List.count_pos_iff.2 hx
    · rintro ⟨hx, hxo⟩
      have hxi : x ∉ icon := fun h => hxo (hio x h)
      refine ⟨?_, fun h => hxo (List.mem_filter.1 h).1⟩
      rw [← List.count_pos_iff, hcN' x hxi]
      exact List.count_pos_iff.2 hx
  · -- connectivity
    have key : ∀ S T : List (LT K), (rest ++ [r]).Perm (S ++ T) → r ∈ S → T ≠ [] →
        ∃ x ∈ labs S, x ∈ labs T := by
      intro S T hST hrS hT
      obtain ⟨S', hS'⟩ : ∃ S', S.Perm (r :: S') := by
        obtain ⟨s, t, rfl⟩ := List.append_of_mem hrS
        exact ⟨s ++ t, List.perm_middle⟩
      have h1 : rest.Perm (S' ++ T) := by
        have : (r :: rest).Perm (r :: (S' ++ T)) :=
          (List.perm_append_singleton r rest).symm.trans (hST.trans (hS'.append_right T))
        exact this.cons_inv
      have h2 : N.Perm ((G ++ S') ++ T) := by
        rw [List.append_assoc]; exact hP.trans (h1.append_left G)
      obtain ⟨x, hx1, hx2⟩ := hI.conn _ _ h2 (by simp [hG]) hT
      refine ⟨x, ?_, hx2⟩
      rw [(labs_perm hS').mem_iff, labs_cons, List.mem_append]
      rw [labs_append, List.mem_append] at hx1
      rcases hx1 with hx1 | hx1
      · left
        have hxr : x ∈ labs rest := (labs_perm h1).mem_iff.2 (by simp [hx2])
        have hxi : x ∉ icon := fun h => hrest x h hxr
        simp [hr, hx1, hxi]
      · exact Or.inr hx1
    intro S T hST hS hT
    have hrm : r ∈ S ++ T := hST.mem_iff.1 (by simp)
    rcases List.mem_append.1 hrm with h | h
    · exact key S T hST h hT
    · obtain ⟨x, h1, h2⟩ := key T S (hST.trans List.perm_append_comm) h hS
      exact ⟨x, h2, h1⟩
  · intro ρ
    have hpo : order.Perm (order.filter (· ∉ icon) ++ icon) := by
      rw [List.perm_ext_iff_of_nodup hI.nodup]
      · intro a
        simp only [List.mem_append, List.mem_filter, decide_eq_true_eq]
        constructor
        · intro h
          by_cases ha : a ∈ icon
          · exact Or.inr ha
          · exact Or.inl ⟨h, ha⟩
        · rintro (h | h)
          · exact h.1
          · exact hio a h
      · refine List.Nodup.append (hI.nodup.filter _) hicon ?_
        intro a h1 h2
        simp [h2] at h1
    rw [labelSum_perm hpo hI.nodup, labelSum_append]
    refine labelSum_congr _ _ (fun ρ => ?_) _
    have h1 : labelSum icon dim (term N) ρ = labelSum icon dim (fun ρ => term G ρ * term rest ρ) ρ :=
      labelSum_congr _ _ (fun ρ => by rw [term_perm hP, term_append]) _
    rw [h1, labelSum_mul_right _ _ _ _
      (fun x hx ρ i => term_update_not_mem _ _ _ _ (hrest x hx)), ← hCv, term_append]
    simp [term, hr, mul_comm]

/-! ### which tensors carry a label -/

theorem sum_map_filter_eq {α : Type} (l : List α) (c : α → ℕ) (q : α → Bool)
    (h : ∀ a ∈ l, q a = false → c a = 0) : ((l.filter q).map c).sum = (l.map c).sum := by
  induction l with
  | nil => rfl
  | cons a l ih =>
    have ih := ih fun b hb => h b (by simp [hb])
    by_cases hq : q a = true
    · simp [hq, ih]
    · have hq' : q a = false := by simpa using hq
      simp [hq', ih, h a (by simp) hq']

theorem length_le_sum {α : Type} (l : List α) (c : α → ℕ) (h : ∀ a ∈ l, 1 ≤ c a) :
    l.length ≤ (l.map c).sum := by
  induction l with
  | nil => simp
  | cons a l ih =>
    have := h a (by simp)
    have := ih fun b hb => h b (by simp [hb])
    simp; omega

theorem count_flatten_range (v : List (List ℤ)) (o : ℤ) :
    v.flatten.count o = ((List.range v.length).map fun i => (v.getD i []).count o).sum := by
  rw [List.count_flatten]
  conv_lhs => rw [← map_getD_range v []]
  rw [List.map_map]
  rfl

theorem tcon_cases (v : List (List ℤ)) (o : ℤ) (h : v.flatten.count o = 2) :
    (∃ i, (List.range v.length).filter (fun i => decide (o ∈ v.getD i [])) = [i] ∧
      i < v.length ∧ (v.getD i []).count o = 2) ∨
    (∃ i j, (List.range v.length).filter (fun i => decide (o ∈ v.getD i [])) = [i, j] ∧
      i < j ∧ j < v.length ∧ (v.getD i []).count o = 1 ∧ (v.getD j []).count o = 1) := by
  have hs := sum_map_filter_eq (List.range v.length) (fun i => (v.getD i []).count o)
    (fun i => decide (o ∈ v.getD i [])) (by
      intro a _ ha
      simpa [List.count_eq_zero] using ha)
  rw [← count_flatten_range, h] at hs
  have hsub : ∀ i ∈ (List.range v.length).filter (fun i => decide (o ∈ v.getD i [])),
      i < v.length ∧ 1 ≤ (v.getD i []).count o := by
    intro i hi
    rw [List.mem_filter] at hi
    refine ⟨by simpa using hi.1, ?_⟩
    have : o ∈ v.getD i [] := by simpa using hi.2
    exact List.count_pos_iff.2 this
  have hlen := length_le_sum _ (fun i => (v.getD i []).count o) (fun a ha => (hsub a ha).2)
  have hsorted : ((List.range v.length).filter (fun i => decide (o ∈ v.getD i []))).Pairwise (· < ·) :=
    List.pairwise_lt_range.filter _
  generalize hT : (List.range v.length).filter (fun i => decide (o ∈ v.getD i [])) = T at *
  match T, hsub, hlen, hsorted, hs with
  | [], _, _, _, hs => simp at hs
  | [i], hsub, _, _, hs =>
    left
    exact ⟨i, rfl, (hsub i (by simp)).1, by simpa using hs⟩
  | [i, j], hsub, _, hsorted, hs =>
    right
    have h1 := hsub i (by simp)
    have h2 := hsub j (by simp)
    simp only [List.map_cons, List.map_nil, List.sum_cons, List.sum_nil] at hs
    exact ⟨i, j, rfl, by simpa using hsorted, h2.1, by omega, by omega⟩
  | _ :: _ :: _ :: _, _, hlen, _, hs => rw [hs] at hlen; simp at hlen

theorem delAll_one {α : Type} (l : List α) (a : α) {i : ℕ} (h : i < l.length) :
    delAll [i] (l ++ [a]) = l.eraseIdx i ++ [a] := by
  simp [delAll, List.eraseIdx_append_of_lt_length h]

theorem delAll_two {α : Type} (l : List α) (a : α) {i j : ℕ} (hij : i < j) (h : j < l.length) :
    delAll [i, j] (l ++ [a]) = (l.eraseIdx j).eraseIdx i ++ [a] := by
  have : i < (l.eraseIdx j).length := by rw [List.length_eraseIdx_of_lt h]; omega
  simp [delAll, List.eraseIdx_append_of_lt_length h, List.eraseIdx_append_of_lt_length this]

theorem perm_erase_two {α : Type} (l : List α) {i j : ℕ} (hij : i < j) (h : j < l.length) :
    l.Perm (l[i] :: l[j] :: (l.eraseIdx j).eraseIdx i) := by
  have hi : i < (l.eraseIdx j).length := by rw [List.length_eraseIdx_of_lt h]; omega
  have h1 : (l[j] :: l.eraseIdx j).Perm l := List.getElem_cons_eraseIdx_perm h
  have h2 : ((l.eraseIdx j)[i] :: (l.eraseIdx j).eraseIdx i).Perm (l.eraseIdx j) :=
    List.getElem_cons_eraseIdx_perm hi
  have h3 : (l.eraseIdx j)[i] = l[i] := by
    rw [List.getElem_eraseIdx_of_lt _ hij]
  rw [h3] at h2
  exact h1.symm.trans ((h2.symm.cons _).trans (List.Perm.swap _ _ _))

theorem flatten_map_snd (N : List (LT K)) : (N.map Prod.snd).flatten = labs N := by
  simp [labs, List.flatMap]

/-- One pass of the loop. -/
theorem step_spec [CommSemiring K] (O : SetOrder) {N : List (LT K)} {o : ℤ} {order F : List ℤ} {dim : ℤ → ℕ}
    (hI : Inv N (o :: order) F dim) :
    ∃ N' order', step O ⟨N.map Prod.fst, N.map Prod.snd, o :: order⟩ o =
        .ok ⟨N'.map Prod.fst, N'.map Prod.snd, order'⟩ ∧
      Inv N' order' F dim ∧ order'.length ≤ order.length ∧
      ∀ ρ, labelSum order' dim (term N') ρ = labelSum (o :: order) dim (term N) ρ := by
  have hc : (N.map Prod.snd).flatten.count o = 2 := by
    rw [flatten_map_snd]; exact hI.twice o (by simp)
  have hlen : (N.map Prod.snd).length = N.length := by simp
  have hord : ∀ icon : List ℤ, o ∈ icon →
      ((o :: order).filter (· ∉ icon)).length ≤ order.length := by
    intro icon h
    simp only [List.filter_cons, h, not_true_eq_false, decide_false]
    exact List.length_filter_le _ _
  rcases tcon_cases _ o hc with ⟨i, hT, hi, hci⟩ | ⟨i, j, hT, hij, hj, hci, hcj⟩
  · -- trace
    rw [hlen] at hi
    have hgi : (N.map Prod.snd).getD i [] = N[i].2 := by
      rw [List.getD_eq_getElem _ _ (by simpa using hi)]; simp
    rw [hgi] at hci
    have hP : N.Perm ([N[i]] ++ N.eraseIdx i) := (List.getElem_cons_eraseIdx_perm hi).symm
    obtain ⟨a, b, C, hpos, htr, hCs, hCv⟩ :=
      trace_label (hI.shapes N[i] (List.getElem_mem hi)) hci
    have hlG : labs [N[i]] = N[i].2 := by simp
    obtain ⟨hI', hsum⟩ := inv_merge hI hP (by simp) (List.nodup_singleton o) (by simp)
      (by simp [hci]) C (by rw [hlG]; exact hCs) (by
        intro ρ
        rw [hlG]
        rw [show (List.filter (fun x => decide (x ∉ [o])) N[i].2) = findNewv N[i].2 [o] from rfl, hCv]
        exact labelSum_congr _ _ (fun ρ => by simp [term]) _)
    refine ⟨_, _, ?_, hI', hord _ (by simp), hsum⟩
    have hT' : getTcon (N.map Prod.snd) o = .ok [i] := by
      unfold getTcon
      simp only [hT]
      rw [show ([i] : List ℕ).getD 0 0 = i from rfl, hgi, hci]
      simp
    unfold step
    simp only [hT', ok_bind, pyGet_cons_zero, List.length_singleton, if_true]
    rw [pyGet_ok (by simpa using hi), pyGet_ok (by simpa using hi)]
    simp only [List.getElem_map, ok_bind, hpos, pyGet_cons_zero, pyGet_cons_succ, htr]
    rw [delAll_one _ _ (by simpa using hi), delAll_one _ _ (by simpa using hi)]
    simp [List.eraseIdx_map, findNewv, renewOrder]
  · -- contraction
    rw [hlen] at hj
    have hi : i < N.length := by omega
    have hgi : (N.map Prod.snd).getD i [] = N[i].2 := by
      rw [List.getD_eq_getElem _ _ (by simpa using hi)]; simp
    have hgj : (N.map Prod.snd).getD j [] = N[j].2 := by
      rw [List.getD_eq_getElem _ _ (by simpa using hj)]; simp
    rw [hgi] at hci
    rw [hgj] at hcj
    set icon := getIcon O N[i].2 N[j].2 with hicon
    have hmem : ∀ e, e ∈ icon ↔ e ∈ N[i].2 ∧ e ∈ N[j].2 := by
      intro e; simp [hicon, getIcon, O.mem_list]
    have hP : N.Perm ([N[i], N[j]] ++ (N.eraseIdx j).eraseIdx i) := perm_erase_two N hij hj
    have hlG : labs [N[i], N[j]] = N[i].2 ++ N[j].2 := by simp
    have hcc : ∀ e ∈ icon, e ∈ o :: order ∧ N[i].2.count e = 1 ∧ N[j].2.count e = 1 := by
      intro e he
      obtain ⟨h1, h2⟩ := (hmem e).1 he
      have h1' := List.count_pos_iff.2 h1
      have h2' := List.count_pos_iff.2 h2
      have hcN : (labs N).count e = N[i].2.count e + N[j].2.count e +
          (labs ((N.eraseIdx j).eraseIdx i)).count e := by
        rw [(labs_perm hP).count_eq, labs_append, List.count_append, hlG, List.count_append]
      have hmN : e ∈ labs N := List.count_pos_iff.1 (by omega)
      by_cases heo : e ∈ o :: order
      · have := hI.twice e heo
        exact ⟨heo, by omega, by omega⟩
      · have := hI.once e hmN heo
        omega
    obtain ⟨C, htd, hCs, hCv⟩ := tensordot_label (icon := icon)
      (hI.shapes N[i] (List.getElem_mem hi)) (hI.shapes N[j] (List.getElem_mem hj))
      (O.nodup_list _) (fun e he => (hcc e he).2.1) (fun e he => (hcc e he).2.2)
    have ho : o ∈ icon := (hmem o).2 ⟨List.count_pos_iff.1 (by omega), List.count_pos_iff.1 (by omega)⟩
    have hnd : icon.Nodup := O.nodup_list _
    obtain ⟨hI', hsum⟩ := inv_merge (icon := icon) hI hP (by simp) hnd (fun e he => (hcc e he).1)
      (fun e he => by rw [hlG, List.count_append, (hcc e he).2.1, (hcc e he).2.2]) C
      (by rw [hlG]; exact hCs) (by
        intro ρ
        rw [hlG]
        rw [show (List.filter (fun x => decide (x ∉ icon)) (N[i].2 ++ N[j].2)) =
          findNewv (N[i].2 ++ N[j].2) icon from rfl, hCv]
        exact labelSum_congr _ _ (fun ρ => by simp [term]) _)
    refine ⟨_, _, ?_, hI', hord _ ho, hsum⟩
    have hT' : getTcon (N.map Prod.snd) o = .ok [i, j] := by
      unfold getTcon
      simp only [hT]
      simp
    unfold step
    simp only [hT', ok_bind, pyGet_cons_zero, pyGet_cons_succ, List.length_cons, List.length_nil]
    have g1 : pyGet (N.map Prod.snd) i = .ok N[i].2 := by rw [pyGet_ok (by simpa using hi)]; simp
    have g2 : pyGet (N.map Prod.snd) j = .ok N[j].2 := by rw [pyGet_ok (by simpa using hj)]; simp
    have g3 : pyGet (N.map Prod.fst) i = .ok N[i].1 := by rw [pyGet_ok (by simpa using hi)]; simp
    have g4 : pyGet (N.map Prod.fst) j = .ok N[j].1 := by rw [pyGet_ok (by simpa using hj)]; simp
    have d1 := delAll_two (N.map Prod.fst) C hij (by simpa using hj)
    have d2 := delAll_two (N.map Prod.snd) (findNewv (N[i].2 ++ N[j].2) icon) hij (by simpa using hj)
    simp only [g1, g2, g3, g4, ok_bind, ← hicon, htd, d1, d2]
    simp [List.eraseIdx_map, findNewv, renewOrder]

/-- The whole loop ends with one tensor whose labels are the free ones. -/
theorem mainLoop_spec [CommSemiring K] (O : SetOrder) {F : List ℤ} {dim : ℤ → ℕ} :
    ∀ (fuel : ℕ) {N : List (LT K)} {order : List ℤ}, order.length ≤ fuel → Inv N order F dim →
    ∃ A l, mainLoop O fuel ⟨N.map Prod.fst, N.map Prod.snd, order⟩ = .ok ⟨[A], [l], []⟩ ∧
      Inv [(A, l)] [] F dim ∧ ∀ ρ, A.val (l.map ρ) = labelSum order dim (term N) ρ := by
  have fin : ∀ (fuel : ℕ) {N : List (LT K)}, Inv N [] F dim →
      ∃ A l, mainLoop O fuel ⟨N.map Prod.fst, N.map Prod.snd, []⟩ = .ok ⟨[A], [l], []⟩ ∧
      Inv [(A, l)] [] F dim ∧ ∀ ρ, A.val (l.map ρ) = labelSum [] dim (term N) ρ := by
    intro fuel N hI
    match N, hI with
    | [], hI => exact absurd rfl hI.ne
    | [(A, l)], hI => exact ⟨A, l, by cases fuel <;> rfl, hI, fun ρ => by simp [labelSum, term]⟩
    | p :: q :: rest, hI =>
      exfalso
      obtain ⟨x, h1, h2⟩ := hI.conn [p] (q :: rest) (List.Perm.refl _) (by simp) (by simp)
      have hc := hI.once x (by simp only [labs_cons, labs_nil, List.append_nil] at h1; simp [h1]) (by simp)
      have e : labs (p :: q :: rest) = labs [p] ++ labs (q :: rest) := by simp
      rw [e, List.count_append] at hc
      have := List.count_pos_iff.2 h1
      have := List.count_pos_iff.2 h2
      omega
  intro fuel
  induction fuel with
  | zero =>
    intro N order hf hI
    have : order = [] := by simpa using hf
    subst this
    exact fin 0 hI
  | succ fuel ih =>
    intro N order hf hI
    cases order with
    | nil => exact fin _ hI
    | cons o order =>
      obtain ⟨N', order', hs, hI', hl, hsum⟩ := step_spec O hI
      obtain ⟨A, l, hm, hI2, hv⟩ := ih (N := N') (order := order') (by simp at hf; omega) hI'
      refine ⟨A, l, ?_, hI2, fun ρ => by rw [hv, hsum]⟩
      rw [mainLoop]
      simp only [hs, ok_bind]
      exact hm

end Xmps.Ncon
